import Verif.Lemmas.Rounded.LimitDesign

/-! # Lemmas: transfer-function coefficients as the precision grows -/

namespace SciRs.Rounded

open Complex SciRs.Design SciRs.Spec Filter Topology

theorem idx_lim {F : Setup → List ℂ} {L : List ℂ} (h : Along Tends F L) {u : ℕ} {b : ℂ} (hb : idx L u = .ok b) :
    ∃ a : Setup → ℂ, (∀ i, idx (F i) u = .ok (a i)) ∧ Tendsto a fine (𝓝 b) := by
  induction h generalizing u with
  | nil => simp [idx] at hb
  | @cons a c F L hac _ ih =>
    cases u with
    | zero =>
      have : c = b := by simpa [idx] using hb
      exact ⟨a, fun i => rfl, this ▸ hac⟩
    | succ u =>
      obtain ⟨a', h1, h2⟩ := ih (u := u) (by simpa [idx] using hb)
      exact ⟨a', fun i => by simpa [idx] using h1 i, h2⟩

theorem polyEntry_lim {F K : Setup → List ℂ} {L L' : List ℂ} (h : Along Tends F L) (hK : Along Tends K L') {j : ℕ}
    {b : ℂ} (hb : polyEntry E L L' j = .ok b) :
    ∃ a : Setup → ℂ, (∀ i, polyEntry i.A (F i) (K i) j = .ok (a i)) ∧ Tendsto a fine (𝓝 b) := by
  unfold polyEntry at hb ⊢
  dsimp only at hb ⊢
  simp only [h.length] at hb ⊢
  generalize (if j > L.length then j - 2 else 0) = ui at hb ⊢
  generalize min j (L.length - 1) = uf at hb ⊢
  split at hb
  · rename_i hif
    obtain ⟨x, hx, hb⟩ := bind_eq_ok.mp hb
    obtain ⟨y, hy, hb⟩ := bind_eq_ok.mp hb
    obtain ⟨xa, hxa, tx⟩ := idx_lim h hx
    obtain ⟨ya, hya, ty⟩ := idx_lim hK hy
    cases hb
    refine ⟨fun i => i.A.cadd 0 (i.A.cmul (xa i) (ya i)), fun i => ?_,
      tendsto_cadd (a := fun _ => 0) (x := 0) tendsto_const_nhds (tendsto_cmul tx ty)⟩
    rw [if_pos hif, hxa i, ok_bind, hya i]; rfl
  · rename_i hif
    simp only [if_neg hif]
    have key : ∀ (l : List ℕ) (acc : Setup → ℂ) (acc0 : ℂ), Tendsto acc fine (𝓝 acc0) → ∀ b : ℂ,
        l.foldlM (fun acc u => if j - u < 2 then do
          let x ← idx L u
          let y ← idx L' (j - u)
          return E.cadd acc (E.cmul x y)
        else return acc) acc0 = (.ok b : Res ℂ) →
        ∃ a : Setup → ℂ, (∀ i, l.foldlM (fun acc u => if j - u < 2 then do
          let x ← idx (F i) u
          let y ← idx (K i) (j - u)
          return i.A.cadd acc (i.A.cmul x y)
        else return acc) (acc i) = (.ok (a i) : Res ℂ)) ∧ Tendsto a fine (𝓝 b) := by
      intro l
      induction l with
      | nil =>
        intro acc acc0 hacc b hb
        cases hb
        exact ⟨acc, fun i => rfl, hacc⟩
      | cons u l ih =>
        intro acc acc0 hacc b hb
        simp only [List.foldlM_cons] at hb ⊢
        by_cases hju : j - u < 2
        · simp only [if_pos hju] at hb ⊢
          obtain ⟨s, hs, hb⟩ := bind_eq_ok.mp hb
          obtain ⟨x, hx, hs⟩ := bind_eq_ok.mp hs
          obtain ⟨y, hy, hs⟩ := bind_eq_ok.mp hs
          cases hs
          obtain ⟨xa, hxa, tx⟩ := idx_lim h hx
          obtain ⟨ya, hya, ty⟩ := idx_lim hK hy
          obtain ⟨a, ha, ta⟩ := ih (fun i => i.A.cadd (acc i) (i.A.cmul (xa i) (ya i))) _
            (tendsto_cadd hacc (tendsto_cmul tx ty)) b hb
          refine ⟨a, fun i => ?_, ta⟩
          rw [← ha i, hxa i, ok_bind, hya i]; rfl
        · simp only [if_neg hju] at hb ⊢
          obtain ⟨s, hs, hb⟩ := bind_eq_ok.mp hb
          cases hs
          obtain ⟨a, ha, ta⟩ := ih acc _ hacc b hb
          exact ⟨a, fun i => by rw [← ha i]; rfl, ta⟩
    exact key _ (fun _ => 0) 0 tendsto_const_nhds b hb

theorem mapM_lim {α : Type} {f : Setup → α → Res ℂ} {g : α → Res ℂ}
    (hf : ∀ x b, g x = .ok b → ∃ a : Setup → ℂ, (∀ i, f i x = .ok (a i)) ∧ Tendsto a fine (𝓝 b)) :
    ∀ (l : List α) (ys : List ℂ), l.mapM g = .ok ys →
      ∃ F : Setup → List ℂ, (∀ i, l.mapM (f i) = .ok (F i)) ∧ Along Tends F ys := by
  intro l
  induction l with
  | nil => intro ys h; cases h; exact ⟨fun _ => [], fun _ => rfl, .nil⟩
  | cons x l ih =>
    intro ys h
    rw [List.mapM_cons] at h
    obtain ⟨b, hb, h⟩ := bind_eq_ok.mp h
    obtain ⟨bs, hbs, h⟩ := bind_eq_ok.mp h
    cases h
    obtain ⟨a, ha, ta⟩ := hf x b hb
    obtain ⟨F, hF, tF⟩ := ih bs hbs
    exact ⟨fun i => a i :: F i, fun i => by rw [List.mapM_cons, ha i, ok_bind, hF i]; rfl, .cons ta tF⟩

theorem polyFold_lim {Z : Setup → List ℂ} {z : List ℂ} (hz : Along Tends Z z) :
    ∀ {F : Setup → List ℂ} {L : List ℂ}, Along Tends F L → ∀ {c : List ℂ}, z.foldlM (polyStep E) L = .ok c →
      ∃ C : Setup → List ℂ, (∀ i, (Z i).foldlM (polyStep i.A) (F i) = .ok (C i)) ∧ Along Tends C c := by
  induction hz with
  | nil => intro F L h c hc; cases hc; exact ⟨F, fun _ => rfl, h⟩
  | @cons w w0 Z z hw _ ih =>
    intro F L h c hc
    rw [List.foldlM_cons] at hc
    obtain ⟨s, hs, hc⟩ := bind_eq_ok.mp hc
    have hw : Tendsto w fine (𝓝 w0) := hw
    have hK : Along Tends (fun i => [1, -w i]) [1, -w0] :=
      .cons (tendsto_const_nhds (x := (1 : ℂ))) (.cons hw.neg .nil)
    obtain ⟨S, hS, tS⟩ := mapM_lim (f := fun i => polyEntry i.A (F i) [1, -w i]) (g := polyEntry E L [1, -w0])
      (fun x b hb => polyEntry_lim h hK hb) _ s hs
    obtain ⟨C, hC, tC⟩ := ih tS hc
    refine ⟨C, fun i => ?_, tC⟩
    have : polyStep i.A (F i) (w i) = .ok (S i) := by unfold polyStep; rw [h.length i]; exact hS i
    rw [List.foldlM_cons, this, ok_bind]
    exact hC i

/-- What is returned are real parts, whether or not the code notices that the polynomial is real. -/
theorem zpk2tf_form {A : Arith} (hA : ∀ (k : ℝ) (c : ℂ), (A.cmul (k : ℂ) ((c.re : ℝ) : ℂ)).re = (A.cmul (k : ℂ) c).re)
    (order : ℕ) (z p : List ℂ) (k : ℝ) {cz cp : List ℂ} (hz : z.foldlM (polyStep A) [1] = .ok cz)
    (hp : p.foldlM (polyStep A) [1] = .ok cp) :
    zpk2tf A order z p k = .ok { b := fillReal order (cz.map (fun c => A.cmul (k : ℂ) c)), a := fillReal order cp } := by
  have fr : ∀ {u v : List ℂ}, u.map Complex.re = v.map Complex.re → fillReal order u = fillReal order v := by
    intro u v h
    have hl : u.length = v.length := by simpa using congrArg List.length h
    unfold fillReal
    rw [hl, List.map_take, List.map_take, h]
  have pb : ∀ x y : List ℂ, (poly2ba x y).map Complex.re = x.map Complex.re := by
    intro x y
    unfold poly2ba
    dsimp only
    split_ifs <;> simp [List.map_map, Function.comp_def]
  have pol : ∀ {y c : List ℂ}, y.foldlM (polyStep A) [1] = .ok c →
      ∃ c', poly A y = .ok c' ∧ (c' = c ∨ c' = c.map (fun a => ((a.re : ℝ) : ℂ))) := by
    intro y c h
    unfold poly
    rw [h, ok_bind]
    dsimp only
    split
    · exact ⟨_, rfl, .inr rfl⟩
    · exact ⟨_, rfl, .inl rfl⟩
  obtain ⟨c1, h1, e1⟩ := pol hz
  obtain ⟨c2, h2, e2⟩ := pol hp
  unfold zpk2tf
  rw [h1, ok_bind, h2, ok_bind]
  refine congrArg Except.ok ?_
  congr 1
  · refine fr ?_
    rw [pb]
    rcases e1 with rfl | rfl
    · rfl
    · simp [List.map_map, Function.comp_def, hA]
  · refine fr ?_
    rw [pb]
    rcases e2 with rfl | rfl
    · rfl
    · simp [List.map_map, Function.comp_def]

theorem fillReal_lim {F : Setup → List ℂ} {L : List ℂ} (h : Along Tends F L) (order : ℕ) :
    Along Tends (fun i => fillReal order (F i)) (fillReal order L) := by
  have take : ∀ {F : Setup → List ℂ} {L : List ℂ}, Along Tends F L → ∀ n : ℕ,
      Along Tends (fun i => (F i).take n) (L.take n) := by
    intro F L h
    induction h with
    | nil => intro n; simpa using Along.nil
    | cons h _ ih =>
      intro n
      cases n with
      | zero => exact .nil
      | succ n => exact .cons h (ih n)
  unfold fillReal
  simp only [h.length]
  exact ((take h _).map _ _ (fun a b _ hab => tendsto_re hab)).append
    (Along.replicate (a := fun _ => 0) (tendsto_const_nhds (x := (0 : ℝ))) _)

/-- Convergence of the transfer function. -/
theorem zpk2tf_lim {d : Setup → Zpk} {g : Zpk} (hz : Along Tends (fun i => (d i).z) g.z)
    (hp : Along Tends (fun i => (d i).p) g.p) (hk : Tendsto (fun i => (d i).k) fine (𝓝 g.k)) (order : ℕ) :
    ∃ (t : Setup → Ba) (t0 : Ba), (∀ i, zpk2tf i.A order (d i).z (d i).p (d i).k = .ok (t i)) ∧
      Design.zpk2tf order g.z g.p g.k = .ok t0 ∧ Along Tends (fun i => (t i).b) t0.b ∧ Along Tends (fun i => (t i).a) t0.a := by
  obtain ⟨cz, hcz, -⟩ := polyFold_returns (A := E) g.z [1] (by simp)
  obtain ⟨cp, hcp, -⟩ := polyFold_returns (A := E) g.p [1] (by simp)
  have h1 : Along Tends (fun _ : Setup => [(1 : ℂ)]) [1] := .cons tendsto_const_nhds .nil
  obtain ⟨Cz, hCz, tz⟩ := polyFold_lim hz h1 hcz
  obtain ⟨Cp, hCp, tp⟩ := polyFold_lim hp h1 hcp
  refine ⟨_, _, fun i => zpk2tf_form (fun k c => ?_) order _ _ _ (hCz i) (hCp i),
    (zpk2tf_exact (eps := 0) order g.z g.p g.k).symm.trans (zpk2tf_form (fun k c => ?_) order _ _ _ hcz hcp), ?_, ?_⟩
  · change i.r.rnd (i.r.rnd (k * c.re) - i.r.rnd (0 * 0)) = i.r.rnd (i.r.rnd (k * c.re) - i.r.rnd (0 * c.im))
    simp
  · change ((k : ℂ) * ((c.re : ℝ) : ℂ)).re = ((k : ℂ) * c).re
    simp
  · exact fillReal_lim (tz.map (Q := Tends) _ _ (fun a b _ hab => tendsto_cmul (tendsto_ofReal hk) hab)) order
  · exact fillReal_lim tp order

end SciRs.Rounded

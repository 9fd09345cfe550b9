import Verif.Props.Rounded.Coefficients

/-! # Lemmas: the sections made from given zeros and poles -/

namespace SciRs.Rounded

open Complex SciRs.Design SciRs.Spec SciRs.Props

variable {r : Rounding} {m : Libm}

/-- Zeros, poles and gain as a digital design returns them. -/
structure SectionRoots (r : Rounding) (m : Libm) (g : Zpk) : Prop where
  cz : ConjClosed g.z
  cp : ConjClosed g.p
  len : g.z.length = g.p.length
  pos : 0 < g.p.length
  rz : ∀ x ∈ g.z, (Arith.ofRounding r m).Rep x
  rp : ∀ x ∈ g.p, (Arith.ofRounding r m).Rep x
  k : r.rnd g.k = g.k

theorem conjClosed_perm {l l' : List ℂ} (h : l'.Perm l) (hc : ConjClosed l) : ConjClosed l' :=
  (h.map _).trans (hc.trans h.symm)

theorem SectionRoots.perm {g g' : Zpk} (h : SectionRoots r m g) (hz : g'.z.Perm g.z) (hp : g'.p.Perm g.p)
    (hk : r.rnd g'.k = g'.k) : SectionRoots r m g' where
  cz := conjClosed_perm hz h.cz
  cp := conjClosed_perm hp h.cp
  len := by rw [hz.length_eq, hp.length_eq, h.len]
  pos := by rw [hp.length_eq]; exact h.pos
  rz x hx := h.rz x (hz.mem_iff.mp hx)
  rp x hx := h.rp x (hp.mem_iff.mp hx)
  k := hk

theorem SectionRoots.of_design (hr : r.Nearest) {order : ℕ} (ho : order ≠ 0) {wn : List ℝ} {rp rs : Option ℝ} {btype : Band}
    {ftype : FType} {fs : Option ℝ} (hk : KeepsPairs btype ftype) {g : Zpk}
    (h : design (.ofRounding r m) order wn rp rs btype ftype false fs = .ok g) :
    SectionRoots r m g ∧ g.p.length = poleCount order btype := by
  obtain ⟨c1, c2, c3, c4, c5⟩ := design_good (ofRounding_lawful hr m) hk h
  obtain ⟨c5, r1, r2⟩ := c5 rfl
  refine ⟨⟨c1, c2, c5, by rw [c4]; unfold poleCount; split <;> omega, r1, r2, ?_⟩, c4⟩
  unfold Rounded.design at h
  obtain ⟨w, hw, hf⟩ := bind_eq_ok.mp h
  obtain ⟨g, hg, hf⟩ := bind_eq_ok.mp hf
  obtain ⟨v, hv, hf⟩ := bind_eq_ok.mp hf
  obtain ⟨g', hg', hf⟩ := bind_eq_ok.mp hf
  unfold Rounded.discretise at hf
  rw [if_pos rfl] at hf
  unfold Rounded.bilinear at hf
  obtain ⟨d, hd, hf⟩ := bind_eq_ok.mp hf
  cases hf
  exact hr.idem _

/-- The sections made from groups of two zeros and two poles, the gain in the first. -/
noncomputable def sectionsOf (r : Rounding) (k : ℝ) (q0 : ℂ × ℂ × ℂ × ℂ) (qs : List (ℂ × ℂ × ℂ × ℂ)) : List (Sos ℝ) :=
  (let s0 := roundedSection r q0.1 q0.2.1 q0.2.2.1 q0.2.2.2
   { s0 with b0 := k, b1 := r.rnd (s0.b1 * k), b2 := r.rnd (s0.b2 * k) }) ::
    qs.map (fun q => roundedSection r q.1 q.2.1 q.2.2.1 q.2.2.2)

/-- The sections, if no root passes for real. -/
theorem zpk2sos_roots (hr : r.Nearest) {s : Sorts} (hs : s.Correct) (order : ℕ) {f : Zpk} (H : SectionRoots r m f)
    (hnear : ∀ x ∈ f.z ++ f.p, ¬ NearReal (.ofRounding r m) x) :
    ∃ (q0 : ℂ × ℂ × ℂ × ℂ) (qs : List (ℂ × ℂ × ℂ × ℂ)),
      zpk2sos (.ofRounding r m) s order f none (some false) =
        .ok (sectionsOf r f.k q0 qs) ∧
      (q0 :: qs).length = (f.p.length + 1) / 2 ∧
      (∀ q ∈ q0 :: qs, PairOfRoots q.1 q.2.1 ∧ PairOfRoots q.2.2.1 q.2.2.2) ∧
      ((q0 :: qs).flatMap (fun q => [q.1, q.2.1])).Perm (f.z ++ List.replicate (f.p.length % 2) 0) ∧
      ((q0 :: qs).flatMap (fun q => [q.2.2.1, q.2.2.2])).Perm (f.p ++ List.replicate (f.p.length % 2) 0) := by
  obtain ⟨h1, h2, h5, hpos, r1, r2, hkrep⟩ := H
  obtain ⟨A, hAdef⟩ : ∃ A, A = Arith.ofRounding r m := ⟨_, rfl⟩
  have hA : A.Lawful := hAdef ▸ ofRounding_lawful hr m
  rw [← hAdef] at hnear ⊢
  obtain ⟨n, hn⟩ : ∃ n, n = (f.p.length + 1) / 2 := ⟨_, rfl⟩
  obtain ⟨q, hq⟩ : ∃ q, q = f.p.length % 2 := ⟨_, rfl⟩
  have rep0 : ∀ x ∈ List.replicate q (0 : ℂ), A.Rep x := fun x hx => by
    rw [(List.mem_replicate.mp hx).2]; exact ⟨by simpa using hA.rep_zero, by simpa using hA.rep_zero⟩
  have rz : ∀ x ∈ f.z ++ List.replicate q 0, A.Rep x := fun x hx =>
    (List.mem_append.mp hx).elim (fun h => hAdef ▸ r1 x h) (rep0 x)
  have rp' : ∀ x ∈ f.p ++ List.replicate q 0, A.Rep x := fun x hx =>
    (List.mem_append.mp hx).elim (fun h => hAdef ▸ r2 x h) (rep0 x)
  have cz : ConjClosed (f.z ++ List.replicate q 0) := conjClosed_append h1 (by simpa using conjClosed_replicate_real q 0)
  have cp : ConjClosed (f.p ++ List.replicate q 0) := conjClosed_append h2 (by simpa using conjClosed_replicate_real q 0)
  have lz : (f.z ++ List.replicate q 0).length = 2 * n := by
    rw [List.length_append, List.length_replicate, h5]; omega
  have lp : (f.p ++ List.replicate q 0).length = 2 * n := by
    rw [List.length_append, List.length_replicate]; omega
  have hzpk : Rounded.zpk2sos A s order f none (some false) =
      pairUp A s .nearest false (f.z ++ List.replicate q 0) (f.p ++ List.replicate q 0) f.k n := by
    unfold Rounded.zpk2sos
    dsimp only [Option.getD_some, Option.getD_none]
    rw [if_neg (by simp), if_neg (by rintro ⟨-, h0⟩; rw [h0] at hpos; simp at hpos), if_pos (by simp)]
    have e1 : f.z.length - f.p.length = 0 := by omega
    rw [e1, List.replicate_zero, List.append_nil, h5, Nat.sub_self, List.replicate_zero, List.append_nil, h5,
      Nat.max_self]
    by_cases hodd : f.p.length % 2 = 1
    · rw [if_pos ⟨hodd, rfl⟩, check_true (by simp [h5]), ok_bind, hq, hodd, hn]; rfl
    · have : q = 0 := by omega
      rw [if_neg (fun h => hodd h.1), check_true (by simp [h5]), ok_bind, this, hn]
      simp
  have hpad : ∀ l : List ℂ, (∀ x ∈ l, ¬ NearReal A x) → Rounded.Separated A (defaultTol A) (l ++ List.replicate q 0) := by
    intro l hl x hx
    rcases List.mem_append.mp hx with hx | hx
    · exact (separated_iff A l).mpr hl x hx
    · left; rw [(List.mem_replicate.mp hx).2]; simp
  obtain ⟨new, qs, e, hl, hm, hZ, hP⟩ := Rounded.pairUp_even hA hs .nearest false f.k (n := n) (by omega) cz cp rz rp'
    (hpad _ fun x hx => hnear x (List.mem_append_left _ hx)) (hpad _ fun x hx => hnear x (List.mem_append_right _ hx)) lz lp
  -- one section
  have one : ∀ (x : Sos ℝ) (q : ℂ × ℂ × ℂ × ℂ), q ∈ qs →
      Rounded.single A [q.1, q.2.1] [q.2.2.1, q.2.2.2] 1 = .ok x →
      x = roundedSection r q.1 q.2.1 q.2.2.1 q.2.2.2 := by
    intro x q hq hx
    have m1 : ∀ y ∈ [q.1, q.2.1], A.Rep y := fun y hy =>
      rz y (hZ.subset (List.mem_flatMap.mpr ⟨q, hq, hy⟩))
    have m2 : ∀ y ∈ [q.2.2.1, q.2.2.2], A.Rep y := fun y hy =>
      rp' y (hP.subset (List.mem_flatMap.mpr ⟨q, hq, hy⟩))
    subst hAdef
    rw [single_fl hr (m1 _ (by simp)) (m1 _ (by simp)) (m2 _ (by simp)) (m2 _ (by simp))] at hx
    cases hx
    rfl
  have all : ∀ (l : List (Sos ℝ)) (qs' : List (ℂ × ℂ × ℂ × ℂ)), (∀ q ∈ qs', q ∈ qs) →
      List.Forall₂ (fun s q => Rounded.single A [q.1, q.2.1] [q.2.2.1, q.2.2.2] 1 = .ok s ∧
        ConjClosed [q.1, q.2.1] ∧ ConjClosed [q.2.2.1, q.2.2.2]) l qs' →
      l = qs'.map (fun q => roundedSection r q.1 q.2.1 q.2.2.1 q.2.2.2) ∧
        ∀ q ∈ qs', PairOfRoots q.1 q.2.1 ∧ PairOfRoots q.2.2.1 q.2.2.2 := by
    intro l qs' hsub hF
    induction hF with
    | nil => simp
    | @cons x q l' qs'' hxq _ ih =>
      obtain ⟨i1, i2⟩ := ih (fun q hq => hsub q (List.mem_cons_of_mem _ hq))
      refine ⟨by rw [List.map_cons, ← i1, ← one x q (hsub q (by simp)) hxq.1], ?_⟩
      intro q' hq'
      rcases List.mem_cons.mp hq' with rfl | hq'
      · exact ⟨pairOfRoots_of_conjClosed hxq.2.1, pairOfRoots_of_conjClosed hxq.2.2⟩
      · exact i2 q' hq'
  obtain ⟨a1, a2⟩ := all _ qs (fun _ h => h) (List.Forall₂.imp (fun a b hab => ⟨hab.made, hab.z, hab.p⟩) hm)
  have hlq : qs.length = n := by
    rw [← hl, a1, List.length_map]
  match qs, a1, a2, hZ, hP, hlq with
  | [], _, _, _, _, hlq => simp at hlq; omega
  | q0 :: qs, a1, a2, hZ, hP, hlq =>
    refine ⟨q0, qs, ?_, by rw [hlq, hn], a2, hq ▸ hZ, hq ▸ hP⟩
    rw [hzpk, e, a1]
    refine congrArg Except.ok ?_
    have : A.mul (roundedSection r q0.1 q0.2.1 q0.2.2.1 q0.2.2.2).b0 f.k = f.k := by
      rw [hAdef]
      change r.rnd (1 * f.k) = f.k
      rw [one_mul, hkrep]
    change ({ roundedSection r q0.1 q0.2.1 q0.2.2.1 q0.2.2.2 with
      b0 := A.mul (roundedSection r q0.1 q0.2.1 q0.2.2.1 q0.2.2.2).b0 f.k, b1 := A.mul _ f.k, b2 := A.mul _ f.k } : Sos ℝ) :: _ = _
    rw [this, hAdef]
    rfl

/-- Poles with a margin make stable sections. -/
theorem roots_stable {f : Zpk} {δ : ℝ} (hδ : 0 < δ) (hδ1 : δ ≤ 1) (hin : ∀ p ∈ f.p, ‖p‖ ≤ 1 - δ) (hu : r.u + 2 * r.t ≤ 1)
    (hm : 5 * r.u + 4 * r.t < δ ^ 2) {q0 : ℂ × ℂ × ℂ × ℂ} {qs : List (ℂ × ℂ × ℂ × ℂ)}
    (hq : ∀ q ∈ q0 :: qs, PairOfRoots q.1 q.2.1 ∧ PairOfRoots q.2.2.1 q.2.2.2)
    (hP : ((q0 :: qs).flatMap (fun q => [q.2.2.1, q.2.2.2])).Perm (f.p ++ List.replicate (f.p.length % 2) 0)) :
    ∀ x ∈ sectionsOf r f.k q0 qs, Stable x := by
  have hin' : ∀ p ∈ f.p ++ List.replicate (f.p.length % 2) 0, ‖p‖ ≤ 1 - δ := fun p hp =>
    (List.mem_append.mp hp).elim (hin p) (fun h => by rw [(List.mem_replicate.mp h).2, norm_zero]; linarith)
  have st : ∀ q ∈ q0 :: qs, Stable (roundedSection r q.1 q.2.1 q.2.2.1 q.2.2.2) := fun q hm' =>
    roundedSection_stable _ _ (hq q hm').2 hδ (hin' _ (hP.subset (List.mem_flatMap.mpr ⟨q, hm', by simp⟩)))
      (hin' _ (hP.subset (List.mem_flatMap.mpr ⟨q, hm', by simp⟩))) hu hm
  intro x hx
  rcases List.mem_cons.mp hx with rfl | hx
  · exact st q0 (by simp)
  · obtain ⟨q, hq', rfl⟩ := List.mem_map.mp hx
    exact st q (by simp [hq'])

end SciRs.Rounded

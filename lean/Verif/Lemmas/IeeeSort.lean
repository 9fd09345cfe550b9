import Verif.Spec.IeeeSections
import Verif.Lemmas.IeeeExact

/-! # Sorting finite IEEE numbers is sorting their values -/

namespace SciRs.IeeeDesign

open SciRs.Spec SciRs.Spec.Ieee SciRs.Rounded SciRs.Design Classical

variable {f : Format}

/-! ### Both return related values, or both panic -/

def RR {α β : Type} (R : α → β → Prop) : Res α → Res β → Prop
  | .ok a, .ok b => R a b
  | .error e, .error e' => e = e'
  | _, _ => False

theorem RR.bind {α β γ δ : Type} {R : α → β → Prop} {Q : γ → δ → Prop} {x : Res α} {y : Res β} {g : α → Res γ}
    {h : β → Res δ} (hxy : RR R x y) (hgh : ∀ a b, R a b → RR Q (g a) (h b)) : RR Q (x >>= g) (y >>= h) := by
  cases x <;> cases y
  · exact hxy
  · exact hxy.elim
  · exact hxy.elim
  · exact hgh _ _ hxy

theorem RR.pure {α β : Type} {R : α → β → Prop} {a : α} {b : β} (h : R a b) : RR R (Pure.pure a) (Pure.pure b) := h

theorem RR.ok {α β : Type} {R : α → β → Prop} {a : α} {b : β} (h : R a b) : RR R (.ok a) (.ok b) := h

theorem RR.err {α β : Type} {R : α → β → Prop} (e : Err) : RR R (.error e : Res α) (.error e : Res β) := rfl

theorem RR.mono {α β : Type} {R Q : α → β → Prop} {x : Res α} {y : Res β} (h : RR R x y) (hRQ : ∀ a b, R a b → Q a b) :
    RR Q x y := by
  cases x <;> cases y
  · exact h
  · exact h.elim
  · exact h.elim
  · exact hRQ _ _ h

theorem RR.check {p q : Prop} [Decidable p] [Decidable q] {e : Err} (h : p ↔ q) :
    RR (fun _ _ => True) (SciRs.check p e) (SciRs.check q e) := by
  unfold SciRs.check
  by_cases hp : p
  · rw [if_pos hp, if_pos (h.mp hp)]; trivial
  · rw [if_neg hp, if_neg (fun hq => hp (h.mpr hq))]; rfl

theorem RR.ite {α β : Type} {R : α → β → Prop} {p q : Prop} [Decidable p] [Decidable q] {x x' : Res α} {y y' : Res β}
    (h : p ↔ q) (h1 : p → q → RR R x y) (h2 : ¬ p → ¬ q → RR R x' y') : RR R (if p then x else x') (if q then y else y') := by
  by_cases hp : p
  · rw [if_pos hp, if_pos (h.mp hp)]; exact h1 hp (h.mp hp)
  · rw [if_neg hp, if_neg (fun hq => hp (h.mpr hq))]; exact h2 hp fun hq => hp (h.mpr hq)

theorem RR.foldlM {α β γ : Type} {R : α → β → Prop} {g : α → γ → Res α} {h : β → γ → Res β} (l : List γ)
    (hgh : ∀ a b c, c ∈ l → R a b → RR R (g a c) (h b c)) {a : α} {b : β} (hab : R a b) :
    RR R (l.foldlM g a) (l.foldlM h b) := by
  induction l generalizing a b with
  | nil => exact RR.pure hab
  | cons c l ih =>
    rw [List.foldlM_cons, List.foldlM_cons]
    exact RR.bind (hgh a b c List.mem_cons_self hab) fun a' b' h' =>
      ih (fun a b c hc => hgh a b c (List.mem_cons_of_mem _ hc)) h'

theorem RR.of_ok {α β : Type} {R : α → β → Prop} {x : Res α} {b : β} (h : RR R x (.ok b)) : ∃ a, x = .ok a ∧ R a b := by
  cases x with
  | error e => exact h.elim
  | ok a => exact ⟨a, rfl, h⟩

/-! ### Comparisons of finite numbers -/

theorem is_lt {a b : Ieee f} {x y : ℝ} (ha : Is a x) (hb : Is b y) : a < b ↔ x < y := by
  obtain ⟨s, rfl⟩ := ha
  obtain ⟨t, rfl⟩ := hb
  constructor
  · rintro ⟨p, q, hp, hq, h⟩
    simp only [toE, Option.some.injEq] at hp hq
    subst hp hq
    exact_mod_cast h
  · intro h
    exact ⟨_, _, rfl, rfl, by exact_mod_cast h⟩

theorem is_le {a b : Ieee f} {x y : ℝ} (ha : Is a x) (hb : Is b y) : a ≤ b ↔ x ≤ y := by
  obtain ⟨s, rfl⟩ := ha
  obtain ⟨t, rfl⟩ := hb
  constructor
  · rintro ⟨p, q, hp, hq, h⟩
    simp only [toE, Option.some.injEq] at hp hq
    subst hp hq
    exact_mod_cast h
  · intro h
    exact ⟨_, _, rfl, rfl, by exact_mod_cast h⟩

theorem is_abs {a : Ieee f} {x : ℝ} (ha : Is a x) : Is a.abs |x| := by
  obtain ⟨s, rfl⟩ := ha
  exact ⟨_, rfl⟩

theorem is_feq {a b : Ieee f} {x y : ℝ} (ha : Is a x) (hb : Is b y) : feq a b ↔ x = y := by
  obtain ⟨s, rfl⟩ := ha
  obtain ⟨t, rfl⟩ := hb
  constructor
  · rintro ⟨p, hp, hq⟩
    simp only [toE, Option.some.injEq] at hp hq
    subst hp
    exact_mod_cast hq.symm
  · rintro rfl
    exact ⟨_, rfl, rfl⟩

theorem is_isZero {a : Ieee f} {x : ℝ} (ha : Is a x) : isZero a ↔ x = 0 := is_feq ha is_zero

/-- `cmp` of real numbers. -/
noncomputable def rcmp (x y : ℝ) : Ordering := if x < y then .lt else if x = y then .eq else .gt

theorem is_pcmp {a b : Ieee f} {x y : ℝ} (ha : Is a x) (hb : Is b y) : pcmp a b = some (rcmp x y) := by
  obtain ⟨s, rfl⟩ := ha
  obtain ⟨t, rfl⟩ := hb
  simp only [pcmp, toE, rcmp, EReal.coe_lt_coe_iff, EReal.coe_eq_coe_iff]

theorem rcmp_eq {x y : ℝ} : rcmp x y = .eq ↔ x = y := by
  unfold rcmp
  split
  · rename_i h; simp [h.ne]
  · split <;> simp_all

theorem rcmp_gt {x y : ℝ} : rcmp x y ≠ .gt ↔ x ≤ y := by
  unfold rcmp
  split
  · rename_i h; simp [h.le]
  · split
    · simp_all
    · rename_i h1 h2
      simp only [ne_eq, not_true_eq_false, false_iff, not_le]
      exact lt_of_le_of_ne (not_lt.mp h1) (Ne.symm h2)

/-- One comparison after another. -/
noncomputable def rcmp2 (x y x' y' : ℝ) : Ordering := match rcmp x y with | .eq => rcmp x' y' | o => o

theorem rcmp2_gt {x y x' y' : ℝ} : rcmp2 x y x' y' ≠ .gt ↔ x < y ∨ (x = y ∧ x' ≤ y') := by
  unfold rcmp2
  by_cases h : x = y
  · rw [rcmp_eq.mpr h]
    simp only [h, lt_self_iff_false, true_and, false_or]
    exact rcmp_gt
  · have h1 : rcmp x y ≠ .eq := fun h' => h (rcmp_eq.mp h')
    have h2 : (match rcmp x y with | .eq => rcmp x' y' | o => o) = rcmp x y := by split <;> simp_all
    rw [h2, rcmp_gt]
    simp only [h, false_and, or_false]
    exact ⟨fun h' => lt_of_le_of_ne h' h, le_of_lt⟩

theorem pcmp2 {a b a' b' : Ieee f} {x y x' y' : ℝ} (ha : Is a x) (hb : Is b y) (ha' : Is a' x') (hb' : Is b' y') :
    (match pcmp a b with | some .eq => pcmp a' b' | o => o) = some (rcmp2 x y x' y') := by
  rw [is_pcmp ha hb, is_pcmp ha' hb']
  unfold rcmp2
  cases rcmp x y <;> rfl

/-! ### Sorting -/

/-- Sorting values through a sort of representatives. -/
noncomputable def valueSort {α β : Type} (sort : List α → Res (List α)) (lift : β → α) (val : α → β) (v : List β) :
    List β :=
  match sort (v.map lift) with
  | .ok l => l.map val
  | .error _ => v

theorem SortOf.lifts {α β : Type} {c : α → α → Option Ordering} {sort : List α → Res (List α)} (h : SortOf c sort)
    {R : α → β → Prop} {lift : β → α} {val : α → β} (hl : ∀ b, R (lift b) b) (hv : ∀ a b, R a b → val a = b)
    {k : β → β → Ordering} (hk : ∀ a b a' b', R a b → R a' b' → c a a' = some (k b b')) :
    (∀ v, (valueSort sort lift val v).Perm v ∧ (valueSort sort lift val v).Pairwise (fun x y => k x y ≠ .gt)) ∧
      ∀ l v, List.Forall₂ R l v → ∃ l', sort l = .ok l' ∧ List.Forall₂ R l' (valueSort sort lift val v) := by
  have key : ∀ l v, List.Forall₂ R l v → ∃ l', sort l = .ok l' ∧ List.Forall₂ R l' (valueSort sort lift val v) ∧
      (valueSort sort lift val v).Perm v ∧ (valueSort sort lift val v).Pairwise (fun x y => k x y ≠ .gt) := by
    intro l v hlv
    have hlen := hlv.length_eq
    obtain ⟨w0, hw0⟩ : ∃ w0, w0 = l.zip v := ⟨_, rfl⟩
    have hR : ∀ q ∈ w0, R q.1 q.2 := by
      intro q hq
      rw [hw0] at hq
      exact (List.forall₂_iff_zip.mp hlv).2 hq
    have f1 : w0.map Prod.fst = l := by rw [hw0]; exact List.map_fst_zip hlen.le
    have f2 : w0.map Prod.snd = v := by rw [hw0]; exact List.map_snd_zip hlen.ge
    obtain ⟨w', p1, p2, p3, p4⟩ := h.sorts (w0.map (fun q => (q.1, lift q.2))) (by
      intro p' hp' q' hq'
      obtain ⟨p, hp, rfl⟩ := List.mem_map.mp hp'
      obtain ⟨q, hq, rfl⟩ := List.mem_map.mp hq'
      constructor
      · rw [hk _ _ _ _ (hR p hp) (hR q hq)]; exact Option.some_ne_none _
      · rw [hk _ _ _ _ (hR p hp) (hR q hq), hk _ _ _ _ (hl p.2) (hl q.2)])
    have hw' : ∀ q ∈ w', R q.1 (val q.2) := by
      intro q hq
      obtain ⟨q0, hq0, rfl⟩ := List.mem_map.mp (p1.mem_iff.mp hq)
      rw [hv _ _ (hl q0.2)]
      exact hR q0 hq0
    have e1 : (w0.map (fun q => (q.1, lift q.2))).map Prod.fst = l := by
      rw [List.map_map]; exact f1
    have e2 : (w0.map (fun q => (q.1, lift q.2))).map Prod.snd = v.map lift := by
      rw [List.map_map, ← f2, List.map_map]; rfl
    rw [e1] at p2
    rw [e2] at p3
    have ev : valueSort sort lift val v = w'.map (fun q => val q.2) := by
      unfold valueSort
      rw [p3]
      simp only [List.map_map]
      rfl
    refine ⟨_, p2, ?_, ?_, ?_⟩
    · rw [ev, List.forall₂_map_left_iff, List.forall₂_map_right_iff, List.forall₂_same]
      exact hw'
    · rw [ev]
      refine (p1.map _).trans ?_
      rw [List.map_map]
      have : ((fun q : α × α => val q.2) ∘ fun q : α × β => (q.1, lift q.2)) = Prod.snd := by
        funext q
        exact hv _ _ (hl q.2)
      rw [this, f2]
    · rw [ev, List.pairwise_map]
      refine p4.imp_of_mem ?_
      intro a b ha hb hab hgt
      exact hab (by rw [hk _ _ _ _ (hw' a ha) (hw' b hb), hgt])
  constructor
  · intro v
    obtain ⟨-, -, -, h1, h2⟩ := key (v.map lift) v (by
      rw [List.forall₂_map_left_iff, List.forall₂_same]
      exact fun x _ => hl x)
    exact ⟨h1, h2⟩
  · intro l v hlv
    obtain ⟨l', h1, h2, -, -⟩ := key l v hlv
    exact ⟨l', h1, h2⟩

/-- A complex number as a datum. -/
noncomputable def liftC (z : ℂ) : Cx f := ⟨ofReal f z.re, ofReal f z.im⟩

/-- The value of a finite number. -/
noncomputable def realOf : Ieee f → ℝ
  | .fin v _ => v
  | _ => 0

noncomputable def valC (a : Cx f) : ℂ := ⟨realOf a.re, realOf a.im⟩

theorem liftC_is (z : ℂ) : CIs (liftC (f := f) z) z := ⟨⟨_, rfl⟩, ⟨_, rfl⟩⟩

theorem valC_is {a : Cx f} {z : ℂ} (h : CIs a z) : valC a = z := by
  obtain ⟨are, aim⟩ := a
  obtain ⟨⟨s, h1⟩, ⟨t, h2⟩⟩ := h
  simp only at h1 h2
  subst h1 h2
  rfl

/-- A sort of IEEE numbers sorts finite numbers by their values. -/
theorem exists_lift {S : CxSorts f} (hS : S.Correct) : ∃ s : Sorts, s.Correct ∧
    (∀ l v, List.Forall₂ CIs l v → ∃ l', S.byKey l = .ok l' ∧ List.Forall₂ CIs l' (s.byKey v)) ∧
    ∀ l v, List.Forall₂ (fun (a : Cx f × Cx f) (b : ℂ × ℂ) => CIs a.1 b.1 ∧ CIs a.2 b.2) l v →
      ∃ l', S.byPair l = .ok l' ∧
        List.Forall₂ (fun (a : Cx f × Cx f) (b : ℂ × ℂ) => CIs a.1 b.1 ∧ CIs a.2 b.2) l' (s.byPair v) := by
  obtain ⟨h1, h2⟩ := hS.key.lifts (R := CIs) (lift := liftC) (val := valC) liftC_is (fun _ _ h => valC_is h)
    (k := fun a b => rcmp2 a.re b.re |a.im| |b.im|)
    (fun a b a' b' h h' => pcmp2 h.1 h'.1 (is_abs h.2) (is_abs h'.2))
  obtain ⟨h3, h4⟩ := hS.pair.lifts (R := fun (a : Cx f × Cx f) (b : ℂ × ℂ) => CIs a.1 b.1 ∧ CIs a.2 b.2)
    (lift := fun b => (liftC b.1, liftC b.2)) (val := fun a => (valC a.1, valC a.2))
    (fun b => ⟨liftC_is _, liftC_is _⟩) (fun _ _ h => by rw [valC_is h.1, valC_is h.2])
    (k := fun a b => rcmp2 |a.2.im| |b.2.im| a.1.im b.1.im)
    (fun a b a' b' h h' => pcmp2 (is_abs h.2.2) (is_abs h'.2.2) h.1.2 h'.1.2)
  refine ⟨⟨valueSort S.byKey liftC valC,
    valueSort S.byPair (fun b => (liftC b.1, liftC b.2)) (fun a => (valC a.1, valC a.2))⟩, ⟨?_, ?_, ?_, ?_⟩, h2, h4⟩
  · exact fun l => (h1 l).1
  · exact fun l => (h1 l).2.imp fun h => rcmp2_gt.mp h
  · exact fun l => (h3 l).1
  · exact fun l => (h3 l).2.imp fun h => rcmp2_gt.mp h

/-- Sorting finite numbers does not panic. -/
theorem byCplx_ok {S : CxSorts f} (hS : S.Correct) {l : List (Cx f)} {v : List ℂ} (h : List.Forall₂ CIs l v) :
    ∃ l', S.byCplx l = .ok l' := by
  obtain ⟨-, h2⟩ := hS.cplx.lifts (R := CIs) (lift := liftC) (val := valC) liftC_is (fun _ _ h => valC_is h)
    (k := fun a b => rcmp2 a.re b.re a.im b.im) (fun a b a' b' h h' => pcmp2 h.1 h'.1 h.2 h'.2)
  obtain ⟨l', h1, -⟩ := h2 l v h
  exact ⟨l', h1⟩

end SciRs.IeeeDesign

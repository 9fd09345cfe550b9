import Verif.Spec.ArithLaws
import Verif.Model.Rounded.Zpk2sos
import Verif.Lemmas.Design.NearReal

/-! # Lemmas about `cplxreal_dyn` in any lawful arithmetic -/

namespace SciRs.Rounded

open Complex SciRs.Spec SciRs.Design

variable {A : Arith}

/-- Every entry is exactly real or, to the test in `cplxreal_dyn`, not real. -/
def Separated (A : Arith) (tol : ℝ) (z : List ℂ) : Prop := ∀ x ∈ z, x.im = 0 ∨ isReal A tol x = false

theorem sameReal_length (tol : ℝ) (zp : List ℂ) (h : zp ≠ []) : (sameReal A tol zp).length = zp.length + 1 := by
  have := List.length_pos_iff.mpr h
  simp [sameReal]
  omega

theorem runs_ok (tol : ℝ) (zp : List ℂ) (h : zp ≠ []) :
    List.Forall₂ (fun a b : ℕ => a < b ∧ b < zp.length)
      (indicesOf (fun x => decide (x > 0)) (diffs (sameReal A tol zp)))
      (indicesOf (fun x => decide (x < 0)) (diffs (sameReal A tol zp))) := by
  have hne : sameReal A tol zp ≠ [] := by simp [sameReal]
  have h1 := (rises_falls (sameReal A tol zp) 0 hne (by simp [sameReal])).1 (by simp [sameReal])
  have h2 : List.Forall₂ (· < ·) (indicesOf (fun x => decide (x > 0)) (diffs (sameReal A tol zp)))
      (indicesOf (fun x => decide (x < 0)) (diffs (sameReal A tol zp))) := h1
  rw [List.forall₂_iff_zip] at h2 ⊢
  refine ⟨h2.1, fun {a b} hab => ⟨h2.2 hab, ?_⟩⟩
  have hb := indicesOf_lt (List.of_mem_zip hab).2
  rw [diffs_length, sameReal_length tol zp h] at hb
  simpa using hb

theorem defaultTol_nonneg (hA : A.Lawful) : 0 ≤ defaultTol A := hA.mul_nonneg _ _ hA.eps_nonneg (by norm_num)

theorem isReal_of_im {tol : ℝ} (hA : A.Lawful) (ht : 0 ≤ tol) {x : ℂ} (h : x.im = 0) : isReal A tol x = true := by
  unfold isReal
  rw [h, abs_zero]
  exact decide_eq_true (hA.mul_nonneg _ _ ht (hA.csqrt_sq_re _ h))

theorem isReal_conj (hA : A.Lawful) (tol : ℝ) (x : ℂ) : isReal A tol ((starRingEnd ℂ) x) = isReal A tol x := by
  unfold isReal
  have h : (A.csqrt (A.cmul ((starRingEnd ℂ) x) ((starRingEnd ℂ) x))).re = (A.csqrt (A.cmul x x)).re := by
    rw [← hA.conj_cmul]
    rcases hA.conj_csqrt (A.cmul x x) with h | ⟨h, h0⟩
    · rw [h, conj_re]
    · rw [h, neg_re, conj_re, h0, neg_zero]
  rw [h, conj_im, abs_neg]

theorem conjClosed_filter {z : List ℂ} (h : ConjClosed z) {f : ℂ → Bool}
    (hf : ∀ x, f ((starRingEnd ℂ) x) = f x) : ConjClosed (z.filter f) := by
  unfold ConjClosed at *
  have h1 := h.filter f
  rw [List.filter_map] at h1
  rwa [show f ∘ (starRingEnd ℂ) = f from funext hf] at h1

/-- In a sorted list of conjugate pairs the two halves line up. -/
theorem lineup {l : List ℂ} (hc : ConjClosed l) (hsrt : l.Pairwise zKeyLe) :
    down l = (up l).map (starRingEnd ℂ) := by
  have h1 := conj_up hc
  have h2 : ((down l).map (starRingEnd ℂ)).Perm (up l) := by
    have := h1.map (starRingEnd ℂ)
    rw [List.map_map] at this
    refine this.trans (List.Perm.of_eq ?_)
    conv_rhs => rw [← List.map_id (up _)]
    refine List.map_congr_left (fun x _ => by simp)
  have e : (down l).map (starRingEnd ℂ) = up l := by
    refine List.Perm.eq_of_pairwise (le := zKeyLe) ?_ ?_ ?_ h2
    · intro a b ha hb h3 h4
      obtain ⟨x, hx, rfl⟩ := List.mem_map.mp ha
      have hx' := (List.mem_filter.mp hx).2
      have hb' := (List.mem_filter.mp hb).2
      simp only [decide_eq_true_eq] at hx' hb'
      exact zKeyLe_antisymm (by simpa using hx') hb' h3 h4
    · refine List.Pairwise.map (R := zKeyLe) _ (fun a b h => ?_) (hsrt.filter _)
      simpa [zKeyLe] using h
    · exact hsrt.filter _
  rw [← e, List.map_map]
  conv_lhs => rw [← List.map_id (down _)]
  exact List.map_congr_left (fun x _ => by simp)

/-- On conjugate pairs of numbers of the type `cplxreal_dyn` returns, and loses nothing: the roots that pass for
real, and the upper halves of the others. -/
theorem cplxreal_ok (hA : A.Lawful) {s : Sorts} (hs : s.Correct) {t : Option ℝ} (ht : 0 ≤ t.getD (defaultTol A))
    {z : List ℂ} (hc : ConjClosed z) (hrep : ∀ x ∈ z, A.Rep x) :
    ∃ zc zr, cplxreal A s z t = .ok (zc, zr) ∧
      zc.Perm (up (z.filter (fun x => !isReal A (t.getD (defaultTol A)) x))) ∧
      zr.Perm (z.filter (isReal A (t.getD (defaultTol A)))) := by
  unfold cplxreal
  by_cases h0 : z = []
  · subst h0
    exact ⟨[], [], by simp; rfl, by simp [up], by simp⟩
  rw [if_neg h0]
  dsimp only
  generalize t.getD (defaultTol A) = tol at ht
  have hperm := hs.key_perm z
  set zr := (s.byKey z).filter (isReal A tol) with hzr
  set C := (s.byKey z).filter (fun zi => !isReal A tol zi) with hC
  have p1 : zr.Perm (z.filter (isReal A tol)) := hperm.filter _
  have pC : C.Perm (z.filter (fun x => !isReal A tol x)) := hperm.filter _
  have hCc : ConjClosed C := conjClosed_filter (((hperm.map _).trans hc).trans hperm.symm)
    (fun x => by rw [isReal_conj hA])
  have hCs : C.Pairwise zKeyLe := (hs.key_sorted z).filter _
  have hup : (up C).Perm (up (z.filter (fun x => !isReal A tol x))) := pC.filter _
  have hlen : zr.length + C.length = (s.byKey z).length := by
    have := List.length_eq_length_filter_add (l := s.byKey z) (isReal A tol)
    rw [hzr, hC]; omega
  by_cases h1 : zr.length = (s.byKey z).length
  · rw [if_pos h1]
    refine ⟨[], zr, rfl, ?_, p1⟩
    have hC0 : C = [] := List.length_eq_zero_iff.mp (by omega)
    rw [hC0] at hup
    simpa [up] using hup
  rw [if_neg h1]
  change ∃ zc zr', (if (up C).length ≠ (down C).length then _ else _) = _ ∧ _
  have hfold : C.filter (fun zi => decide (zi.im < 0)) = (up C).map (starRingEnd ℂ) := lineup hCc hCs
  have hfold2 : C.filter (fun zi => decide (zi.im > 0)) = up C := rfl
  rw [hfold, hfold2]
  have hdn : down C = (up C).map (starRingEnd ℂ) := lineup hCc hCs
  rw [if_neg (by rw [hdn]; simp)]
  set zp := up C with hzp
  have hne : zp ≠ [] := by
    intro h
    have h3 := (split_perm C).length_eq
    rw [hdn, ← hzp, h] at h3
    have h4 : onAxis C = [] := by
      unfold onAxis
      rw [List.filter_eq_nil_iff]
      intro x hx h5
      have := (List.mem_filter.mp hx).2
      rw [isReal_of_im hA ht (by simpa using h5)] at this
      simp at this
    rw [h4] at h3
    simp at h3
    omega
  have hruns := runs_ok (A := A) tol zp hne
  rw [check_true hruns.length_eq, ok_bind]
  obtain ⟨l', e, hl'⟩ := sortRuns_ok hs zp.length _
    (fun q hq' => (List.forall₂_iff_zip.mp hruns).2 (show (q.1, q.2) ∈ _ from hq')) zp rfl
  rw [e, ok_bind]
  dsimp only
  have hzip : l'.zip (l'.map (starRingEnd ℂ)) = l'.map (fun x => (x, (starRingEnd ℂ) x)) := by
    rw [List.zip_map_right]
    clear hl' e
    induction l' with
    | nil => rfl
    | cons a t ih => simp [ih]
  have hrep' : ∀ x ∈ l', A.Rep x := fun x hx =>
    hrep x (List.mem_filter.mp ((List.mem_filter.mp ((hl'.trans hup).mem_iff.mp hx)).1)).1
  rw [hzip, if_neg, List.map_map]
  · refine ⟨l', zr, ?_, hl'.trans hup, p1⟩
    have : l'.map ((fun q : ℂ × ℂ => A.cdivReal (A.cadd q.1 ((starRingEnd ℂ) q.2)) 2) ∘
        fun x => (x, (starRingEnd ℂ) x)) = l' := by
      conv_rhs => rw [← List.map_id l']
      refine List.map_congr_left (fun x hx => ?_)
      simp only [Function.comp, Complex.conj_conj, id]
      exact hA.halve_double x (hrep' x hx).1 (hrep' x hx).2
    rw [this]; rfl
  · simp only [List.any_map, Bool.not_eq_true, List.any_eq_false]
    intro x _
    simp only [Function.comp, Complex.conj_conj, hA.csub_self, hA.cabs_zero, decide_eq_false_iff_not, not_lt,
      gt_iff_lt]
    exact hA.mul_nonneg _ _ ht (hA.cabs_nonneg _)

/-! ### The roots that the representatives stand for -/

/-- The roots that a representative stands for. -/
noncomputable def both (x : ℂ) : List ℂ := if x.im = 0 then [x] else [x, (starRingEnd ℂ) x]

noncomputable def roots (l : List ℂ) : List ℂ := l.flatMap both

theorem roots_perm {l m : List ℂ} (h : l.Perm m) : (roots l).Perm (roots m) := h.flatMap_right _

theorem roots_cons (x : ℂ) (l : List ℂ) : roots (x :: l) = both x ++ roots l := by simp [roots]

theorem roots_append (l m : List ℂ) : roots (l ++ m) = roots l ++ roots m := by simp [roots]

theorem roots_length (l : List ℂ) : (roots l).length = wts l := by
  induction l with
  | nil => rfl
  | cons a l ih =>
    rw [roots_cons, List.length_append, ih, wts_cons]
    unfold both wt
    split <;> rfl

theorem roots_real {l : List ℂ} (h : ∀ x ∈ l, x.im = 0) : roots l = l := by
  induction l with
  | nil => rfl
  | cons a l ih =>
    rw [roots_cons, ih (fun x hx => h x (by simp [hx])), both, if_pos (h a (by simp))]
    rfl

theorem roots_complex {l : List ℂ} (h : ∀ x ∈ l, x.im ≠ 0) : (roots l).Perm (l ++ l.map (starRingEnd ℂ)) := by
  have e : roots l = l.flatMap (fun x => [id x, (starRingEnd ℂ) x]) := by
    unfold roots
    refine List.flatMap_congr (fun x hx => ?_)
    rw [both, if_neg (h x hx)]; rfl
  rw [e]
  have := perm_append_flat l id (starRingEnd ℂ)
  rw [List.map_id] at this
  exact this.symm

/-- On separated input the representatives stand for exactly the roots given. -/
theorem cplxreal_roots (hA : A.Lawful) {tol : ℝ} (ht : 0 ≤ tol) {z zc zr : List ℂ} (hz : Separated A tol z)
    (hc : ConjClosed z) (h1 : zc.Perm (up (z.filter (fun x => !isReal A tol x))))
    (h2 : zr.Perm (z.filter (isReal A tol))) : (roots (zc ++ zr)).Perm z := by
  have hm : ∀ x ∈ z, isReal A tol x = decide (x.im = 0) := by
    intro x hx
    by_cases h : x.im = 0
    · rw [isReal_of_im hA ht h, h]; simp
    · rw [(hz x hx).resolve_left h]; simp [h]
  have e1 : up (z.filter (fun x => !isReal A tol x)) = up z := by
    unfold up
    rw [List.filter_filter]
    refine List.filter_congr (fun x hx => ?_)
    rw [hm x hx]
    by_cases h : 0 < x.im
    · simp [h, h.ne']
    · simp [h]
  have e2 : z.filter (isReal A tol) = onAxis z := List.filter_congr hm
  rw [e1] at h1
  rw [e2] at h2
  refine (roots_perm (h1.append h2)).trans ?_
  rw [roots_append, roots_real (l := onAxis z) (fun x hx => by simpa using (List.mem_filter.mp hx).2)]
  refine List.Perm.trans ?_ (split_perm z)
  refine List.Perm.append_right _ ?_
  refine (roots_complex (fun x hx => ?_)).trans ((conj_up hc).symm.append_left _)
  have : 0 < x.im := by simpa using (List.mem_filter.mp hx).2
  exact this.ne'

/-- The weight of what `cplxreal_dyn` returns is the number of roots, plus one for each root that is complex yet
passes for real. -/
theorem cplxreal_weight (hA : A.Lawful) {tol : ℝ} (ht : 0 ≤ tol) {z zc zr : List ℂ}
    (hc : ConjClosed z) (h1 : zc.Perm (up (z.filter (fun x => !isReal A tol x))))
    (h2 : zr.Perm (z.filter (isReal A tol))) :
    wts (zc ++ zr) = z.length + (z.filter (fun x => decide (x.im ≠ 0) && isReal A tol x)).length := by
  set C := z.filter (fun x => !isReal A tol x) with hC
  have hCc : ConjClosed C := conjClosed_filter hc (fun x => by rw [isReal_conj hA])
  have hCim : ∀ x ∈ C, x.im ≠ 0 := by
    intro x hx h0
    have := (List.mem_filter.mp hx).2
    rw [isReal_of_im hA ht h0] at this
    simp at this
  have h3 := (split_perm C).length_eq
  have h4 := (conj_up hCc).length_eq
  have h5 : onAxis C = [] := by
    unfold onAxis
    rw [List.filter_eq_nil_iff]
    intro x hx h5
    exact hCim x hx (by simpa using h5)
  rw [h5] at h3
  simp only [List.length_append, List.length_nil, List.length_map] at h3 h4
  rw [wts_append, wts_perm h1, wts_perm h2, wts_complex (l := up C) (fun x hx => hCim x (List.mem_filter.mp hx).1)]
  have h6 : wts (z.filter (isReal A tol)) = (z.filter (isReal A tol)).length +
      (z.filter (fun x => decide (x.im ≠ 0) && isReal A tol x)).length := by
    clear h1 h2 hc hC hCc hCim h3 h4 h5 C
    induction z with
    | nil => simp [wts]
    | cons a L ih =>
      by_cases h1 : isReal A tol a = true
      · by_cases h2 : a.im = 0
        · rw [List.filter_cons_of_pos h1, List.filter_cons_of_neg (by simp [h2]), wts_cons, ih, List.length_cons, wt,
            if_pos h2]
          omega
        · rw [List.filter_cons_of_pos h1, List.filter_cons_of_pos (by simp [h1, h2]), wts_cons, ih,
            List.length_cons, List.length_cons, wt, if_neg h2]
          omega
      · rw [List.filter_cons_of_neg h1, List.filter_cons_of_neg (by simp [h1]), ih]
  have h7 := List.length_eq_length_filter_add (l := z) (isReal A tol)
  rw [h6]
  rw [← hC] at h7
  omega

theorem not_separated_iff {tol : ℝ} {z : List ℂ} :
    ¬ Separated A tol z ↔ 0 < (z.filter (fun x => decide (x.im ≠ 0) && isReal A tol x)).length := by
  unfold Separated
  push Not
  rw [List.length_pos_iff_exists_mem]
  constructor
  · rintro ⟨x, hx, h1, h2⟩
    exact ⟨x, List.mem_filter.mpr ⟨hx, by simpa [h1] using h2⟩⟩
  · rintro ⟨x, hx⟩
    obtain ⟨h1, h2⟩ := List.mem_filter.mp hx
    simp only [Bool.and_eq_true, decide_eq_true_eq] at h2
    exact ⟨x, h1, h2.1, by simp [h2.2]⟩

end SciRs.Rounded

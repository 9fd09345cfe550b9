import Verif.Lemmas.Design.Cplx

/-! # C50: `cplxreal_dyn` splits roots into conjugate pairs and reals -/

namespace SciRs.Props

open Complex SciRs.Design SciRs.Spec

/-- C50: the comparisons the function sorts with can be sorted by, so that correct sorts exist. -/
theorem C50_sorts_exist : ∃ s : Sorts, s.Correct := exists_sorts

/-- C50.  Take any tolerance (the default is a hundred machine epsilons) and any list of roots, in any
order and with any multiplicities, that is closed under conjugation and whose entries are exactly real or
further than the tolerance from the real axis.  Whatever correct sorts the standard library uses, the
function returns, the first list is strictly in the upper half plane, the second is real, and the first
list, its conjugates and the second list together are the input. -/
theorem C50_cplxreal {eps : ℝ} {s : Sorts} (hs : s.Correct) {tol : Option ℝ}
    (ht : 0 ≤ tol.getD (eps * 100)) {z : List ℂ} (hz : Separated (tol.getD (eps * 100)) z)
    (hc : ConjClosed z) :
    ∃ zc zr, cplxreal eps s z tol = .ok (zc, zr) ∧ (∀ x ∈ zc, 0 < x.im) ∧ (∀ x ∈ zr, x.im = 0) ∧
      (zc ++ zc.map (starRingEnd ℂ) ++ zr).Perm z := by
  obtain ⟨zc, zr, e, h1, h2⟩ := cplxreal_ok hs ht hz hc
  refine ⟨zc, zr, e, fun x hx => ?_, fun x hx => ?_, ?_⟩
  · simpa using (List.mem_filter.mp (h1.mem_iff.mp hx)).2
  · simpa using (List.mem_filter.mp (h2.mem_iff.mp hx)).2
  · refine List.Perm.trans ?_ (split_perm z)
    exact (h1.append ((h1.map _).trans (conj_up hc).symm)).append h2

/-- C50, the panicking half: different numbers of roots above and below the real axis. -/
theorem C50_panics {eps : ℝ} {s : Sorts} (hs : s.Correct) {tol : Option ℝ}
    (ht : 0 ≤ tol.getD (eps * 100)) {z : List ℂ} (hz : Separated (tol.getD (eps * 100)) z)
    (hne : z.countP (fun x => decide (0 < x.im)) ≠ z.countP (fun x => decide (x.im < 0))) :
    Panics (cplxreal eps s z tol) := by
  rw [List.countP_eq_length_filter, List.countP_eq_length_filter] at hne
  change (up z).length ≠ (down z).length at hne
  unfold cplxreal
  have h0 : z ≠ [] := by rintro rfl; simp [up, down] at hne
  rw [if_neg h0]
  dsimp only
  obtain ⟨p1, p2, p3⟩ := cplxreal_parts hs ht hz
  rw [p2, p3]
  have hup : (up (s.byKey z)).Perm (up z) := (hs.key_perm z).filter _
  have hdn : (down (s.byKey z)).Perm (down z) := (hs.key_perm z).filter _
  have hsp := (split_perm z).length_eq
  simp only [List.length_append] at hsp
  rw [if_neg, if_pos (by rw [hup.length_eq, hdn.length_eq]; exact hne)]
  · simp
  · rw [p1.length_eq, (hs.key_perm z).length_eq]; omega

/-- The hypotheses of `C50_cplxreal` are met by a double pair and two reals. -/
example : ∃ s : Sorts, s.Correct ∧ ∃ zc zr,
    cplxreal (1 / 1000) s [1 + I, 3, 1 - I, 1 - I, -3, 1 + I] none = .ok (zc, zr) ∧ zc.length = 2 := by
  obtain ⟨s, hs⟩ := exists_sorts
  obtain ⟨zc, zr, e, h1, h2, h3⟩ := C50_cplxreal (eps := 1 / 1000) hs (tol := none) (by norm_num)
    (z := [1 + I, 3, 1 - I, 1 - I, -3, 1 + I])
    (by intro x hx
        simp only [List.mem_cons, List.not_mem_nil, or_false] at hx
        rcases hx with rfl | rfl | rfl | rfl | rfl | rfl <;> norm_num)
    (by
      have e1 : (starRingEnd ℂ) (3 : ℂ) = 3 := by
        rw [show (3 : ℂ) = ((3 : ℝ) : ℂ) by norm_num, conj_ofReal]
      simp only [ConjClosed, List.map_cons, List.map_nil, map_add, map_sub, map_neg, map_one, conj_I, e1,
        sub_neg_eq_add, ← sub_eq_add_neg]
      classical
      rw [List.perm_iff_count]
      intro a
      simp only [List.count_cons, List.count_nil]
      ring)
  refine ⟨s, hs, zc, zr, e, ?_⟩
  have hcount := h3.countP_eq (fun x => decide (0 < x.im))
  rw [List.countP_append, List.countP_append, List.countP_eq_length.mpr (by simpa using h1),
    List.countP_eq_zero.mpr (by
      intro x hx
      obtain ⟨y, hy, rfl⟩ := List.mem_map.mp hx
      have := h1 y hy
      simp; linarith),
    List.countP_eq_zero.mpr (by intro x hx; simp [h2 x hx])] at hcount
  simpa [List.countP_cons] using hcount

/-- The hypotheses of `C50_panics` are met by a pole whose conjugate is missing. -/
example : ∃ s : Sorts, s.Correct ∧ Panics (cplxreal (1 / 1000) s [1 + I, 3] none) := by
  obtain ⟨s, hs⟩ := exists_sorts
  refine ⟨s, hs, C50_panics hs (by norm_num) ?_ ?_⟩
  · intro x hx
    simp only [List.mem_cons, List.not_mem_nil, or_false] at hx
    rcases hx with rfl | rfl <;> norm_num
  · simp [List.countP_cons]

end SciRs.Props

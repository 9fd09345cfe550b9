import Verif.Lemmas.Design.Poly

/-!
# C48 and C49: the order in which roots are compared, and when coefficients are made real
-/

namespace SciRs.Props

open SciRs SciRs.Design SciRs.Spec

theorem cplxLe_total (a b : ℂ) : cplxLe a b ∨ cplxLe b a := by
  unfold cplxLe
  rcases lt_trichotomy a.re b.re with h | h | h
  · exact .inl (.inl h)
  · rcases le_total a.im b.im with k | k
    · exact .inl (.inr ⟨h, k⟩)
    · exact .inr (.inr ⟨h.symm, k⟩)
  · exact .inr (.inl h)

theorem cplxLe_trans {a b c : ℂ} (h : cplxLe a b) (k : cplxLe b c) : cplxLe a c := by
  unfold cplxLe at *
  rcases h with h | ⟨h, h'⟩ <;> rcases k with k | ⟨k, k'⟩
  · exact .inl (h.trans k)
  · exact .inl (k ▸ h)
  · exact .inl (h ▸ k)
  · exact .inr ⟨h.trans k, h'.trans k'⟩

/-- **C48** The roots are compared in lexicographic order: sorting permutes them so that real parts ascend, and imaginary
parts among equal real parts. -/
theorem C48_sorted (l : List ℂ) :
    (sortCplx l).Perm l ∧ (sortCplx l).Pairwise (fun a b => a.re < b.re ∨ (a.re = b.re ∧ a.im ≤ b.im)) := by
  classical
  refine ⟨sortCplx_perm l, ?_⟩
  have h := List.pairwise_mergeSort (le := fun a b => @decide (cplxLe a b) (Classical.propDecidable _))
    (fun a b c hab hbc => decide_eq_true (cplxLe_trans (of_decide_eq_true hab) (of_decide_eq_true hbc)))
    (fun a b => by
      rcases cplxLe_total a b with k | k
      · rw [decide_eq_true k]; rfl
      · rw [decide_eq_true k, Bool.or_true]) l
  exact h.imp fun {a b} k => of_decide_eq_true k

/-- Sorting identifies lists with the same elements. -/
theorem sortCplx_eq_iff (l m : List ℂ) : sortCplx l = sortCplx m ↔ l.Perm m := by
  constructor
  · intro h
    exact ((sortCplx_perm l).symm.trans (h ▸ List.Perm.refl _)).trans (sortCplx_perm m)
  · intro h
    refine List.Perm.eq_of_pairwise (fun a b _ _ hab hba => ?_) (C48_sorted l).2 (C48_sorted m).2
      ((sortCplx_perm l).trans (h.trans (sortCplx_perm m).symm))
    rcases hab with h1 | ⟨h1, h2⟩ <;> rcases hba with k1 | ⟨k1, k2⟩
    · exact absurd h1 (not_lt.mpr k1.le)
    · exact absurd h1 (by rw [k1]; exact lt_irrefl _)
    · exact absurd k1 (by rw [h1]; exact lt_irrefl _)
    · exact Complex.ext h1 (le_antisymm h2 k2)

/-- **C49** The coefficients of a polynomial are replaced by their real parts exactly when each root that is not real occurs
as often as its conjugate; otherwise they are left alone. -/
theorem C49_real_output (x y : List ℂ) :
    ((y.map (starRingEnd ℂ)).Perm y → poly2ba x y = x.map (fun c => ((c.re : ℝ) : ℂ))) ∧
    (¬ (y.map (starRingEnd ℂ)).Perm y → poly2ba x y = x) := by
  classical
  obtain ⟨pos, hpos⟩ : ∃ pos, pos = y.filter (fun i => decide (i.im > 0)) := ⟨_, rfl⟩
  obtain ⟨neg, hneg⟩ : ∃ neg, neg = (y.filter (fun i => decide (i.im < 0))).map (starRingEnd ℂ) := ⟨_, rfl⟩
  have hinj : Function.Injective (starRingEnd ℂ) := (starRingEnd ℂ).injective
  have hcp : ∀ z : ℂ, pos.count z = if 0 < z.im then y.count z else 0 := by
    intro z
    rw [hpos]
    split
    · rw [List.count_filter (by simpa using ‹0 < z.im›)]
    · rw [List.count_eq_zero]
      intro hm
      have := (List.mem_filter.mp hm).2
      simp at this
      exact absurd this ‹_›
  have hcn : ∀ z : ℂ, neg.count z = if 0 < z.im then y.count ((starRingEnd ℂ) z) else 0 := by
    intro z
    rw [hneg, ← Complex.conj_conj z, List.count_map_of_injective _ _ hinj, Complex.conj_conj]
    split
    · rename_i hz
      rw [List.count_filter (by simpa using hz)]
    · rename_i hz
      rw [List.count_eq_zero]
      intro hm
      have := (List.mem_filter.mp hm).2
      simp at this
      exact absurd this hz
  have key : pos.Perm neg ↔ (y.map (starRingEnd ℂ)).Perm y := by
    rw [List.perm_iff_count, List.perm_iff_count]
    have hm : ∀ z : ℂ, (y.map (starRingEnd ℂ)).count z = y.count ((starRingEnd ℂ) z) := by
      intro z
      conv_lhs => rw [← Complex.conj_conj z]
      exact List.count_map_of_injective _ _ hinj _
    constructor
    · intro h z
      rw [hm]
      rcases lt_trichotomy z.im 0 with hz | hz | hz
      · have := h ((starRingEnd ℂ) z)
        rw [hcp, hcn, if_pos (by simpa using hz), if_pos (by simpa using hz), Complex.conj_conj] at this
        exact this
      · rw [Complex.conj_eq_iff_im.mpr hz]
      · have := h z
        rw [hcp, hcn, if_pos hz, if_pos hz] at this
        exact this.symm
    · intro h z
      rw [hcp, hcn]
      have := h z
      rw [hm] at this
      rw [this]
  have hcond : (pos.length = neg.length ∧ ((sortCplx pos).zip (sortCplx neg)).all
      (fun q => @decide (q.1 = q.2) (Classical.propDecidable _)) = true) ↔ pos.Perm neg := by
    constructor
    · rintro ⟨h1, h2⟩
      rw [← sortCplx_eq_iff]
      refine eq_of_zip_all (by rw [(sortCplx_perm _).length_eq, (sortCplx_perm _).length_eq, h1]) fun q hq => ?_
      exact of_decide_eq_true (List.all_eq_true.mp h2 q hq)
    · intro h
      refine ⟨h.length_eq, ?_⟩
      rw [(sortCplx_eq_iff _ _).mpr h, List.all_eq_true]
      intro q hq
      refine decide_eq_true ?_
      obtain ⟨i, hi, rfl⟩ := List.mem_iff_getElem.mp hq
      simp
  rw [← key, ← hcond]
  unfold poly2ba
  dsimp only
  rw [← hpos, ← hneg]
  constructor
  · rintro ⟨h1, h2⟩
    rw [if_pos h1, if_pos h2]
  · intro h
    by_cases h1 : pos.length = neg.length
    · rw [if_pos h1, if_neg fun h2 => h ⟨h1, h2⟩]
    · rw [if_neg h1]

/-- A conjugate pair and a single complex root. -/
example : poly2ba [1, ⟨2, 3⟩] [Complex.I, -Complex.I] = [1, 2] ∧ poly2ba [1, ⟨2, 3⟩] [Complex.I] = [1, ⟨2, 3⟩] := by
  constructor
  · rw [(C49_real_output _ _).1 (by simpa using List.Perm.swap _ _ _)]
    simp
  · rw [(C49_real_output _ _).2 (fun h => by
      have := List.perm_singleton.mp h
      simp [Complex.ext_iff] at this
      norm_num at this)]

end SciRs.Props

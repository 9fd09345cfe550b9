import Verif.Lemmas.Companion
import Mathlib.Algebra.BigOperators.Group.Finset.Basic
import Mathlib.Algebra.BigOperators.Intervals
import Mathlib.Algebra.BigOperators.Field
import Mathlib.Tactic.Ring
import Mathlib.Tactic.FieldSimp
import Mathlib.Tactic.LinearCombination
import Mathlib.Data.Rat.Defs

/-!
# C19: `companion_dyn`
-/

namespace SciRs.Spec

/-- The companion matrix of `a[0] X^(m-1) + … + a[m-1]`, entry `(i, j)`. -/
def companion {F : Type} [Zero F] [One F] [Neg F] [Div F] (a : List F) (i j : ℕ) : F :=
  if i = 0 then -a.getD (j + 1) 0 / a.getD 0 0 else if i = j + 1 then 1 else 0

/-- The value at `r` of the polynomial with descending coefficients `a`. -/
def polyVal {F : Type} [CommSemiring F] (a : List F) (r : F) : F :=
  ∑ i ∈ Finset.range a.length, a.getD i 0 * r ^ (a.length - 1 - i)

end SciRs.Spec

namespace SciRs.Props

open SciRs SciRs.Spec

/-- **C19** For `m ≥ 2` coefficients and declared length `m`, `companion_dyn` performs no
out-of-bounds access, does not panic and returns the `(m-1) × (m-1)` companion matrix.  No law of
arithmetic is used. -/
theorem C19_companion {F : Type} [Zero F] [One F] [Neg F] [Div F] (a : List F)
    (h : 2 ≤ a.length) :
    ∃ M, companionDyn a a.length = .ok M ∧ M.nrows = a.length - 1 ∧ M.ncols = a.length - 1 ∧
      ∀ i < a.length - 1, ∀ j < a.length - 1, M.entry i j = companion a i j := by
  cases a with
  | nil => simp at h
  | cons a0 rest =>
    obtain ⟨M, h1, h2, h3, h4, _, h6⟩ := companionDyn_ok a0 rest (rest.length + 1) (by simpa using h)
      le_rfl
    refine ⟨M, by simpa using h1, by simpa using h2, by simpa using h3, ?_⟩
    intro i hi j hj
    simp only [List.length_cons, Nat.add_sub_cancel] at hi hj
    cases i with
    | zero => simp [companion, h4 j hj, List.getElem?_eq_getElem hj]
    | succ i =>
      rw [h6 i j (by simpa using hi) (by simpa using hj)]
      simp [companion]

example : 2 ≤ [(1 : ℚ), -10, 31, -30].length := by decide

/-- **C19** The call returns exactly when the iterator yields at least one item, the declared length
is at least 2, and the iterator does not yield more items than declared; with more items than
declared an out-of-bounds write (undefined behaviour) is reached; the remaining calls panic. -/
theorem C19_safety {F : Type} [Zero F] [One F] [Neg F] [Div F] (itr : List F) (m : ℕ) :
    (Returns (companionDyn itr m) ↔ itr ≠ [] ∧ 2 ≤ m ∧ itr.length ≤ m) ∧
    (companionDyn itr m = .error Err.ub ↔ 2 ≤ m ∧ m < itr.length) ∧
    (Panics (companionDyn itr m) ↔ itr = [] ∨ m < 2) := by
  cases itr with
  | nil => simp [companionDyn]
  | cons a0 rest =>
    by_cases hm : m < 2
    · simp [companionDyn, hm]
    · by_cases hl : rest.length + 1 ≤ m
      · obtain ⟨M, h1, _⟩ := companionDyn_ok a0 rest m (by omega) hl
        rw [h1]
        simp [hm, hl]; omega
      · have : companionDyn (a0 :: rest) m = .error Err.ub := by
          simp only [companionDyn, hm, if_false]
          refine writeAll_ub _ _ ?_
          have hj : m - 1 < rest.length := by omega
          refine ⟨((0, m - 1), -rest[m - 1] / a0), ?_, ?_⟩
          · refine List.mem_append.mpr (Or.inl (List.mem_map.mpr ⟨(rest[m - 1], m - 1), ?_, rfl⟩))
            rw [List.mem_zipIdx_iff_getElem?]
            simp [List.getElem?_eq_getElem hj]
          · simp [DMat.zeros]
        rw [this]
        simp [hm]; omega

/-- Declaring length 2 for an iterator of three items reaches the out-of-bounds write. -/
example : companionDyn [(1 : ℚ), 2, 3] 2 = .error Err.ub :=
  ((C19_safety _ _).2.1).mpr ⟨by decide, by decide⟩

/-- **C19** `r` is a root of the polynomial iff it is an eigenvalue of the returned matrix. -/
theorem C19_eigenvalues {F : Type} [Field F] (a : List F) (h : 2 ≤ a.length)
    (ha0 : a.getD 0 0 ≠ 0) (r : F) :
    ∃ M, companionDyn a a.length = .ok M ∧
      (polyVal a r = 0 ↔
        ∃ v : ℕ → F, (∃ i < a.length - 1, v i ≠ 0) ∧
          ∀ i < a.length - 1, ∑ j ∈ Finset.range (a.length - 1), M.entry i j * v j = r * v i) := by
  obtain ⟨M, h1, _, _, hM⟩ := C19_companion a h
  refine ⟨M, h1, ?_⟩
  obtain ⟨n, hn⟩ : ∃ n, a.length = n + 2 := ⟨a.length - 2, by omega⟩
  have hn1 : a.length - 1 = n + 1 := by omega
  rw [hn1] at hM ⊢
  -- the row sums
  have row0 : ∀ v : ℕ → F, ∑ j ∈ Finset.range (n + 1), M.entry 0 j * v j =
      -(∑ j ∈ Finset.range (n + 1), a.getD (j + 1) 0 * v j) / a.getD 0 0 := by
    intro v
    rw [← Finset.sum_neg_distrib, Finset.sum_div]
    refine Finset.sum_congr rfl fun j hj => ?_
    rw [hM 0 (by omega) j (Finset.mem_range.mp hj)]
    simp only [companion, if_true]
    ring
  have rowS : ∀ v : ℕ → F, ∀ i, i < n →
      ∑ j ∈ Finset.range (n + 1), M.entry (i + 1) j * v j = v i := by
    intro v i hi
    rw [Finset.sum_eq_single i]
    · rw [hM (i + 1) (by omega) i (by omega)]; simp [companion]
    · intro j hj hne
      rw [hM (i + 1) (by omega) j (Finset.mem_range.mp hj)]
      simp [companion, Ne.symm hne]
    · intro hni; exact absurd (Finset.mem_range.mpr (by omega)) hni
  have hpoly : polyVal a r = a.getD 0 0 * r ^ (n + 1)
      + ∑ j ∈ Finset.range (n + 1), a.getD (j + 1) 0 * r ^ (n - j) := by
    unfold polyVal
    rw [hn, Finset.sum_range_succ', add_comm]
    congr 1
    refine Finset.sum_congr rfl fun j hj => ?_
    have := Finset.mem_range.mp hj
    congr 2
    omega
  constructor
  · intro hroot
    refine ⟨fun j => r ^ (n - j), ⟨n, by omega, by simp⟩, ?_⟩
    intro i hi
    cases i with
    | zero =>
      rw [row0]
      rw [hpoly] at hroot
      have e : ∑ j ∈ Finset.range (n + 1), a.getD (j + 1) 0 * r ^ (n - j) =
          -(a.getD 0 0 * r ^ (n + 1)) := by linear_combination hroot
      rw [e]
      simp only [Nat.sub_zero]
      field_simp
      ring
    | succ i =>
      rw [rowS _ i (by omega)]
      have : n - i = (n - (i + 1)) + 1 := by omega
      rw [this, pow_succ]; ring
  · rintro ⟨v, ⟨i0, hi0, hv0⟩, hv⟩
    have hstep : ∀ k, k ≤ n → v (n - k) = r ^ k * v n := by
      intro k hk
      induction k with
      | zero => simp
      | succ k ih =>
        have h2 := hv (n - (k + 1) + 1) (by omega)
        rw [rowS _ _ (by omega)] at h2
        rw [h2]
        have : n - (k + 1) + 1 = n - k := by omega
        rw [this, ih (by omega)]; ring
    have hvn : v n ≠ 0 := by
      intro hz
      apply hv0
      have := hstep (n - i0) (by omega)
      rw [show n - (n - i0) = i0 by omega] at this
      rw [this, hz, mul_zero]
    have h2 := hv 0 (by omega)
    rw [row0] at h2
    have hs0 := hstep n le_rfl
    rw [Nat.sub_self] at hs0
    have hsum : ∑ j ∈ Finset.range (n + 1), a.getD (j + 1) 0 * v j =
        (∑ j ∈ Finset.range (n + 1), a.getD (j + 1) 0 * r ^ (n - j)) * v n := by
      rw [Finset.sum_mul]
      refine Finset.sum_congr rfl fun j hj => ?_
      have hj' := Finset.mem_range.mp hj
      have := hstep (n - j) (by omega)
      rw [show n - (n - j) = j by omega] at this
      rw [this]; ring
    rw [hsum, hs0, div_eq_iff ha0] at h2
    have : polyVal a r * v n = 0 := by
      rw [hpoly]
      linear_combination -h2
    exact (mul_eq_zero.mp this).resolve_right hvn

example : 2 ≤ [(1 : ℚ), -10, 31, -30].length ∧ [(1 : ℚ), -10, 31, -30].getD 0 0 ≠ 0 ∧
    polyVal [(1 : ℚ), -10, 31, -30] 2 = 0 := by
  refine ⟨by decide, by decide, ?_⟩
  simp [polyVal, Finset.sum_range_succ]
  norm_num

end SciRs.Props

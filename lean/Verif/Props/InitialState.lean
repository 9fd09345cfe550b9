import Verif.Lemmas.LfilterZi
import Verif.Model.SosfiltZi
import Verif.Props.SosfiltAlgebra
import Mathlib.Data.Rat.Defs
import Mathlib.Algebra.Order.Ring.Rat

/-!
# C27, C28: `lfilter_zi_dyn` and `sosfilt_zi_dyn`

Exact arithmetic over a field, except for the panics, which do not depend on the arithmetic.
-/

namespace SciRs.Props

open SciRs SciRs.Spec Finset

variable {F : Type} [Field F]

theorem steady_iff (b a z : List F) (hz : z.length = b.length - 1) :
    IsSteady b a z ↔ ∀ k < z.length,
      (b.getD (k + 1) 0 - a.getD (k + 1) 0 * (b.getD 0 0 / a.getD 0 0 + z.getD 0 0)) / a.getD 0 0
        + z.getD (k + 1) 0 = z.getD k 0 := by
  unfold IsSteady tdfNext tdfOut
  constructor
  · rintro ⟨_, h⟩ k hk
    have := congrArg (fun l => l.getD k 0) h
    simp only [List.getD_eq_getElem?_getD, List.getElem?_map, List.getElem?_range, hk, if_true,
      Option.map_some, Option.getD_some, mul_one] at this
    simpa [List.getD_eq_getElem?_getD] using this
  · intro h
    refine ⟨hz, List.ext_getElem (by simp) fun k h1 h2 => ?_⟩
    have := h k h2
    simp only [mul_one, List.getElem_map, List.getElem_range]
    rw [this]
    simp [List.getElem?_eq_getElem h2]

/-- Summing the steady-state equations from `k` on. -/
theorem steady_unique_aux (b a z : List F)
    (h : ∀ k < z.length,
      (b.getD (k + 1) 0 - a.getD (k + 1) 0 * (b.getD 0 0 / a.getD 0 0 + z.getD 0 0)) / a.getD 0 0
        + z.getD (k + 1) 0 = z.getD k 0) (k : ℕ) (hk : k ≤ z.length) :
    z.getD k 0 = z.getD 0 0 - ∑ i ∈ range k,
      (b.getD (i + 1) 0 - a.getD (i + 1) 0 * (b.getD 0 0 / a.getD 0 0 + z.getD 0 0)) / a.getD 0 0 := by
  induction k with
  | zero => simp
  | succ k ih =>
    rw [sum_range_succ]
    have h1 := ih (by omega)
    have h2 := h k (by omega)
    linear_combination h1 + h2

theorem sum_eq_head_add (a : List F) (n : ℕ) (hn : a.length = n + 1) :
    a.sum = a.getD 0 0 + ∑ i ∈ range n, a.getD (i + 1) 0 := by
  cases a with
  | nil => simp at hn
  | cons x xs =>
    have hl : xs.length = n := by simpa using hn
    have : xs.sum = ∑ i ∈ range n, xs.getD i 0 := by
      have e := zipWith_sum (fun u _ => u) xs xs rfl
      rw [hl] at e
      rw [← e]; simp [List.zipWith_self]
    simp [this]

/-- **C27** If `b` and `a` have the same length `m ≥ 2`, `a[0] ≠ 0` and `∑ a ≠ 0`, then
`lfilter_zi_dyn` does not panic and returns the one and only state of the filter `b / a` that a unit
constant input leaves unchanged; in that state the output is the DC gain `∑ b / ∑ a`. -/
theorem C27_steady_state [DecidableEq F] (b a : List F) (hl : b.length = a.length)
    (hm : 2 ≤ a.length) (ha0 : a.getD 0 0 ≠ 0) (hsum : a.sum ≠ 0) :
    ∃ zi, lfilterZiDyn b a = .ok zi ∧ IsSteady b a zi ∧
      (∀ z, IsSteady b a z → z = zi) ∧ tdfOut b a zi 1 = b.sum / a.sum := by
  obtain ⟨n, hn⟩ : ∃ n, a.length = n + 1 := ⟨a.length - 1, by omega⟩
  have hfind : a.findIdx? (fun ai => ai ≠ 0) = some 0 := by
    cases a with
    | nil => simp at hm
    | cons x xs =>
      have : x ≠ 0 := by simpa using ha0
      simp [List.findIdx?_cons, this]
  obtain ⟨zi, h1, h2, h3⟩ := lfilterZiDyn_core b a hl 0 hfind hm
  generalize ha0' : a.getD 0 0 = a0 at *
  have hn1 : a.length - 1 = n := by omega
  rw [hn1] at h2 h3
  have h3' := h3 (a.map (· / a0)) (b.map (· / a0)) (by simp) rfl
  have hgA : ∀ j, (a.map (· / a0)).getD j 0 = a.getD j 0 / a0 := by
    intro j
    simp only [List.getD_eq_getElem?_getD, List.getElem?_map]
    cases a[j]? <;> simp
  have hgB : ∀ j, (b.map (· / a0)).getD j 0 = b.getD j 0 / a0 := by
    intro j
    simp only [List.getD_eq_getElem?_getD, List.getElem?_map]
    cases b[j]? <;> simp
  have hSe : ziS (a.map (· / a0)) n = a.sum / a0 := by
    rw [sum_eq_head_add a n hn, ha0', ziS]
    simp only [hgA]
    rw [← sum_div, add_div, div_self ha0]
  have hS0 : ziS (a.map (· / a0)) n ≠ 0 := by
    rw [hSe]; exact div_ne_zero hsum ha0
  let A := a.map (· / a0)
  let B := b.map (· / a0)
  let b0 := b.getD 0 0 / a0
  have hB0 : B.getD 0 0 = b0 := hgB 0
  let z0 := ziC A B b0 n / ziS A n
  have hform : ∀ j ≤ n, zi.getD j 0 = ziS A j * z0 - ziC A B b0 j := by
    intro j hj
    rcases Nat.lt_or_eq_of_le hj with h | rfl
    · have := h3' j h
      rw [hgB 0] at this
      exact this
    · rw [List.getD_eq_getElem?_getD, List.getElem?_eq_none (by omega)]
      simp only [z0, Option.getD_none]
      rw [mul_div_cancel₀ _ hS0, sub_self]
  have hz0 : zi.getD 0 0 = z0 := by
    rw [hform 0 (by omega)]; simp [ziS, ziC]
  have hbl : zi.length = b.length - 1 := by omega
  have hst : IsSteady b a zi := by
    rw [steady_iff _ _ _ hbl]
    intro k hk
    rw [hform k (by omega), hform (k + 1) (by omega), hz0, ha0']
    simp only [ziS, ziC, sum_range_succ, A, B, hgA, hgB, b0]
    field_simp
    ring
  have hout : tdfOut b a zi 1 = b.sum / a.sum := by
    have e : (b.getD 0 0 / a0 + z0) * (a.sum / a0) = b.sum / a0 := by
      have hC : ziS A n * z0 = ziC A B b0 n := by
        simp only [z0]; rw [mul_div_cancel₀ _ hS0]
      have hCe : ziC A B b0 n = (b.sum - b.getD 0 0) / a0 - (a.sum - a0) / a0 * b0 := by
        rw [sum_eq_head_add a n hn, sum_eq_head_add b n (by omega), ha0', ziC]
        simp only [A, B, hgA, hgB]
        rw [sum_sub_distrib, ← sum_div, ← sum_mul, ← sum_div]
        ring
      rw [← hSe]
      have : (b.getD 0 0 / a0 + z0) * ziS A n = b.getD 0 0 / a0 * ziS A n + ziC A B b0 n := by
        rw [← hC]; ring
      rw [this, hCe, hSe]
      simp only [b0]
      field_simp
      ring
    unfold tdfOut
    rw [hz0, mul_one, ha0']
    field_simp at e ⊢
    linear_combination e
  refine ⟨zi, h1, hst, ?_, hout⟩
  intro z hz
  have hzl : z.length = n := by rw [hz.1]; omega
  have hz' := (steady_iff b a z hz.1).mp hz
  have hu := steady_unique_aux b a z hz'
  have hlast := hu n (by omega)
  rw [List.getD_eq_getElem?_getD, List.getElem?_eq_none (by omega), Option.getD_none] at hlast
  -- the first component is determined
  have hfirst : z.getD 0 0 = z0 := by
    have e : z.getD 0 0 * ziS A n = ziC A B b0 n := by
      have : ∑ i ∈ range n, (b.getD (i + 1) 0 - a.getD (i + 1) 0 *
          (b.getD 0 0 / a.getD 0 0 + z.getD 0 0)) / a.getD 0 0 =
          ziC A B b0 n - (ziS A n - 1) * z.getD 0 0 := by
        simp only [ziC, ziS, A, B, hgA, hgB, b0, ha0']
        rw [add_sub_cancel_left, sum_mul, ← sum_sub_distrib]
        refine sum_congr rfl fun i _ => ?_
        field_simp
        ring
      rw [this] at hlast
      linear_combination -hlast
    simp only [z0]
    rw [eq_div_iff hS0, e]
  refine List.ext_getElem (by omega) fun k hk1 hk2 => ?_
  have e1 : z[k] = z.getD k 0 := by simp [List.getElem?_eq_getElem hk1]
  have e2 : zi[k] = zi.getD k 0 := by simp [List.getElem?_eq_getElem hk2]
  rw [e1, e2, hu k (by omega), steady_unique_aux b a zi
    ((steady_iff b a zi hbl).mp hst) k (by omega), hfirst, hz0]

example : [(1 : ℚ), 2, 3].length = [(2 : ℚ), -1, 1 / 2].length ∧ 2 ≤ [(2 : ℚ), -1, 1 / 2].length ∧
    [(2 : ℚ), -1, 1 / 2].getD 0 0 ≠ 0 ∧ [(2 : ℚ), -1, 1 / 2].sum ≠ 0 := by
  refine ⟨rfl, by decide, by decide, ?_⟩
  norm_num

/-- **C27** `lfilter_zi_dyn` panics exactly when the lengths differ, when `a` has no non-zero entry,
or when there is a single coefficient (build with overflow checks); it never performs an
out-of-bounds access.  In any arithmetic. -/
theorem C27_panics_iff {F : Type} [Zero F] [One F] [Add F] [Sub F] [Neg F] [Mul F] [Div F]
    [DecidableEq F] (b a : List F) :
    (Panics (lfilterZiDyn b a) ↔
      b.length ≠ a.length ∨ (∀ x ∈ a, x = 0) ∨ a.length = 1) ∧
    lfilterZiDyn b a ≠ .error Err.ub := by
  by_cases hl : b.length = a.length
  · cases hf : a.findIdx? (fun ai => ai ≠ 0) with
    | none =>
      have hall : ∀ x ∈ a, x = 0 := by
        intro x hx
        have := List.findIdx?_eq_none_iff.mp hf x hx
        simpa using this
      have : lfilterZiDyn b a = .error Err.unwrap := by
        unfold lfilterZiDyn
        simp only [hl, check_true, ok_bind, hf, error_bind]
      rw [this]
      simp [hl]
      exact Or.inl hall
    | some i =>
      obtain ⟨hi, hne, _⟩ := List.findIdx?_eq_some_iff_getElem.mp hf
      have hnall : ¬ ∀ x ∈ a, x = 0 := by
        intro hall
        exact (show a[i] ≠ 0 by simpa using hne) (hall a[i] (List.getElem_mem hi))
      by_cases h2 : 2 ≤ a.length
      · obtain ⟨zi, h1, _⟩ := lfilterZiDyn_free b a hl i hf h2 _ _ rfl rfl
        rw [h1]
        simp [hl, hnall]; omega
      · have h1 : a.length = 1 := by omega
        have : lfilterZiDyn b a = .error Err.overflow := by
          unfold lfilterZiDyn
          have hd : 0 < (a.drop i).length := by rw [List.length_drop]; omega
          simp only [hl, check_true, ok_bind, hf, vecGet_ok _ _ hd]
          obtain ⟨x, xs, hx⟩ := List.exists_cons_of_length_pos (l := lzNorm ((a.drop i).getD 0 0)
            (a.drop i)) (by simpa using hd)
          have hx' : (if (a.drop i).getD 0 0 ≠ 1 then (a.drop i).map (· / (a.drop i).getD 0 0)
            else a.drop i) = x :: xs := hx
          rw [hx']
          simp only [List.cons_append, companionDyn, h1,
            show (1 : ℕ) < 2 by decide, if_true, error_bind]
        rw [this]
        simp [h1]
  · have : lfilterZiDyn b a = .error Err.assert := by
      unfold lfilterZiDyn
      simp only [hl, not_false_eq_true, check_false, error_bind]
    rw [this]
    simp [hl]

example : Panics (lfilterZiDyn [(1 : ℚ), 2] [0, 0]) :=
  ((C27_panics_iff _ _).1).mpr (Or.inr (Or.inl (by simp)))

/-! ### `sosfilt_zi_dyn` -/

/-- A section as the code expects it: `a0 = 1` and a non-zero denominator sum (no pole at `z = 1`). -/
def Normal (s : Sos F) : Prop := s.a0 = 1 ∧ s.a0 + s.a1 + s.a2 ≠ 0

/-- Multiply both delays of every section by `c` (as a caller does before filtering). -/
def scaleStates {F : Type} [Mul F] (c : F) (sos : List (Sos F)) : List (Sos F) :=
  sos.map fun s => { s with zi0 := s.zi0 * c, zi1 := s.zi1 * c }

/-- Product of the DC gains of the sections. -/
def totalGain (sos : List (Sos F)) : F := (sos.map dcGain).prod

/-- One section: value of the steady state. -/
theorem section_zi [DecidableEq F] (s : Sos F) (hs : Normal s) :
    ∃ z0 z1, lfilterZiDyn [s.b0, s.b1, s.b2] [s.a0, s.a1, s.a2] = .ok [z0, z1] ∧
      z0 = s.b1 - s.a1 * (s.b0 + z0) + z1 ∧ z1 = s.b2 - s.a2 * (s.b0 + z0) ∧
      s.b0 + z0 = dcGain s := by
  obtain ⟨h1, h2⟩ := hs
  obtain ⟨zi, h3, h4, _, h6⟩ := C27_steady_state [s.b0, s.b1, s.b2] [s.a0, s.a1, s.a2] rfl
    (by simp) (by simp [h1]) (by simpa [add_assoc] using h2)
  have hl : zi.length = 2 := h4.1
  obtain ⟨z0, z1, rfl⟩ : ∃ z0 z1, zi = [z0, z1] := by
    match zi, hl with
    | [x, y], _ => exact ⟨x, y, rfl⟩
  have h5 := (steady_iff _ _ _ h4.1).mp h4
  have e0 := h5 0 (by simp)
  have e1 := h5 1 (by simp)
  simp [h1] at e0 e1
  refine ⟨z0, z1, h3, e0.symm, e1.symm, ?_⟩
  simp [tdfOut, h1] at h6
  rw [h6, dcGain, h1]
  congr 1 <;> ring

theorem sosfiltZiLoop_steady [DecidableEq F] (sos : List (Sos F)) (hs : ∀ s ∈ sos, Normal s)
    (scale : F) :
    ∃ r, sosfiltZiLoop scale sos = .ok r ∧ r.map coeffs = sos.map coeffs ∧
      ∀ c, sosfiltItem (scale * c) (scaleStates c r) =
        (scale * c * totalGain sos, scaleStates c r) := by
  induction sos generalizing scale with
  | nil => exact ⟨[], rfl, rfl, fun c => by simp [scaleStates, sosfiltItem, foldMut, totalGain]⟩
  | cons s ss ih =>
    obtain ⟨z0, z1, h1, h2, h3, h4⟩ := section_zi s (hs s (by simp))
    have hg : sumIter [s.b0, s.b1, s.b2] / sumIter [s.a0, s.a1, s.a2] = dcGain s := by
      simp only [sumIter_eq_sum, List.sum_cons, List.sum_nil, dcGain]; congr 1 <;> ring
    obtain ⟨r, hr1, hr2, hr3⟩ := ih (fun t ht => hs t (by simp [ht])) (scale * dcGain s)
    refine ⟨{ s with zi0 := scale * z0, zi1 := scale * z1 } :: r, ?_, ?_, ?_⟩
    · simp only [sosfiltZiLoop, h1, ok_bind, vecGet, List.getElem?_cons_zero,
        List.getElem?_cons_succ, hg, hr1]
      rfl
    · simp [hr2, coeffs]
    · intro c
      have hx : itemStep (scale * c) { s with zi0 := scale * z0 * c, zi1 := scale * z1 * c } =
          (scale * dcGain s * c, { s with zi0 := scale * z0 * c, zi1 := scale * z1 * c }) := by
        have e1 : s.b0 * (scale * c) + scale * z0 * c = scale * dcGain s * c := by
          rw [← h4]; ring
        simp only [itemStep, e1]
        congr 2
        · rw [← h4]; linear_combination -(scale * c) * h2
        · rw [← h4]; linear_combination -(scale * c) * h3
      have := hr3 c
      simp only [scaleStates, List.map_cons] at this ⊢
      rw [sosfiltItem_cons, hx]
      simp only [this, totalGain, List.map_cons, List.prod_cons]
      congr 1
      ring

/-- **C28** `sosfilt_zi_dyn` does not panic and keeps the coefficients, and if the states it sets are
multiplied by `c`, then a constant input of `n` samples `c` gives `n` samples
`c · ∏ (DC gain)` and the states do not change: there is no transient. -/
theorem C28_no_transient [DecidableEq F] (sos : List (Sos F)) (hs : ∀ s ∈ sos, Normal s) :
    ∃ r, sosfiltZiDyn sos = .ok r ∧ r.map coeffs = sos.map coeffs ∧
      ∀ (c : F) (n : ℕ), sosfiltDyn (List.replicate n c) (scaleStates c r) =
        (List.replicate n (c * totalGain sos), scaleStates c r) := by
  obtain ⟨r, h1, h2, h3⟩ := sosfiltZiLoop_steady sos hs 1
  refine ⟨r, h1, h2, fun c n => ?_⟩
  have h := h3 c
  rw [one_mul] at h
  rw [sosfiltDyn_eq]
  induction n with
  | zero => rfl
  | succ n ih => simp only [List.replicate_succ, mapMut, h, ih]

example : ∀ s ∈ [Sos.new 1 2 1 1 (-1) (1 / 2 : ℚ), Sos.new 3 0 1 1 (1 / 4) 0], Normal s := by
  intro s hs
  simp [Sos.new] at hs
  rcases hs with rfl | rfl <;> constructor <;> norm_num

/-- **C28** The requirement `a0 = 1` is real: with `a0 = 2` the states set by `sosfilt_zi_dyn` are not
steady for `sosfilt_dyn`, which never reads `a0`. -/
theorem C28_needs_normalised :
    ∃ sos : List (Sos ℚ), ∃ r, sosfiltZiDyn sos = .ok r ∧
      ¬ ∃ g : ℚ, (sosfiltDyn [1, 1] (scaleStates 1 r)).1 = [g, g] := by
  refine ⟨[Sos.new 1 0 0 2 1 0], [⟨1, 0, 0, 2, 1, 0, -1 / 6, 0⟩], ?_, ?_⟩
  · decide +kernel
  · rintro ⟨g, hg⟩
    have h : (sosfiltDyn [1, 1] (scaleStates 1
        [(⟨1, 0, 0, 2, 1, 0, -1 / 6, 0⟩ : Sos ℚ)])).1 = [5 / 6, 1 / 6] := by decide +kernel
    rw [h] at hg
    simp at hg
    obtain ⟨h1, h2⟩ := hg
    rw [← h1] at h2
    norm_num at h2

end SciRs.Props

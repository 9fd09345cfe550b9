import Mathlib.Data.Real.Basic
import Mathlib.Algebra.BigOperators.Group.Finset.Basic

/-! # Specification of discrete convolution and correlation -/

namespace SciRs.Spec

/-- Sample `m` of the linear convolution of two finite signals (zero outside their support):
`∑_{i ≤ m} x_i y_{m-i}`. -/
noncomputable def convAt (x y : List ℝ) (m : ℕ) : ℝ :=
  ∑ i ∈ Finset.range (m + 1), x.getD i 0 * y.getD (m - i) 0

/-- Cross-correlation at lag `d`: `∑_i x_i y_{i-d}`, over the indices inside both signals. -/
noncomputable def corrAt (x y : List ℝ) (d : ℤ) : ℝ :=
  ∑ i ∈ Finset.range x.length, ∑ j ∈ Finset.range y.length,
    if (i : ℤ) - j = d then x.getD i 0 * y.getD j 0 else 0

end SciRs.Spec

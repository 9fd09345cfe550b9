import Mathlib.Analysis.SpecialFunctions.Trigonometric.Basic
import Mathlib.Algebra.BigOperators.Group.Finset.Basic

/-! # Specification of trigonometric interpolation -/

namespace SciRs.Spec

/-- The kernel `1 + 2 cos 2πt + … + 2 cos 2π(K-1)t + cos 2πKt`: the frequencies below `K`, and half of `K`. -/
noncomputable def kernel (K : ℕ) (t : ℝ) : ℝ :=
  ∑ k ∈ Finset.range K, (Real.cos (2 * Real.pi * k * t) + Real.cos (2 * Real.pi * (k + 1 : ℕ) * t))

/-- The function of period one through the samples `x`, as far as its frequencies do not exceed `K`. -/
noncomputable def interpolant (x : List ℝ) (K : ℕ) (t : ℝ) : ℝ :=
  (∑ j ∈ Finset.range x.length, x.getD j 0 * kernel K (t - j / x.length)) / x.length

end SciRs.Spec

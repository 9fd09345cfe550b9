import Mathlib.Analysis.SpecialFunctions.Trigonometric.Basic
import Mathlib.Algebra.BigOperators.Group.Finset.Basic

/-! # Specification of band-limited periodic signals -/

namespace SciRs.Spec

/-- The real signal of period one with the frequencies `0, …, K - 1`. -/
noncomputable def trigPoly (a b : ℕ → ℝ) (K : ℕ) (t : ℝ) : ℝ :=
  ∑ k ∈ Finset.range K, (a k * Real.cos (2 * Real.pi * k * t) + b k * Real.sin (2 * Real.pi * k * t))

/-- `N` equidistant samples of one period of a signal. -/
noncomputable def sampled (s : ℝ → ℝ) (N : ℕ) : List ℝ :=
  (List.range N).map (fun j : ℕ => s (j / N))

end SciRs.Spec

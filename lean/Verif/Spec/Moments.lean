import Mathlib.Data.Real.Basic
import Mathlib.Algebra.BigOperators.Group.Finset.Basic

/-! # Specification of the sample statistics -/

namespace SciRs.Spec

/-- Arithmetic mean. -/
noncomputable def avg (y : List ℝ) : ℝ := y.sum / y.length

/-- Population variance: the mean of the squared deviations from the mean. -/
noncomputable def pvar (y : List ℝ) : ℝ := avg (y.map (fun v => (v - avg y) ^ 2))

/-- Some two samples differ. -/
def NonConstant (y : List ℝ) : Prop := ∃ u ∈ y, ∃ v ∈ y, u ≠ v

/-- Sum of the first `n` products of deviations at lag `h`: `∑_{j<n} (y_j - ȳ)(y_{j+h} - ȳ)`. -/
noncomputable def lagSum (y : List ℝ) (h n : ℕ) : ℝ :=
  ∑ j ∈ Finset.range n, (y.getD j 0 - avg y) * (y.getD (j + h) 0 - avg y)

end SciRs.Spec

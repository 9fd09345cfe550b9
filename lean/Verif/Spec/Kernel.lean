import Verif.Model.Sosfilt
import Mathlib.Data.Real.Basic
import Mathlib.Algebra.BigOperators.Group.Finset.Basic

/-!
# Specification vocabulary: convolution with a symmetric kernel
-/

namespace SciRs.Spec

/-- The distance of two positions. -/
def gap (i j : ℕ) : ℕ := (i - j) + (j - i)

/-- Sample `i` of the convolution of a signal, zero outside its range, with the kernel that has the value `φ d` at the
offsets `d` and `-d`. -/
noncomputable def symConv (φ : ℕ → ℝ) (y : List ℝ) (i : ℕ) : ℝ :=
  ∑ j ∈ Finset.range y.length, φ (gap i j) * y.getD j 0

/-- Sample `k` of the response of a cascade to a unit impulse, all delay values being zero at the start. -/
noncomputable def impulseResponse (sos : List (Sos ℝ)) (k : ℕ) : ℝ :=
  (sosfiltDyn (1 :: List.replicate k 0) (sos.map fun s => { s with zi0 := 0, zi1 := 0 })).1.getD k 0

end SciRs.Spec

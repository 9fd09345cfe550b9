import Mathlib.Data.Real.Basic

/-!
# Specification vocabulary: the energy of a signal
-/

namespace SciRs.Spec

/-- The energy of a signal: the sum of the squares of its samples. -/
def energy (x : List ℝ) : ℝ := (x.map (· ^ 2)).sum

/-- The difference of two signals, sample by sample. -/
def signalDiff (x y : List ℝ) : List ℝ := List.zipWith (· - ·) x y

end SciRs.Spec

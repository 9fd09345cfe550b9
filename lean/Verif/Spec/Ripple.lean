import Mathlib.Analysis.SpecialFunctions.Pow.Real

/-!
# The ripple of a Chebyshev filter, as the accuracy theorems see it
-/

namespace SciRs.Spec

/-- The amplitude at the bottom of a ripple of `rp` decibels. -/
noncomputable def rippleFloor (rp : ℝ) : ℝ := (10 : ℝ) ^ (-rp / 20)

/-- How much the subtraction in `10^(rp/10) - 1` enlarges an error: about `4.3 / rp` for a small ripple, and growing
like `rp` for a large one. -/
noncomputable def rippleCond (rp : ℝ) : ℝ := (1 + rp) / (1 - (10 : ℝ) ^ (-rp / 10))

/-- A lower bound for twice the distance of the poles of the Chebyshev I low-pass or high-pass filter of order `n`,
ripple `rp` and edge `e` (a fraction of the Nyquist frequency) from the unit circle. -/
noncomputable def chebMargin (n : ℕ) (rp e : ℝ) : ℝ := e * (1 - e) * rippleFloor rp / (n ^ 2 * rippleCond rp)

end SciRs.Spec

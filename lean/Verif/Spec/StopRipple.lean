import Verif.Spec.Ripple
import Mathlib.Analysis.SpecialFunctions.Arsinh

/-! # The numbers the accuracy of Chebyshev II filters depends on -/

namespace SciRs.Spec

/-- The parameter of the Chebyshev II prototype of order `n` whose stop band lies `rs` decibels down: `cosh (n μ)` is
the attenuation as an amplitude, `10^(rs/20)`. -/
noncomputable def stopMu (n : ℕ) (rs : ℝ) : ℝ := Real.arsinh (√((10 : ℝ) ^ (rs / 10) - 1)) / n

/-- How much an error of the arithmetic is enlarged on the way to the parameter and its hyperbolic sine. -/
noncomputable def stopCond (n : ℕ) (rs : ℝ) : ℝ := rippleCond rs * (1 + stopMu n rs)

/-- A lower bound for twice the distance of the poles of the Chebyshev II low-pass filter of order `n`, attenuation
`rs` and edge `e` (a fraction of the Nyquist frequency) from the unit circle. -/
noncomputable def stopMargin (n : ℕ) (rs e : ℝ) : ℝ :=
  e * (1 - e) * Real.sinh (stopMu n rs) / (n * Real.cosh (stopMu n rs) ^ 2)

end SciRs.Spec

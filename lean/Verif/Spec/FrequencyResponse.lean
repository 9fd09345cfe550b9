import Verif.Spec.Sections
import Mathlib.Analysis.Complex.Trigonometric
import Mathlib.Analysis.SpecialFunctions.Complex.Arg

/-!
# Specification vocabulary: sinusoids and the frequency response of a list of sections
-/

namespace SciRs.Spec

/-- `N` samples of the sinusoid `A cos(ω n + φ)`. -/
noncomputable def sinusoid (A ω φ : ℝ) (N : ℕ) : List ℝ :=
  (List.range N).map fun n : ℕ => A * Real.cos (ω * n + φ)

/-- The frequency response `H(e^{iω}) = ∏ (b0 + b1 e^{-iω} + b2 e^{-2iω}) / (a0 + a1 e^{-iω} + a2 e^{-2iω})`,
written with numerator and denominator multiplied by `e^{2iω}`. -/
noncomputable def freqResponse (sos : List (Sos ℝ)) (ω : ℝ) : ℂ :=
  sosNum sos (Complex.exp (Complex.I * ω)) / sosDen sos (Complex.exp (Complex.I * ω))

end SciRs.Spec

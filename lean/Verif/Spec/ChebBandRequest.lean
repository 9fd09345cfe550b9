import Verif.Spec.BandRequest
import Verif.Spec.Ripple
import Mathlib.Analysis.SpecialFunctions.Arsinh

/-!
# Chebyshev I band-pass and band-stop requests that floating point can handle

Conditions on the order, the ripple, the edges and the precision, in terms of the request only.
-/

namespace SciRs.Spec

/-- The parameter of the Chebyshev I prototype of order `n` with ripple `rp` in decibels: `sinh (n μ)` is the inverse
of the ripple factor. -/
noncomputable def passMu (n : ℕ) (rp : ℝ) : ℝ := Real.arsinh (1 / √((10 : ℝ) ^ (rp / 10) - 1)) / n

/-- The size of the real pole of the prototype of odd order, or its inverse for band-stop filters. -/
noncomputable def passSize (n : ℕ) (rp : ℝ) (stop : Bool) : ℝ :=
  if stop then (Real.sinh (passMu n rp))⁻¹ else Real.sinh (passMu n rp)

/-- The edges (as fractions of the Nyquist frequency) are in order, and the precision `h` is high enough for them.
The prototype poles lie on an ellipse with the half axes `sinh μ` and `cosh μ`, and `Λ` says how far these are from
one.  Each pole is replaced by the two roots of a quadratic equation, and `κ` says how far these are apart, as in
`BandRequest`: for odd orders the two roots for the real pole must not come too close. -/
structure ChebBandRequest (n : ℕ) (rp e0 e1 κ Λ h : ℝ) (stop : Bool) : Prop where
  pos : 0 < e0
  lt : e0 < e1
  one : e1 < 1
  order : n ≠ 0
  ripple : 0 < rp
  kappa : 0 < κ
  kappa_half : κ ≤ 1 / 2
  kappa_inv : κ ≤ 1 / n
  size : Real.cosh (passMu n rp) ≤ Λ
  size_inv : 1 ≤ Λ * Real.sinh (passMu n rp)
  odd : n % 2 = 1 →
    κ ^ 2 * ((passSize n rp stop * ((warped e1 - warped e0) / 2)) ^ 2 + warped e0 * warped e1) ≤
      |(passSize n rp stop * ((warped e1 - warped e0) / 2)) ^ 2 - warped e0 * warped e1|
  prec : 16000 * (n * rippleCond rp ^ 2 * Λ ^ 2 * h) ≤ (κ * (1 - e1)) ^ 2
  side : 400 * (n ^ 3 * rippleCond rp ^ 2 * Λ ^ 5 * h) ≤ (1 - e1) * (e1 - e0) ^ 2

/-- The smallest number the design has to tell from zero. -/
noncomputable def chebBandFloor (n : ℕ) (rp e0 κ Λ : ℝ) : ℝ :=
  κ ^ 2 * e0 ^ 2 * rippleFloor rp / (4 * n * rippleCond rp * Λ ^ 2)

end SciRs.Spec

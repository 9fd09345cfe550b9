import Mathlib.Analysis.SpecialFunctions.Trigonometric.Basic

/-!
# Band-pass and band-stop requests that floating point can handle

Conditions on the order, the edges and the precision, in terms of the request only.
-/

namespace SciRs.Spec

/-- The pre-warped edge, for the bilinear transformation at sampling rate 2. -/
noncomputable def warped (e : ℝ) : ℝ := 4 * Real.tan (Real.pi * e / 2)

/-- The edges (as fractions of the Nyquist frequency) are in order, and the precision `h` is high enough for them.
Each prototype pole is replaced by the two roots of a quadratic equation, and `κ` says how far these are apart.  For
even orders any `κ` up to `1 / √n` will do.  For odd orders the middle prototype pole is real, and its two roots would
coincide if the warped edges were in the proportion `3 + 2 √2`: then no `κ` will do, and the closer they come to
that, the smaller `κ` has to be. -/
structure BandRequest (n : ℕ) (e0 e1 κ h : ℝ) : Prop where
  pos : 0 < e0
  lt : e0 < e1
  one : e1 < 1
  order : n ≠ 0
  kappa : 0 < κ
  kappa_sq : κ ^ 2 ≤ 1 / n
  odd : n % 2 = 1 → κ ^ 2 * (warped e0 + warped e1) ^ 2 ≤ |warped e0 ^ 2 - 6 * warped e0 * warped e1 + warped e1 ^ 2|
  prec : 4000 * h ≤ (κ * (e1 - e0) * (1 - e1)) ^ 2

end SciRs.Spec

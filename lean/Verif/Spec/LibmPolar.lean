import Verif.Spec.LibmAccuracy

/-!
# Accurate polar coordinates

What the band-pass and band-stop designs assume of the library besides: they take complex square roots, which go
through `hypot` and `atan2`.
-/

namespace SciRs.Rounded

open SciRs.Spec

/-- `hypot` up to a relative error of `h`, apart from underflow, and `atan2` up to an absolute error of `4 h`. -/
structure Libm.AccuratePolar (m : Libm) (r : Rounding) (h : ℝ) : Prop where
  hypot : ∀ x y, |m.hypot x y - √(x ^ 2 + y ^ 2)| ≤ h * √(x ^ 2 + y ^ 2) + r.t
  atan2 : ∀ x y, |m.atan2 y x - Complex.arg ⟨x, y⟩| ≤ 4 * h

end SciRs.Rounded

import Verif.Spec.LibmPolar

/-!
# Better and better arithmetic

A floating-point arithmetic together with a bound `h` on its errors.  Statements about what happens "as the precision
grows" range over all of them with `h` small enough.
-/

namespace SciRs.Rounded

open SciRs.Spec

/-- The rounding `r` and the library `m` are as accurate as `h` says: the unit roundoff, the absolute error of an
underflowing result and the errors of all library functions used by the design code are bounded in terms of `h`. -/
structure AccurateTo (r : Rounding) (m : Libm) (h : ℝ) : Prop where
  nearest : r.Nearest
  basic : m.Accurate r h
  hyp : m.AccurateHyp r h
  polar : m.AccuratePolar r h
  t_le : r.t ≤ h

end SciRs.Rounded

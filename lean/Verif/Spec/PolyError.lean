import Verif.Spec.Coeffs
import Verif.Spec.Rounding
import Mathlib.Analysis.Complex.Norm
import Mathlib.Algebra.Polynomial.Eval.Defs

/-!
# Specification vocabulary: how far coefficients of a product of root factors may be off
-/

namespace SciRs.Spec

open Polynomial

/-- The polynomial `∏ (X + |r_i|)`: its coefficients bound those of `∏ (X - r_i)`. -/
noncomputable def absPoly (l : List ℂ) : Polynomial ℝ := (l.map fun x => X + C ‖x‖).prod

/-- The error allowed in the coefficient of `X^i`: the fraction `(1 + 5u)^n - 1` of the coefficient of
`∏ (X + |r_i|)`, and what underflow can add. -/
noncomputable def coeffErr (r : Rounding) (l : List ℂ) (i : ℕ) : ℝ :=
  ((1 + 5 * r.u) ^ l.length - 1) * (absPoly l).coeff i +
    7 * l.length * r.t * (1 + 5 * r.u) ^ l.length * (absPoly l).eval 1

/-- The sum of the errors allowed in all coefficients. -/
noncomputable def totalErr (r : Rounding) (l : List ℂ) : ℝ :=
  ((1 + 5 * r.u) ^ l.length - 1 + 7 * l.length * (l.length + 1) * r.t * (1 + 5 * r.u) ^ l.length) *
    (l.map fun x => 1 + ‖x‖).prod

end SciRs.Spec

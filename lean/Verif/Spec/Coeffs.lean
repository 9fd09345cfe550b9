import Mathlib.Algebra.Polynomial.Basic
import Mathlib.Data.Complex.Basic
import Mathlib.Algebra.Polynomial.Roots

/-!
# Specification of coefficient lists

Coefficients are listed from the highest power down, as in scipy.
-/

namespace SciRs.Spec

open Polynomial

/-- The monic polynomial `∏ (X - r_i)`. -/
noncomputable def rootPoly (r : List ℂ) : Polynomial ℂ := (r.map (fun x => X - C x)).prod

/-- `c` lists the coefficients of `P`, of degree at most `n`, from the coefficient of `X^n` down to the
constant term. -/
def IsCoeffList (c : List ℂ) (n : ℕ) (P : Polynomial ℂ) : Prop :=
  c.length = n + 1 ∧ P.natDegree ≤ n ∧ ∀ i : ℕ, i ≤ n → c[i]? = some (P.coeff (n - i))

/-- The value at `x` of the polynomial whose coefficients from the highest power down are `c`. -/
noncomputable def coeffVal (c : List ℝ) (x : ℂ) : ℂ :=
  ∑ i ∈ Finset.range c.length, (c.getD i 0 : ℂ) * x ^ (c.length - 1 - i)

end SciRs.Spec

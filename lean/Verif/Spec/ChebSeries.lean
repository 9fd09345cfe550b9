import Mathlib.RingTheory.Polynomial.Chebyshev
import Mathlib.Data.Real.Basic
import Mathlib.Algebra.BigOperators.Group.Finset.Basic

/-! # Specification of a Chebyshev series in Cephes order -/

namespace SciRs.Spec

/-- The value at `x / 2` of the Chebyshev series with the given coefficients, stored in reverse order (highest
degree first), the coefficient of degree 0 halved:
`c_{n-1}/2 + ∑_{i=1}^{n-1} c_{n-1-i} T_i(x/2)`. -/
noncomputable def chebSeries (x : ℝ) (coef : List ℝ) : ℝ :=
  coef.reverse.getD 0 0 / 2 + ∑ i ∈ Finset.Ico 1 coef.length,
    coef.reverse.getD i 0 * (Polynomial.Chebyshev.T ℝ i).eval (x / 2)

end SciRs.Spec

import Mathlib.Topology.Algebra.InfiniteSum.Basic
import Mathlib.Topology.Instances.Real.Lemmas
import Mathlib.Data.Nat.Factorial.Basic

/-!
# The modified Bessel function of the first kind of order zero

`I₀(x) = ∑ (x²/4)^k / (k!)²` (DLMF 10.25.2).
-/

namespace SciRs.Spec

/-- `I₀`. -/
noncomputable def besselI0 (x : ℝ) : ℝ := ∑' k : ℕ, (x ^ 2 / 4) ^ k / (Nat.factorial k : ℝ) ^ 2

end SciRs.Spec

import Mathlib.Data.Nat.Notation

/-!
# Specification: multifactorials
-/

namespace SciRs.Spec

/-- `n (n-k) (n-2k) ⋯` down to the last positive factor; `1` for `n = 0`. -/
def multifactorial (k : ℕ) (n : ℕ) : ℕ :=
  if h : n = 0 ∨ k = 0 then 1 else n * multifactorial k (n - k)
termination_by n
decreasing_by omega

end SciRs.Spec

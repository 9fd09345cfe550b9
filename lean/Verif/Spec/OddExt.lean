import Mathlib.Algebra.Group.Defs

/-!
# Specification: odd (point-symmetric) extension of a finite sequence
-/

namespace SciRs.Spec

variable {T : Type} [One T] [Add T] [Mul T] [Sub T]

/-- Sample `k` of the extension of `x[0], …, x[len-1]` by `n` samples on each side: sample `x[j]`
moves to position `n + j`, and a sample at distance `d` outside an end is twice the end sample minus
the sample at distance `d` inside. -/
def oddExt (len n : ℕ) (x : ℕ → T) (k : ℕ) : T :=
  if k < n then (1 + 1) * x 0 - x (n - k)
  else if k < n + len then x (k - n)
  else (1 + 1) * x (len - 1) - x (len - 1 - (k - (n + len - 1)))

end SciRs.Spec

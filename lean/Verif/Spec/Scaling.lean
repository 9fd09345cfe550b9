import Verif.Lemmas.BinaryRounding
import Verif.Spec.Ieee

/-!
# Multiplying all samples by the same number

A factor is exact for a rounding if rounding commutes with multiplying by it.  For numbers with `p` significant bits
the exact factors are the powers of two and their negatives, as long as nothing overflows or underflows; -1 is exact
for every rounding to nearest, underflow or not.
-/

namespace SciRs.Spec

/-- Multiplying by `c`, and by its absolute value, commutes with rounding. -/
structure ExactFactor (r : Rounding) (c : ℝ) : Prop where
  ne_zero : c ≠ 0
  mul : ∀ x, r.rnd (c * x) = c * r.rnd x
  abs_mul : ∀ x, r.rnd (|c| * x) = |c| * r.rnd x

/-- The number `c a`. -/
noncomputable def scaled {r : Rounding} (c : ℝ) (a : Fl r) : Fl r := ⟨c * a.val⟩

/-- Rounding to `p` significant bits, ties to even, with unbounded exponents: neither overflow nor underflow. -/
noncomputable def Binary.rndUnbounded (p : ℕ) (x : ℝ) : ℝ := Binary.rnd p (Int.log 2 |x| + 1 - p) x

namespace Ieee

variable {f : Format}

/-- The same number; the sign of a zero is ignored. -/
def Same : Ieee f → Ieee f → Prop
  | nan, nan => True
  | inf s, inf t => s = t
  | fin v _, fin w _ => v = w
  | _, _ => False

/-- `b` is minus `a`; the sign of a zero is ignored. -/
def Opposite (a b : Ieee f) : Prop := Same (-a) b

end Ieee

end SciRs.Spec

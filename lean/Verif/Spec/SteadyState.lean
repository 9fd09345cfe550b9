import Verif.Model.Sos
import Mathlib.Algebra.Field.Basic

/-!
# Specification: the transposed direct form II filter `b / a` of arbitrary order
-/

namespace SciRs.Spec

variable {F : Type} [Field F]

/-- Output for the input sample `x` in state `z`: `y = (b[0]/a[0]) x + z[0]`. -/
def tdfOut (b a z : List F) (x : F) : F := b.getD 0 0 / a.getD 0 0 * x + z.getD 0 0

/-- Next state: `z'[k] = (b[k+1] x - a[k+1] y) / a[0] + z[k+1]`, with `z[len] = 0`. -/
def tdfNext (b a z : List F) (x : F) : List F :=
  (List.range z.length).map fun k =>
    (b.getD (k + 1) 0 * x - a.getD (k + 1) 0 * tdfOut b a z x) / a.getD 0 0 + z.getD (k + 1) 0

/-- `z` is a state of the right size that a unit constant input leaves unchanged. -/
def IsSteady (b a z : List F) : Prop := z.length = b.length - 1 ∧ tdfNext b a z 1 = z

/-- The DC gain of a section. -/
def dcGain (s : Sos F) : F := (s.b0 + s.b1 + s.b2) / (s.a0 + s.a1 + s.a2)

end SciRs.Spec

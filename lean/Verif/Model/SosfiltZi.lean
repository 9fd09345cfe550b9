import Verif.Model.LfilterZi
import Verif.Model.Sos

/-!
# Model of `signal/filter/sosfilt_zi.rs`
-/

namespace SciRs

variable {F : Type} [Zero F] [One F] [Add F] [Sub F] [Neg F] [Mul F] [Div F] [DecidableEq F]

/-- The loop `sosfilt_zi.rs:31-36` with the running `scale` of line 30. -/
def sosfiltZiLoop : F → List (Sos F) → Res (List (Sos F))
  | _, [] => .ok []
  | scale, s :: ss => do
    let zi ← lfilterZiDyn [s.b0, s.b1, s.b2] [s.a0, s.a1, s.a2]
    let z0 ← vecGet zi 0
    let z1 ← vecGet zi 1
    let s' := { s with zi0 := scale * z0, zi1 := scale * z1 }
    let scale' := scale * (sumIter [s.b0, s.b1, s.b2] / sumIter [s.a0, s.a1, s.a2])
    let rest ← sosfiltZiLoop scale' ss
    return s' :: rest

/-- `sosfilt_zi.rs:25-37`, `sosfilt_zi_dyn`: overwrites the delays of all sections. -/
def sosfiltZiDyn (sos : List (Sos F)) : Res (List (Sos F)) := sosfiltZiLoop 1 sos

end SciRs

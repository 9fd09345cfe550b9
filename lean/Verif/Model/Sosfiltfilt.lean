import Verif.Model.Ext
import Verif.Model.SosfiltZi
import Verif.Model.Sosfilt

/-!
# Model of `signal/filter/sosfiltfilt.rs`

Law-free arithmetic.
-/

namespace SciRs

variable {F : Type} [Zero F] [One F] [Add F] [Sub F] [Neg F] [Mul F] [Div F] [DecidableEq F]

/-- `sosfiltfilt.rs:23-27`: the number of taps used for the padding length. -/
def sosNtaps (sos : List (Sos F)) : Nat :=
  let ntaps := 2 * sos.length + 1
  let bzeros := (sos.filter fun s => s.b2 = 0).length
  let azeros := (sos.filter fun s => s.a2 = 0).length
  ntaps - min bzeros azeros

/-- `for s in sos.iter_mut() { s.zi0 *= c; s.zi1 *= c; }` (`sosfiltfilt.rs:38-41` and 46-49). -/
def mulStates (c : F) (sos : List (Sos F)) : List (Sos F) :=
  sos.map fun s => { s with zi0 := s.zi0 * c, zi1 := s.zi1 * c }

/-- `sosfiltfilt.rs:17-57`, `sosfiltfilt_dyn`.  The caller's sections are only read. -/
def sosfiltfiltDyn (y : List F) (sos : List (Sos F)) : Res (List F) := do
  let ntaps := sosNtaps sos
  let yLen := y.length
  let x := DMat.ofVec y
  let (edge, ext) ← pad Pad.odd none x 0 ntaps            -- line 31
  let initSos ← sosfiltZiDyn sos                          -- lines 33-34
  let x0 ← ext.index 0 0                                  -- line 36
  let sosX := mulStates x0 initSos
  let y := (sosfiltDyn ext.iter sosX).1                   -- line 42
  let y0 ← match y.getLast? with                          -- line 44
    | some v => .ok v
    | none => .error Err.unwrap
  let sosY := mulStates y0 initSos
  let z := (((sosfiltDyn y.reverse sosY).1).drop edge).take yLen   -- lines 50-56
  return z.reverse

end SciRs

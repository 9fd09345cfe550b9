import Verif.Model.Sos

/-!
# Specification of a cascade of second-order sections

Written section by section (the code works sample by sample): a section in transposed direct
form II turns a whole signal into a whole signal, and the output of one section is the input of the
next.  No law of arithmetic is assumed.
-/

namespace SciRs.Spec

variable {F : Type} [Add F] [Sub F] [Mul F]

/-- A second-order section with coefficients `b0 b1 b2` / `1 a1 a2`, started from the delay values
`z0 z1`, run over a signal: the output signal and the final delay values. -/
def tdf2 (b0 b1 b2 a1 a2 : F) : F → F → List F → List F × F × F
  | z0, z1, [] => ([], z0, z1)
  | z0, z1, x :: xs =>
    let y := b0 * x + z0
    let r := tdf2 b0 b1 b2 a1 a2 (b1 * x - a1 * y + z1) (b2 * x - a2 * y) xs
    (y :: r.1, r.2)

/-- The cascade: every section filters the complete output of its predecessor. -/
def cascade : List (Sos F) → List F → List F × List (Sos F)
  | [], x => (x, [])
  | s :: ss, x =>
    let r := tdf2 s.b0 s.b1 s.b2 s.a1 s.a2 s.zi0 s.zi1 x
    let q := cascade ss r.1
    (q.1, { s with zi0 := r.2.1, zi1 := r.2.2 } :: q.2)

end SciRs.Spec

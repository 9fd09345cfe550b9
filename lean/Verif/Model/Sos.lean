import Verif.Basic

/-!
# Model of `signal/filter/design/sos.rs`
-/

namespace SciRs

/-- `sos.rs:22-32`, `struct Sos`: the two arrays `b : [F; 3]` and `a : [F; 3]` are written as six
fields, followed by the two delay values. -/
structure Sos (F : Type) where
  b0 : F
  b1 : F
  b2 : F
  a0 : F
  a1 : F
  a2 : F
  zi0 : F
  zi1 : F
  deriving DecidableEq, Repr

/-- `sos.rs:51-57`, `Sos::new`: the delays come from `Default` (`sos.rs:34-43`), i.e. are zero. -/
def Sos.new {F : Type} [Zero F] (b0 b1 b2 a0 a1 a2 : F) : Sos F :=
  { b0 := b0, b1 := b1, b2 := b2, a0 := a0, a1 := a1, a2 := a2, zi0 := 0, zi1 := 0 }

/-- itertools' `tuples::<(_, _, _, _, _, _)>()` as used at `sos.rs:65-66`: consecutive
non-overlapping groups of six, an incomplete last group is dropped. -/
def tuples6 {F : Type} : List F → List (F × F × F × F × F × F)
  | a :: b :: c :: d :: e :: f :: rest => (a, b, c, d, e, f) :: tuples6 rest
  | _ => []

/-- `sos.rs:62-70`, `Sos::from_scipy_dyn`.  `usizeMax` is the largest `usize`; `checked` says
whether the build has overflow checks, which matters for the product `order * 6` at line 63. -/
def fromScipyDyn {F : Type} [Zero F] (usizeMax : Nat) (checked : Bool) (order : Nat)
    (sos : List F) : Res (List (Sos F)) := do
  let prod ← if order * 6 ≤ usizeMax then .ok (order * 6)
    else if checked then .error Err.overflow else .ok ((order * 6) % (usizeMax + 1))
  check (prod = sos.length)
  return ((tuples6 sos).take order).map
    (fun t => Sos.new t.1 t.2.1 t.2.2.1 t.2.2.2.1 t.2.2.2.2.1 t.2.2.2.2.2)

end SciRs

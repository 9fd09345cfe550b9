import Verif.Model.DMat

/-!
# Model of `signal/filter/ext.rs`

Law-free arithmetic.  Index subtractions are checked (`usizeSub`); additions and the products
`ntaps * 3`, `2 * n` are taken not to overflow (`Model/ExtRelease.lean` has the arithmetic of every build, and C119
says when they agree).
-/

namespace SciRs

/-- `ext.rs:9-21`, `enum Pad`. -/
inductive Pad where
  | none
  | even
  | odd
  | constant
  deriving DecidableEq, Repr

/-- `a - b` on `usize` in a build with overflow checks.  Used in `ext.rs:141, 156, 161, 162, 192`. -/
def usizeSub (a b : Nat) : Res Nat := if b ≤ a then .ok (a - b) else .error Err.overflow

section
variable {T : Type}

/-- `row.index(j)` / `column.index(i)` on a row or column view: bounds-checked.  Used in `ext.rs:141, 162, 192`. -/
def DMat.index (m : DMat T) (i j : Nat) : Res T :=
  if i < m.nrows ∧ j < m.ncols then .ok (m.entry i j) else .error Err.index

/-- A double loop whose body computes a target index and a value and stores it with `get_unchecked_mut`; the list
gives the iteration order.  The loops of `ext.rs:137-144, 147-153, 158-165, 188-195`. -/
def fillLoop (body : Nat × Nat → Res ((Nat × Nat) × T)) :
    List (Nat × Nat) → DMat T → Res (DMat T)
  | [], m => .ok m
  | p :: ps, m => do
    let w ← body p
    let m' ← m.setUnchecked w.1.1 w.1.2 w.2
    fillLoop body ps m'

/-- `for a in 0..n1 { for b in 0..n2 { .. } }`, pairs `(a, b)` in iteration order.  The loops of `ext.rs:137-138,
147-148, 158-159, 188-189`. -/
def loopPairs (n1 n2 : Nat) : List (Nat × Nat) :=
  (List.range n1).flatMap fun a => (List.range n2).map fun b => (a, b)

variable [Zero T] [One T] [Add T] [Mul T] [Sub T]

/-- `ext.rs:138-144`: left extension along the rows; the loop variables are `(j, i)`. -/
def leftRow (x : DMat T) (n : Nat) (p : Nat × Nat) : Res ((Nat × Nat) × T) := do
  let first ← x.index 0 p.1
  let k ← usizeSub n p.2
  let v ← x.getUnchecked k p.1
  return ((p.2, p.1), (1 + 1) * first - v)

/-- `ext.rs:147-153`: the copy of `x`; the loop variables are `(j, i)`. -/
def midRow (x : DMat T) (n : Nat) (p : Nat × Nat) : Res ((Nat × Nat) × T) := do
  let v ← x.getUnchecked p.2 p.1
  return ((p.2 + n, p.1), v)

/-- `ext.rs:156-165`: right extension along the rows; the loop variables are `(j, i)`. -/
def rightRow (x : DMat T) (n : Nat) (p : Nat × Nat) : Res ((Nat × Nat) × T) := do
  let lastIdx ← usizeSub x.nrows 1
  let k1 ← usizeSub (x.nrows + 2 * n) 1
  let k ← usizeSub k1 p.2
  let last ← x.index lastIdx p.1
  let q ← usizeSub lastIdx n
  let v ← x.getUnchecked (q + p.2) p.1
  return ((k, p.1), (1 + 1) * last - v)

/-- `ext.rs:187-195`: left extension along the columns; the loop variables are `(j, i)`. -/
def leftCol (x : DMat T) (n : Nat) (p : Nat × Nat) : Res ((Nat × Nat) × T) := do
  let first ← x.index p.2 0
  let k ← usizeSub n p.1
  let v ← x.getUnchecked p.2 k
  return ((p.2, p.1), (1 + 1) * first - v)

/-- `ext.rs:198-204`: the copy of `x`; the loop variables are `(j, i)`. -/
def midCol (x : DMat T) (n : Nat) (p : Nat × Nat) : Res ((Nat × Nat) × T) := do
  let v ← x.getUnchecked p.2 p.1
  return ((p.2, p.1 + n), v)

/-- `ext.rs:207-216`: right extension along the columns; the loop variables are `(j, i)`. -/
def rightCol (x : DMat T) (n : Nat) (p : Nat × Nat) : Res ((Nat × Nat) × T) := do
  let lastIdx ← usizeSub x.ncols 1
  let k1 ← usizeSub (x.ncols + 2 * n) 1
  let k ← usizeSub k1 p.1
  let last ← x.index p.2 lastIdx
  let q ← usizeSub lastIdx n
  let v ← x.getUnchecked p.2 (q + p.1)
  return ((p.2, k), (1 + 1) * last - v)

/-- `ext.rs:95-222`, `odd_ext_dyn`. -/
def oddExtDyn (x : DMat T) (n axis : Nat) : Res (DMat T) := do
  check (axis < 2)
  if n < 1 then return x.copy
  match axis with
  | 0 => do
    check (n < x.nrows)
    let m := DMat.zeros (x.nrows + 2 * n) x.ncols
    let m ← fillLoop (leftRow x n) (loopPairs x.ncols n) m
    let m ← fillLoop (midRow x n) (loopPairs x.ncols x.nrows) m
    fillLoop (rightRow x n) (loopPairs x.ncols n) m
  | 1 => do
    check (n < x.ncols)
    let m := DMat.zeros x.nrows (x.ncols + 2 * n)
    let m ← fillLoop (leftCol x n) (loopPairs n x.nrows) m
    let m ← fillLoop (midCol x n) (loopPairs x.ncols x.nrows) m
    fillLoop (rightCol x n) (loopPairs n x.nrows) m
  | _ => .error Err.panic

/-- `ext.rs:39-46`: the edge length. -/
def edgeLen (padtype : Pad) (padlen : Option Nat) (ntaps : Nat) : Nat :=
  let padlen := if padtype = Pad.none then some 0 else padlen
  match padlen with
  | some p => p
  | none => ntaps * 3

omit [Zero T] [One T] [Add T] [Mul T] [Sub T] in
/-- `ext.rs:49-54`: the shape assertion. -/
def checkShape (x : DMat T) (axis edge : Nat) : Res Unit :=
  match axis with
  | 0 => check (x.nrows > edge)
  | 1 => check (x.ncols > edge)
  | _ => .error Err.panic

/-- `ext.rs:26-90`, `pad`: returns the edge length and the padded matrix. -/
def pad (padtype : Pad) (padlen : Option Nat) (x : DMat T) (axis ntaps : Nat) :
    Res (Nat × DMat T) := do
  let edge := edgeLen padtype padlen ntaps                          -- lines 39-46
  check (axis < 2)                                                  -- line 48
  checkShape x axis edge                                            -- lines 49-54
  if padtype = Pad.none then return (edge, x.copy)                  -- lines 56-69
  if edge = 0 then return (edge, x.copy)                            -- lines 71-84
  match padtype with                                                -- lines 86-89
  | Pad.odd => do
    let m ← oddExtDyn x edge axis
    return (edge, m)
  | _ => .error Err.unreachable

end
end SciRs

import Verif.Model.CompanionRelease
import Verif.Model.Sosfiltfilt

/-!
# `odd_ext_dyn`, `pad` and `sosfiltfilt_dyn` with the `usize` arithmetic of the build

`oddExtDyn`, `pad` and `sosfiltfiltDyn` take sums and products of sizes to be exact.  Here every addition,
subtraction and product of sizes is that of the build: with overflow checks it panics when it leaves the range,
without them it wraps.  Running out of memory is not modelled.
-/

namespace SciRs

/-- `a * b` on `usize`.  Used in `ext.rs:45, 124, 161, 175`. -/
def Cfg.usizeMul (c : Cfg) (a b : Nat) : Res Nat :=
  if ((a * b : Nat) : Int) ≤ c.usizeMax then .ok (a * b)
  else if c.checked then .error Err.overflow else .ok ((a * b) % 2 ^ c.ptrBits)

section
variable {T : Type} [Zero T] [One T] [Add T] [Mul T] [Sub T]

/-- `ext.rs:138-144`: left extension along the rows. -/
def leftRowIn (c : Cfg) (x : DMat T) (n : Nat) (p : Nat × Nat) : Res ((Nat × Nat) × T) := do
  let first ← x.index 0 p.1
  let k ← c.usizeSub n p.2
  let v ← x.getUnchecked k p.1
  return ((p.2, p.1), (1 + 1) * first - v)

omit [Zero T] [One T] [Add T] [Mul T] [Sub T] in
/-- `ext.rs:147-153`: the copy of `x` along the rows. -/
def midRowIn (c : Cfg) (x : DMat T) (n : Nat) (p : Nat × Nat) : Res ((Nat × Nat) × T) := do
  let v ← x.getUnchecked p.2 p.1
  let k ← c.usizeAdd p.2 n
  return ((k, p.1), v)

/-- `ext.rs:156-165`: right extension along the rows. -/
def rightRowIn (c : Cfg) (x : DMat T) (n : Nat) (p : Nat × Nat) : Res ((Nat × Nat) × T) := do
  let lastIdx ← c.usizeSub x.nrows 1
  let last ← x.index lastIdx p.1
  let q ← c.usizeSub lastIdx n
  let q ← c.usizeAdd q p.2
  let v ← x.getUnchecked q p.1
  let n2 ← c.usizeMul 2 n
  let k ← c.usizeAdd x.nrows n2
  let k ← c.usizeSub k 1
  let k ← c.usizeSub k p.2
  return ((k, p.1), (1 + 1) * last - v)

/-- `ext.rs:187-195`: left extension along the columns. -/
def leftColIn (c : Cfg) (x : DMat T) (n : Nat) (p : Nat × Nat) : Res ((Nat × Nat) × T) := do
  let first ← x.index p.2 0
  let k ← c.usizeSub n p.1
  let v ← x.getUnchecked p.2 k
  return ((p.2, p.1), (1 + 1) * first - v)

omit [Zero T] [One T] [Add T] [Mul T] [Sub T] in
/-- `ext.rs:198-204`: the copy of `x` along the columns. -/
def midColIn (c : Cfg) (x : DMat T) (n : Nat) (p : Nat × Nat) : Res ((Nat × Nat) × T) := do
  let v ← x.getUnchecked p.2 p.1
  let k ← c.usizeAdd p.1 n
  return ((p.2, k), v)

/-- `ext.rs:207-216`: right extension along the columns. -/
def rightColIn (c : Cfg) (x : DMat T) (n : Nat) (p : Nat × Nat) : Res ((Nat × Nat) × T) := do
  let lastIdx ← c.usizeSub x.ncols 1
  let last ← x.index p.2 lastIdx
  let q ← c.usizeSub lastIdx n
  let q ← c.usizeAdd q p.1
  let v ← x.getUnchecked p.2 q
  let n2 ← c.usizeMul 2 n
  let k ← c.usizeAdd x.ncols n2
  let k ← c.usizeSub k 1
  let k ← c.usizeSub k p.1
  return ((p.2, k), (1 + 1) * last - v)

/-- `ext.rs:95-222`, `odd_ext_dyn`, in the build `c`. -/
def oddExtDynIn (c : Cfg) (x : DMat T) (n axis : Nat) : Res (DMat T) := do
  check (axis < 2)
  if n < 1 then return x.copy
  match axis with
  | 0 => do
    check (n < x.nrows)
    let n2 ← c.usizeMul 2 n
    let newRows ← c.usizeAdd x.nrows n2
    let m := DMat.zeros newRows x.ncols
    let m ← fillLoop (leftRowIn c x n) (loopPairs x.ncols n) m
    let m ← fillLoop (midRowIn c x n) (loopPairs x.ncols x.nrows) m
    fillLoop (rightRowIn c x n) (loopPairs x.ncols n) m
  | 1 => do
    check (n < x.ncols)
    let n2 ← c.usizeMul 2 n
    let newColumns ← c.usizeAdd x.ncols n2
    let m := DMat.zeros x.nrows newColumns
    let m ← fillLoop (leftColIn c x n) (loopPairs n x.nrows) m
    let m ← fillLoop (midColIn c x n) (loopPairs x.ncols x.nrows) m
    fillLoop (rightColIn c x n) (loopPairs n x.nrows) m
  | _ => .error Err.panic

/-- `ext.rs:39-46`: the edge length, in the build `c`. -/
def edgeLenIn (c : Cfg) (padtype : Pad) (padlen : Option Nat) (ntaps : Nat) : Res Nat :=
  let padlen := if padtype = Pad.none then some 0 else padlen
  match padlen with
  | some p => .ok p
  | none => c.usizeMul ntaps 3

/-- `ext.rs:26-90`, `pad`, in the build `c`. -/
def padIn (c : Cfg) (padtype : Pad) (padlen : Option Nat) (x : DMat T) (axis ntaps : Nat) :
    Res (Nat × DMat T) := do
  let edge ← edgeLenIn c padtype padlen ntaps                       -- lines 39-46
  check (axis < 2)                                                  -- line 48
  checkShape x axis edge                                            -- lines 49-54
  if padtype = Pad.none then return (edge, x.copy)                  -- lines 56-69
  if edge = 0 then return (edge, x.copy)                            -- lines 71-84
  match padtype with                                                -- lines 86-89
  | Pad.odd => do
    let m ← oddExtDynIn c x edge axis
    return (edge, m)
  | _ => .error Err.unreachable

end

variable {F : Type} [Zero F] [One F] [Add F] [Sub F] [Neg F] [Mul F] [Div F] [DecidableEq F]

/-- `sosfiltfilt.rs:23-27`, in the build `c`. -/
def sosNtapsIn (c : Cfg) (sos : List (Sos F)) : Res Nat := do
  let n2 ← c.usizeMul 2 sos.length
  let ntaps ← c.usizeAdd n2 1
  let bzeros := (sos.filter fun s => s.b2 = 0).length
  let azeros := (sos.filter fun s => s.a2 = 0).length
  c.usizeSub ntaps (min bzeros azeros)

/-- `sosfiltfilt.rs:17-57`, `sosfiltfilt_dyn`, in the build `c`.  In `sosfilt_zi_dyn` nothing depends on the build:
it calls `lfilter_zi_dyn` with three coefficients (see `lfilterZiDynIn`). -/
def sosfiltfiltDynIn (c : Cfg) (y : List F) (sos : List (Sos F)) : Res (List F) := do
  let ntaps ← sosNtapsIn c sos
  let yLen := y.length
  let x := DMat.ofVec y
  let (edge, ext) ← padIn c Pad.odd none x 0 ntaps        -- line 31
  let initSos ← sosfiltZiDyn sos                          -- lines 33-34
  let x0 ← ext.index 0 0                                  -- line 36
  let sosX := mulStates x0 initSos
  let y := (sosfiltDyn ext.iter sosX).1                   -- line 42
  let y0 ← match y.getLast? with                          -- line 44
    | some v => .ok v
    | none => .error Err.unwrap
  let sosY := mulStates y0 initSos
  let z := (((sosfiltDyn y.reverse sosY).1).drop edge).take yLen   -- lines 50-56
  return z.reverse

end SciRs

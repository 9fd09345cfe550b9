import Verif.Model.Stats

/-!
# `median` and `mean` at the primitive integer types

The same functions as in `Verif/Model/Stats.lean`, at an integer type: additions may overflow, divisions
truncate, and `NumCast::from` may fail.
-/

namespace SciRs.Stats

/-- `median` (stats.rs 82-106) at the integer type `t`.  `T::from(2).unwrap()` succeeds for every type. -/
def medianInt (c : Cfg) (t : IntTy) (y : List ℤ) (fuel : Nat) : Run (ℤ × Nat) :=
  let n := y.length
  match y with
  | [] => .ret (0, 0)
  | [v] => .ret (v, 1)
  | v :: w :: vs =>
    let y := v :: w :: vs
    if n % 2 = 1 then do
      let m ← quickselect y (n / 2) fuel
      return (m, n)
    else do
      let a ← quickselect y (n / 2 - 1) fuel
      let b ← quickselect y (n / 2) fuel
      let s ← (c.add t a b : Res ℤ)
      let two ← (t.fromNat 2 : Res ℤ)
      let m ← (c.div t s two : Res ℤ)
      return (m, n)

/-- `mean` (stats.rs 128-142) at the integer type `t`.  The count is a `usize` and cannot overflow for a
sequence held in memory (it is not bounded in the model). -/
def meanInt (c : Cfg) (t : IntTy) (y : List ℤ) : Res (ℤ × Nat) := do
  let acc ← y.foldlM (fun (acc : ℤ × Nat) yi => do
    let s ← c.add t acc.1 yi
    return (s, acc.2 + 1)) (0, 0)
  if acc.2 > 0 then do
    let n ← t.fromNat acc.2
    let m ← c.div t acc.1 n
    return (m, acc.2)
  else return (0, 0)

end SciRs.Stats

import Verif.Model.PrimInt
import Mathlib.Data.Real.Sqrt

/-!
# Model of `sci-rs/src/stats.rs`

An iterator argument (`Iterator + Clone`) is the list of the values it yields.  The arithmetic is that of
an arbitrary carrier: the operations appear in the order of the Rust code, no laws are assumed.
`F::from(count).unwrap()` is the cast of the count: it always succeeds for the floating-point types
(it can fail for `i8`: `Model/IntStats.lean` models `median` and `mean` for the integer types).  `Iterator::sum` is a left fold from zero.  The borrow
and feature-gate plumbing is dropped.
-/

namespace SciRs.Stats

/-! ### Order statistics -/

section order
variable {T : Type} [LT T] [DecidableLT T]

/-- `quickselect` (stats.rs 10-44).  The last argument bounds the recursion depth.
`y.get(n / 2).unwrap()` panics on the empty slice; the `usize` subtractions are checked. -/
def quickselect (y : List T) (k : Nat) : Nat → Run T
  | 0 => .more
  | fuel + 1 =>
    match y with
    | [] => .err Err.unwrap
    | [v] => .ret v
    | v :: w :: vs =>
      let y := v :: w :: vs
      let n := y.length
      let pivot := y.getD (n / 2) v
      let lower := y.filter (fun yi => yi < pivot)
      let upper := y.filter (fun yi => pivot < yi)
      if n < lower.length + upper.length then .err Err.overflow
      else
        let pivots := n - lower.length - upper.length
        if k < lower.length then quickselect lower k fuel
        else if k < lower.length + pivots then .ret pivot
        else quickselect upper (k - lower.length - pivots) fuel

variable [Zero T] [Add T] [Div T] [OfNat T 2]

/-- `median` (stats.rs 82-106).  `Default::default()` is `(0, 0)`. -/
def median (y : List T) (fuel : Nat) : Run (T × Nat) :=
  let n := y.length
  match y with
  | [] => .ret (0, 0)
  | [v] => .ret (v, 1)
  | v :: w :: vs =>
    let y := v :: w :: vs
    if n % 2 = 1 then do
      let m ← quickselect y (n / 2) fuel
      return (m, n)
    else do
      let a ← quickselect y (n / 2 - 1) fuel
      let b ← quickselect y (n / 2) fuel
      return ((a + b) / 2, n)

end order

/-! ### Moments -/

section moments
variable {F : Type} [Zero F] [Add F] [Sub F] [Mul F] [Div F] [NatCast F]

/-- `Iterator::sum`. (Recent versions of the standard library start from `-0.0`; only the sign of a zero sum
differs.).  Used in `stats.rs:173, 228, 250, 255, 270, 277-279, 293-296`. -/
def sum (l : List F) : F := l.foldl (· + ·) 0

/-- `mean` (stats.rs 128-142). -/
def mean (y : List F) : F × Nat :=
  let acc := y.foldl (fun (acc : F × Nat) yi => (acc.1 + yi, acc.2 + 1)) (0, 0)
  if acc.2 > 0 then (acc.1 / (acc.2 : F), acc.2) else (0, 0)

/-- `variance` (stats.rs 161-179). -/
def variance (y : List F) : F × Nat :=
  let m := mean y
  let s := sum (y.map (fun f => (f - m.1) * (f - m.1)))
  if m.2 > 0 then (s / (m.2 : F), m.2) else (0, 0)

/-- `autocorr` (stats.rs 215-231). -/
def autocorr (y : List F) (k : Nat) : F :=
  let m := mean y
  let v := variance y
  let autocovariance :=
    sum ((y.zip (y.drop k)).map (fun p => (p.1 - m.1) * (p.2 - m.1))) / (m.2 : F)
  autocovariance / v.1

/-- `lag_diff` (stats.rs 317-326). -/
def lagDiff (y : List F) : List F := (y.zip (y.drop 1)).map (fun p => p.2 - p.1)

/-- `slice::chunks_exact(4)`: the full chunks.  Used in `stats.rs:263-264, 292`. -/
def chunks4 : List F → List (List F)
  | a :: b :: c :: d :: rest => [a, b, c, d] :: chunks4 rest
  | _ => []

/-- `slice::chunks_exact(4).remainder()`.  Used in `stats.rs:266-268, 293`. -/
def remainder4 : List F → List F
  | _ :: _ :: _ :: _ :: rest => remainder4 rest
  | l => l

/-- The element-wise product summed: `a.iter().zip(b).map(|(a, b)| a * b).sum()`.  `stats.rs:266-270, 274-277`. -/
def dot (a b : List F) : F := sum ((a.zip b).map (fun p => p.1 * p.2))

/-- One iteration of the lag loop of `autocorr_fast32` (stats.rs 258-280): the value left in `*xi`.
Both assignments are kept; the second overwrites the first. -/
def autocorrLag (y : List F) (h : Nat) : F :=
  let left := y.take (y.length - h)
  let right := y.drop h
  let _xi := dot (remainder4 left) (remainder4 right)
  let xi := sum (((chunks4 left).zip (chunks4 right)).map (fun p => dot p.1 p.2))
  xi

/-- `autocorr_fast32` (stats.rs 243-283).  `N` and `M` are the lengths of the two buffers, `skip` is the
const parameter `SKIP`.  Returns the variance and the two buffers after the call.  `M + SKIP` is a
`usize` addition. -/
def autocorrFast32 (c : Cfg) (skip : Nat) (y x : List F) : Res (F × List F × List F) := do
  let bound ← c.usizeAdd x.length skip
  check (bound ≤ y.length)
  let avg := sum y / (y.length : F)
  let y := y.map (fun yi => yi - avg)
  let var := sum (y.map (fun yi => yi * yi)) / (y.length : F)
  let hs := List.range' skip (y.length - skip)
  let written := (hs.zip x).map (fun p => autocorrLag y p.1)
  return (var, y, written ++ x.drop hs.length)

variable (sqrt : F → F)

/-- `stdev` (stats.rs 197-207), with the square root as a parameter. -/
def stdev (y : List F) : F × Nat :=
  let v := variance y
  if v.2 = 0 then (0, 0) else (sqrt v.1, v.2)

/-- `rms_fast32` (stats.rs 290-298). -/
def rmsFast32 (y : List F) : F :=
  let s := sum ((remainder4 y).map (fun yi => yi * yi)) +
    sum ((chunks4 y).map (fun t => sum (t.map (fun yi => yi * yi))))
  sqrt (s / (y.length : F))

/-- `Itertools::tuple_windows` for pairs.  Used in `stats.rs:350`. -/
def tupleWindows : List F → List (F × F)
  | a :: b :: rest => (a, b) :: tupleWindows (b :: rest)
  | _ => []

/-- `rmssd` (stats.rs 343-354); `powi(2)` is `x * x`. -/
def rmssd (y : List F) : F :=
  let squareDiffs := (tupleWindows y).map (fun p => (p.2 - p.1) * (p.2 - p.1))
  sqrt (mean squareDiffs).1

/-- `zscore` (stats.rs 386-395). -/
def zscore (y : List F) : List F :=
  let m := (mean y).1
  let sd := (stdev sqrt y).1
  y.map (fun yi => (yi - m) / sd)

end moments

/-! ### Robust statistics -/

section robust
variable {F : Type} [LT F] [DecidableLT F] [Zero F] [Add F] [Sub F] [Mul F] [Div F] [OfNat F 2]
variable (abs : F → F)

/-- `median_abs_deviation` (stats.rs 450-461). -/
def medianAbsDeviation (y : List F) (fuel : Nat) : Run (F × Nat) := do
  let med ← median y fuel
  median (y.map (fun yi => abs (yi - med.1))) fuel

/-- `mod_zscore` (stats.rs 419-429); `c` is the constant `F::from(0.6745).unwrap()`. -/
def modZscore (c : F) (y : List F) (fuel : Nat) : Run (List F) := do
  let med ← median y fuel
  let mad ← medianAbsDeviation abs y fuel
  return y.map (fun yi => (yi - med.1) * c / mad.1)

end robust

end SciRs.Stats

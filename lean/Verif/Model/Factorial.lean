import Verif.Model.PrimInt

/-!
# Model of `special/factorial.rs`

`Int` (the Rust type parameter) is `t : IntTy`; `c : Cfg` is the build.  Constants such as
`Int::one()` are written as numbers.
-/

namespace SciRs

/-- `factorial.rs:142-161`, `FACTORIAL_CACHE`. -/
def factorialCache : List Nat :=
  [1, 1, 2, 6, 24, 120, 720, 5040, 40320, 362880, 3628800, 39916800, 479001600, 6227020800,
    87178291200, 1307674368000, 20922789888000]

/-- `factorial.rs:199-234`, `FACTORIAL2_CACHE`. -/
def factorial2Cache : List Nat :=
  [1, 1, 2, 3, 8, 15, 48, 105, 384, 945, 3840, 10395, 46080, 135135, 645120, 2027025, 10321920,
    34459425, 185794560, 654729075, 3715891200, 13749310575, 81749606400, 316234143225,
    1961990553600, 7905853580625, 51011754393600, 213458046676875, 1428329123020800,
    6190283353629375, 42849873690624000, 191898783962510625, 1371195958099968000]

/-- Checked indexing `TABLE[i]`.  Used in `factorial.rs:171, 174, 186, 191, 194`. -/
def tableGet (table : List Nat) (i : Nat) : Res Nat :=
  match table[i]? with
  | some v => .ok v
  | none => .error Err.index

/-- `factorial.rs:276-278`: the fold over a `usize` range given as a list. -/
def foldProduct (c : Cfg) (t : IntTy) : List Nat → Int → Res Int
  | [], result => .ok result
  | v :: vs, result => do
    let v ← t.fromNat v
    let result ← c.mul t result v
    foldProduct c t vs result

/-- `factorial.rs:283-286`: the `while` loop. -/
def ppLoop (c : Cfg) (t : IntTy) (stop step : Int) : Nat → Int → Int → Run Int
  | 0, _, _ => .more
  | fuel + 1, start, result =>
    if start ≤ stop then do
      let result ← c.mul t result start
      let start ← c.add t start step
      ppLoop c t stop step fuel start result
    else .ret result

/-- `factorial.rs:265-288`, `partial_product`. -/
def partialProduct (c : Cfg) (t : IntTy) (start stop step : Int) (fuel : Nat) : Run Int := do
  check (step > 0)
  check (stop ≥ start)
  if step = 1 then do
    let s ← c.toUsize start
    let e ← c.toUsize stop
    let e1 ← c.usizeAdd e 1
    foldProduct c t (List.range' s (e1 - s)) 1
  else
    ppLoop c t stop step fuel start 1

/-- `factorial.rs:163-176`, `primint_factorial`. -/
def primintFactorial (c : Cfg) (t : IntTy) (n : Int) (fuel : Nat) : Run Int := do
  if n < 0 then return 0
  let len ← t.fromNat 17
  if n < len then do
    let i ← c.toUsize n
    let v ← tableGet factorialCache i
    t.fromNat v
  else do
    let v ← tableGet factorialCache 16
    let left ← t.fromNat v
    let start ← t.fromNat 17
    let right ← partialProduct c t start n 1 fuel
    c.mul t left right

/-- `factorial.rs:178-197`, `primint_factorial2`; `n & 1` is written `n % 2` (here `n ≥ 0`), and the
constant condition `33 & 1 != 0` is true. -/
def primintFactorial2 (c : Cfg) (t : IntTy) (n : Int) (fuel : Nat) : Run Int := do
  if n < 0 then return 0
  let len ← t.fromNat 33
  if n < len then do
    let i ← c.toUsize n
    let v ← tableGet factorial2Cache i
    t.fromNat v
  else do
    let two ← c.add t 1 1
    if n % 2 = 0 ∧ 33 % 2 ≠ 0 then do
      let v ← tableGet factorial2Cache 32
      let left ← t.fromNat v
      let start ← t.fromNat 34
      let right ← partialProduct c t start n two fuel
      c.mul t left right
    else do
      let v ← tableGet factorial2Cache 31
      let left ← t.fromNat v
      let start ← t.fromNat 33
      let right ← partialProduct c t start n two fuel
      c.mul t left right

/-- `factorial.rs:236-256`, `primint_factorialk`. -/
def primintFactorialk (c : Cfg) (t : IntTy) (n k : Int) (fuel : Nat) : Run Int := do
  check (k > 0)
  if n < 0 then return 0
  if n = 0 then return 1
  let q ← c.div t n k
  let kq ← c.mul t k q
  let start ← c.sub t n kq
  if start = 0 then partialProduct c t k n k fuel
  else partialProduct c t start n k fuel

end SciRs

import Verif.Model.PrimInt

/-!
# Model of `special/combinatorics.rs`
-/

namespace SciRs

/-- The fold of `combinatorics.rs:133-135` over a list of loop indices. -/
def combFold (c : Cfg) (t : IntTy) (m : Int) : List Nat → Int → Res Int
  | [], result => .ok result
  | i :: is, result => do
    let vi ← t.fromNat i
    let d ← c.sub t m vi
    let p ← c.mul t result d
    let vi' ← t.fromNat i
    let result ← c.div t p vi'
    combFold c t m is result

/-- `combinatorics.rs:124-136`, `primint_comb`. -/
def primintComb (c : Cfg) (t : IntTy) (n k : Int) : Res Int :=
  if k > n ∨ n < 0 ∨ k < 0 then .ok 0
  else do
    let m ← c.add t n 1
    let nk ← c.sub t n k
    let s ← c.add t (min k nk) 1
    let nTerms ← c.toUsize s
    combFold c t m (List.range' 1 (nTerms - 1)) 1

/-- `combinatorics.rs:138-146`, `primint_comb_rep`; `n + k` is computed twice as in the code. -/
def primintCombRep (c : Cfg) (t : IntTy) (n k : Int) : Res Int := do
  let s ← c.add t n k
  if s = 0 then return 0
  let s' ← c.add t n k
  let s1 ← c.sub t s' 1
  primintComb c t s1 k

/-- The fold of `combinatorics.rs:158-160` over a `usize` range given as a list. -/
def permFold (c : Cfg) (t : IntTy) : List Nat → Int → Res Int
  | [], result => .ok result
  | v :: vs, result => do
    let v ← t.fromNat v
    let result ← c.mul t result v
    permFold c t vs result

/-- `combinatorics.rs:148-161`, `primint_perm`. -/
def primintPerm (c : Cfg) (t : IntTy) (n k : Int) : Res Int :=
  if k > n ∨ n < 0 ∨ k < 0 then .ok 0
  else do
    let nk ← c.sub t n k
    let s ← c.add t nk 1
    let start ← c.toUsize s
    let n1 ← c.add t n 1
    let stop ← c.toUsize n1
    permFold c t (List.range' start (stop - start)) 1

/-- `combinatorics.rs:163-183`, `primint_stirling2`; the recursion consumes the step budget.  The
stack is taken to be large enough. -/
def primintStirling2 (c : Cfg) (t : IntTy) (n k : Int) : Nat → Run Int
  | 0 => .more
  | fuel + 1 =>
    if n < 0 ∨ k < 0 then .ret 0
    else if k > n then .ret 0
    else if n = k then .ret 1
    else if k = 0 ∨ n = 0 then .ret 0
    else do
      let n1 ← c.sub t n 1
      let a ← primintStirling2 c t n1 k fuel
      let p ← c.mul t k a
      let n2 ← c.sub t n 1
      let k1 ← c.sub t k 1
      let b ← primintStirling2 c t n2 k1 fuel
      c.add t p b

end SciRs

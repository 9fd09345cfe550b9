import Verif.Model.Companion
import Verif.Model.Iter

/-!
# Model of `signal/filter/lfilter_zi.rs`

Law-free arithmetic: the operations are done in the order of the code, so the model can be read over a
field and over rounded numbers.  `x / 0` is `0` in a Lean field and infinite or NaN in Rust: the
theorems about values exclude it.
-/

namespace SciRs

variable {F : Type} [Zero F] [One F] [Add F] [Sub F] [Neg F] [Mul F] [Div F] [DecidableEq F]

/-- `*v.get_unchecked(k)`.  Used in `lfilter_zi.rs:75, 77`. -/
def vecGetUnchecked {T : Type} (v : List T) (k : Nat) : Res T :=
  match v[k]? with
  | some x => .ok x
  | none => .error Err.ub

/-- `v[k]`, bounds-checked.  Used in `lfilter_zi.rs:44, 60, 72` and `sosfilt_zi.rs:33-34`. -/
def vecGet {T : Type} (v : List T) (k : Nat) : Res T :=
  match v[k]? with
  | some x => .ok x
  | none => .error Err.index

/-- `*v.get_unchecked_mut(k) = x`.  Used in `lfilter_zi.rs:78`. -/
def vecSetUnchecked {T : Type} (v : List T) (k : Nat) (x : T) : Res (List T) :=
  if k < v.length then .ok (v.set k x) else .error Err.ub

/-- `v[k] = x`, bounds-checked.  Used in `lfilter_zi.rs:68`. -/
def vecSet {T : Type} (v : List T) (k : Nat) (x : T) : Res (List T) :=
  if k < v.length then .ok (v.set k x) else .error Err.index

/-- One iteration of the loop `lfilter_zi.rs:73-80`; the loop state is `(asum, csum, zi)`. -/
def ziLoopBody (a b : List F) (b0 z0 : F) (st : F × F × List F) (k : Nat) :
    Res (F × F × List F) := do
  let ak ← vecGetUnchecked a k
  let asum := st.1 + ak
  let bk ← vecGetUnchecked b k
  let csum := st.2.1 + (bk - ak * b0)
  let zi ← vecSetUnchecked st.2.2 k (asum * z0 - csum)
  return (asum, csum, zi)

/-- The loop `for k in 1..m - 1`, iterating over the given indices.  `lfilter_zi.rs:73-80`. -/
def ziLoop (a b : List F) (b0 z0 : F) : List Nat → F × F × List F → Res (F × F × List F)
  | [], st => .ok st
  | k :: ks, st => do
    let st' ← ziLoopBody a b b0 z0 st k
    ziLoop a b b0 z0 ks st'

/-- `lfilter_zi.rs:27-83`, `lfilter_zi_dyn`. -/
def lfilterZiDyn (b a : List F) : Res (List F) := do
  check (b.length = a.length)                                    -- line 31
  let m := b.length
  let ai0 ← match a.findIdx? (fun ai => ai ≠ 0) with             -- lines 34-39
    | none => .error Err.unwrap
    | some i => .ok i
  let a := a.drop ai0                                            -- line 42
  let a0 ← vecGet a 0                                            -- line 44
  let a' := if a0 ≠ 1 then a.map (· / a0) else a                 -- lines 45-48
  let b' := if a0 ≠ 1 then b.map (· / a0) else b
  let a'' := a' ++ List.replicate (m - a'.length) 0              -- lines 51-53
  let compa ← companionDyn a'' m                                 -- lines 56-57
  let compaT := compa.transpose
  -- line 58: `I - compa`; line 67 only uses the sum of its column 0
  let iMinusA : Nat → Nat → F := fun i j => (if i = j then 1 else 0) - compaT.entry i j
  let zi := List.replicate (m - 1) (0 : F)                       -- line 59
  let b0 ← vecGet b' 0                                           -- line 60
  let bsum := sumIter (List.zipWith (fun bi ai => bi - ai * b0) (b'.drop 1) (a''.drop 1))
  let z0 := bsum / sumIter ((List.range (m - 1)).map fun i => iMinusA i 0)   -- line 67
  let zi ← vecSet zi 0 z0                                        -- line 68
  let st ← ziLoop a'' b' b0 z0 (List.range' 1 (m - 1 - 1)) (1, 0, zi)    -- lines 70-80
  return st.2.2

end SciRs

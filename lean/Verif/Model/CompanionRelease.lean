import Verif.Model.LfilterZi
import Verif.Model.PrimInt

/-!
# `companion_dyn` and `lfilter_zi_dyn` in a build without overflow checks

`companionDyn` and `lfilterZiDyn` describe a build with overflow checks.  Without them `m - 2` and
`m - 1` wrap for `m < 2`, and the unchecked writes go on.
-/

namespace SciRs

/-- `a - b` on `usize`.  Used in `companion.rs:24, 30`. -/
def Cfg.usizeSub (c : Cfg) (a b : Nat) : Res Nat :=
  if b ≤ a then .ok (a - b)
  else if c.checked then .error Err.overflow else .ok (2 ^ c.ptrBits + a - b)

/-- The writes `*m.get_unchecked_mut((i, j)) = t` (`companion.rs:31-35`) into the buffer of a matrix with
`n` rows, at the offset `i + j * n` computed in `usize`. -/
def writeFlat {T : Type} (c : Cfg) (n : Nat) : List T → List ((Nat × Nat) × T) → Res (List T)
  | buf, [] => .ok buf
  | buf, w :: ws =>
    let off := (w.1.1 + w.1.2 * n) % 2 ^ c.ptrBits
    if off < buf.length then writeFlat c n (buf.set off w.2) ws else .error Err.ub

/-- `companion.rs:12-37`, `companion_dyn`, in the build `c`.  For `m ≥ 2` nothing wraps and this is
`companionDyn`.  For `m < 2` the subtractions (lines 24 and 30) are those of the build; nalgebra
allocates `(m - 1) * (m - 1)` elements, computed in `usize`. -/
def companionDynIn {T : Type} [Zero T] [One T] [Neg T] [Div T] (c : Cfg) (itr : List T) (m : Nat) :
    Res (DMat T) :=
  if 2 ≤ m then companionDyn itr m
  else match itr with
    | [] => .error Err.unwrap
    | a0 :: rest => do
      let k ← c.usizeSub m 2
      let n ← c.usizeSub m 1
      let row := rest.zipIdx.map fun p => ((0, p.2), -p.1 / a0)
      let sub := (List.range k).map fun i => ((i + 1, i), (1 : T))
      let buf ← writeFlat c n (List.replicate (n * n % 2 ^ c.ptrBits) 0) (row ++ sub)
      return ⟨n, n, fun i j => buf.getD ((i + j * n) % 2 ^ c.ptrBits) 0⟩

/-- `lfilter_zi.rs:27-83`, `lfilter_zi_dyn`, in the build `c`.  Up to the call of `companion_dyn` (line
56) this is `lfilterZiDyn`; with two or more coefficients no later subtraction wraps either, and with a
single one the call does not come back. -/
def lfilterZiDynIn {F : Type} [Zero F] [One F] [Add F] [Sub F] [Neg F] [Mul F] [Div F] [DecidableEq F]
    (c : Cfg) (b a : List F) : Res (List F) := do
  check (b.length = a.length)                                    -- line 31
  let m := b.length
  let ai0 ← match a.findIdx? (fun ai => ai ≠ 0) with             -- lines 34-39
    | none => .error Err.unwrap
    | some i => .ok i
  let a' := a.drop ai0                                           -- line 42
  let a0 ← vecGet a' 0                                           -- line 44
  let a' := if a0 ≠ 1 then a'.map (· / a0) else a'               -- lines 45-48
  let a'' := a' ++ List.replicate (m - a'.length) 0              -- lines 51-53
  let _ ← companionDynIn c a'' m                                 -- lines 56-57
  lfilterZiDyn b a                                               -- the remaining lines

end SciRs

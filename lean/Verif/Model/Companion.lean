import Verif.Model.DMat

/-!
# Model of `linalg/companion.rs`
-/

namespace SciRs

variable {T : Type}

/-- The writes of the loop `for (i, t) in itr` (`companion.rs:31-35`), in order. -/
def writeAll (m : DMat T) : List ((Nat × Nat) × T) → Res (DMat T)
  | [] => .ok m
  | w :: ws => do
    let m' ← m.setUnchecked w.1.1 w.1.2 w.2
    writeAll m' ws

/-- `companion.rs:12-37`, `companion_dyn`.  `itr` is the sequence the iterator yields, `m` the
declared length.  Lines 21-24: the first item (or the `expect` panic), then the remaining items are
written to row 0 as `-ai / a0`; line 24 chains the ones of the subdiagonal.  For `m < 2` the
subtractions `m - 2` / `m - 1` overflow: this is the behaviour of a build with overflow checks; the
wrapped behaviour without checks is `companionDynIn` in `CompanionRelease.lean`. -/
def companionDyn [Zero T] [One T] [Neg T] [Div T] (itr : List T) (m : Nat) : Res (DMat T) :=
  match itr with
  | [] => .error Err.unwrap
  | a0 :: rest =>
    if m < 2 then .error Err.overflow
    else
      let row := rest.zipIdx.map fun p => ((0, p.2), -p.1 / a0)
      let sub := (List.range (m - 2)).map fun i => ((i + 1, i), (1 : T))
      writeAll (DMat.zeros (m - 1) (m - 1)) (row ++ sub)

end SciRs

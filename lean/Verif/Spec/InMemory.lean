import Verif.Model.PrimInt

/-!
# Specification vocabulary: what fits in memory
-/

namespace SciRs.Spec

/-- `k` values of `size` bytes each can be held in one allocation: Rust limits allocations to `isize::MAX` bytes. -/
def Allocatable (c : Cfg) (size k : ℕ) : Prop := size * k < 2 ^ (c.ptrBits - 1)

/-- A matrix of this shape, with entries of `size` bytes, can exist: its dimensions are `usize` values and its entries
are in one allocation. -/
def InMemory (c : Cfg) (size rows cols : ℕ) : Prop :=
  rows < 2 ^ c.ptrBits ∧ cols < 2 ^ c.ptrBits ∧ Allocatable c size (rows * cols)

end SciRs.Spec

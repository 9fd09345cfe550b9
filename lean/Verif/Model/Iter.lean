import Mathlib.Algebra.Group.Defs

/-! # Iterator adaptors of the standard library -/

namespace SciRs

/-- `iter.sum::<F>()`, and nalgebra's `column(0).sum()`: from zero, from left to right.  Used in `lfilter_zi.rs:66,
67` and `sosfilt_zi.rs:35`. -/
def sumIter {F : Type} [Zero F] [Add F] (l : List F) : F := l.foldl (· + ·) 0

end SciRs

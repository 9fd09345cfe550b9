import Mathlib.Algebra.Field.Basic
import Mathlib.Order.Defs.LinearOrder

/-! # Specification of the median -/

namespace SciRs.Spec

/-- `s` lists the samples `y` in ascending order. -/
def Sorts {T : Type} [LE T] (s y : List T) : Prop := s.Perm y ∧ s.Pairwise (· ≤ ·)

/-- The middle value of an ascending list: the middle element of an odd number of samples, the average of
the two middle elements of an even number. -/
def middle {T : Type} [Field T] (s : List T) : T :=
  if s.length % 2 = 1 then s.getD (s.length / 2) 0
  else (s.getD (s.length / 2 - 1) 0 + s.getD (s.length / 2) 0) / 2

end SciRs.Spec

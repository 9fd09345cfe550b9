import Verif.Model.Iter
import Mathlib.Algebra.BigOperators.Group.List.Basic

/-! Helper lemmas about iterator sums. -/

namespace SciRs

theorem sumIter_eq_sum {F : Type} [AddMonoid F] (l : List F) : sumIter l = l.sum := by
  unfold sumIter
  rw [List.sum_eq_foldl]

end SciRs

import Verif.Model.Sos
import Mathlib.Data.Real.Basic

/-!
# Specification vocabulary: the size of a section's numerator
-/

namespace SciRs.Spec

/-- The sum of the numerator coefficients of a section, without their signs. -/
def numSize (s : Sos ℝ) : ℝ := |s.b0| + |s.b1| + |s.b2|

end SciRs.Spec

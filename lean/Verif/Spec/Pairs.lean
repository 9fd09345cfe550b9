import Verif.Spec.Transfer

/-! # Specification of lists of roots that a real filter can have -/

namespace SciRs.Spec

/-- Every entry is exactly real, or further from the real axis than `tol` times its real part. -/
def Separated (tol : ℝ) (z : List ℂ) : Prop := ∀ x ∈ z, x.im = 0 ∨ tol * |x.re| < |x.im|

end SciRs.Spec

import Verif.Model.Bessel
import Verif.Spec.Rounding

/-!
# The Bessel functions with rounded arithmetic
-/

namespace SciRs.Bessel

open SciRs SciRs.Spec

/-- The instance of `i0`, `i0e` (special/xsf/i0.rs 77-93, 168-184) with rounded arithmetic.  The tables hold the rounded literals; the square root is rounded
correctly; the exponential of the platform is a parameter.
Simplification: no overflow, infinities or NaN. -/
noncomputable def flEnv (r : Rounding) (fexp : ℝ → ℝ) : Env (Fl r) where
  abs := fun x => ⟨|x.val|⟩
  exp := fun x => ⟨fexp x.val⟩
  sqrt := Fl.sqrt
  tableA := tableA.map fun c => ⟨r.rnd c⟩
  tableB := tableB.map fun c => ⟨r.rnd c⟩

end SciRs.Bessel

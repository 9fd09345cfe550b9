import Verif.Model.Bessel
import Verif.Spec.Ieee

/-!
# The Bessel functions on IEEE 754 numbers
-/

namespace SciRs.Bessel

open SciRs SciRs.Spec

/-- The instance of `i0`, `i0e` (special/xsf/i0.rs 77-93, 168-184) with IEEE 754 arithmetic, overflow, infinities and
NaN.  The tables hold the rounded literals; the exponential of the platform is a parameter. -/
noncomputable def ieeeEnv (f : Format) (fexp : Ieee f → Ieee f) : Env (Ieee f) where
  abs := Ieee.abs
  exp := fexp
  sqrt := Ieee.sqrt
  tableA := tableA.map fun c => Ieee.ofReal f (f.r.rnd c)
  tableB := tableB.map fun c => Ieee.ofReal f (f.r.rnd c)

end SciRs.Bessel

import Verif.Model.IeeeDesign
import Verif.Spec.NumComplex

/-!
# When the answer with infinities and NaN is the answer without overflow

The vocabulary for comparing the two floating-point models of filter design: the one on IEEE 754 numbers, and the
one on real numbers with unbounded exponents.
-/

namespace SciRs.Spec

open SciRs.Spec.Ieee SciRs.IeeeDesign SciRs.Rounded

variable {f : Format}

/-- `a` is the finite number `v`. -/
def Is (a : Ieee f) (v : ℝ) : Prop := ∃ s, a = fin v s

/-- Both parts of `a` are finite, and it is the complex number `z`. -/
def CIs (a : Cx f) (z : ℂ) : Prop := Is a.re z.re ∧ Is a.im z.im

/-- A filter whose zeros, poles and gain are finite, and are those of `g`. -/
def ZpkIs (q : ZpkI f) (g : Design.Zpk) : Prop :=
  List.Forall₂ CIs q.z g.z ∧ List.Forall₂ CIs q.p g.p ∧ Is q.k g.k

/-- The IEEE library returns the values of the library without overflow as long as they are not too large.  The
signs of zeros are left open. -/
structure Lib.Agrees (L : Lib f) (m : Libm) : Prop where
  pi : Is L.pi m.pi
  ofInt : ∀ z : ℤ, |f.r.rnd z| ≤ f.top → Is (L.ofInt z) (f.r.rnd z)
  tan : ∀ x s, |m.tan x| ≤ f.top → Is (L.tan (fin x s)) (m.tan x)
  powi : ∀ x s n, |m.powi x n| ≤ f.top → Is (L.powi (fin x s) n) (m.powi x n)
  cexp : ∀ (a : Cx f) (z : ℂ), CIs a z → |f.r.rnd (m.exp z.re * m.cos z.im)| ≤ f.top →
    |f.r.rnd (m.exp z.re * m.sin z.im)| ≤ f.top →
    CIs (L.cexp a) ⟨f.r.rnd (m.exp z.re * m.cos z.im), f.r.rnd (m.exp z.re * m.sin z.im)⟩

end SciRs.Spec

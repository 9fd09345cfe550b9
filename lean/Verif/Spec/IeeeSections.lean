import Verif.Spec.IeeeLib
import Verif.Model.IeeeSections

/-!
# When sections and coefficients with infinities and NaN are those without overflow

Continues `Verif/Spec/IeeeLib.lean`.
-/

namespace SciRs.Spec

open SciRs.Spec.Ieee SciRs.IeeeDesign SciRs.Rounded

variable {f : Format}

/-- A section of finite numbers, namely those of `y`. -/
structure SosIs (x : Sos (Ieee f)) (y : Sos ℝ) : Prop where
  b0 : Is x.b0 y.b0
  b1 : Is x.b1 y.b1
  b2 : Is x.b2 y.b2
  a0 : Is x.a0 y.a0
  a1 : Is x.a1 y.a1
  a2 : Is x.a2 y.a2
  zi0 : Is x.zi0 y.zi0
  zi1 : Is x.zi1 y.zi1

/-- Coefficients that are finite numbers, namely those of `y`. -/
def BaIs (x : BaI f) (y : Design.Ba) : Prop := List.Forall₂ Is x.b y.b ∧ List.Forall₂ Is x.a y.a

/-- The same filter in the same format, all its numbers finite. -/
def FilterIs : FilterI f → Design.Filter → Prop
  | .zpk q, .zpk g => ZpkIs q g
  | .ba t, .ba t' => BaIs t t'
  | .sos l, .sos l' => List.Forall₂ SosIs l l'
  | _, _ => False

/-- What the conversions use of the library besides `Lib.Agrees`: the absolute value and the real part of the square
root of a complex number. -/
structure Lib.AgreesSos (L : Lib f) (m : Libm) : Prop where
  eps : Is L.eps m.eps
  cabs : ∀ (a : Cx f) (z : ℂ), CIs a z → m.hypot z.re z.im ≤ f.top → Is (L.cabs a) (m.hypot z.re z.im)
  csqrt : ∀ (a : Cx f) (z : ℂ), CIs a z → m.hypot z.re z.im ≤ f.top → |(flSqrt f.r m z).re| ≤ f.top →
    Is (L.csqrt a).re (flSqrt f.r m z).re

end SciRs.Spec

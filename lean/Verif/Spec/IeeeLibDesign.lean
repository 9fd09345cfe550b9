import Verif.Spec.IeeeLib

/-!
# What all filter families use of the library

Continues `Verif/Spec/IeeeLib.lean` with the functions that Chebyshev prototypes and band transformations need.
-/

namespace SciRs.Spec

open SciRs.Spec.Ieee SciRs.IeeeDesign SciRs.Rounded

variable {f : Format}

/-- The IEEE library returns the values of the library without overflow as long as they are not too large.  The
signs of zeros are left open.  In particular the square root of a negative real number may be on either half of the
imaginary axis: `Complex::sqrt` looks at the sign of the zero imaginary part. -/
structure Lib.AgreesDesign (L : Lib f) (m : Libm) : Prop extends Lib.Agrees L m where
  powf : ∀ y s, |m.powf 10 y| ≤ f.top → Is (L.powf (lit f 10) (fin y s)) (m.powf 10 y)
  sin : ∀ x s, |m.sin x| ≤ f.top → Is (L.sin (fin x s)) (m.sin x)
  cos : ∀ x s, |m.cos x| ≤ f.top → Is (L.cos (fin x s)) (m.cos x)
  sinh : ∀ x s, |m.sinh x| ≤ f.top → Is (L.sinh (fin x s)) (m.sinh x)
  cosh : ∀ x s, |m.cosh x| ≤ f.top → Is (L.cosh (fin x s)) (m.cosh x)
  asinh : ∀ x s, |m.asinh x| ≤ f.top → Is (L.asinh (fin x s)) (m.asinh x)
  csqrt : ∀ (a : Cx f) (z : ℂ), CIs a z → m.hypot z.re z.im ≤ f.top → |(flSqrt f.r m z).re| ≤ f.top →
    |(flSqrt f.r m z).im| ≤ f.top → CIs (L.csqrt a) (flSqrt f.r m z) ∨
      z.im = 0 ∧ z.re < 0 ∧ CIs (L.csqrt a) ((starRingEnd ℂ) (flSqrt f.r m z))

end SciRs.Spec

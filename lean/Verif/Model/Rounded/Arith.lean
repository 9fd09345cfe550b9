import Verif.Basic
import Mathlib.Analysis.SpecialFunctions.Pow.Complex
import Mathlib.Analysis.SpecialFunctions.Pow.Real
import Mathlib.Analysis.SpecialFunctions.Arsinh
import Mathlib.Analysis.SpecialFunctions.Trigonometric.Basic

/-!
# The arithmetic the filter design code runs on

The design functions are generic in the element type `F : RealField + Float` and use `Complex<F>`.  Here every
operation they use is a field of a structure, so that the same model can be run in exact arithmetic
(`Arith.exact`) and in rounded arithmetic (`Verif/Spec/NumComplex.lean`).  Values are finite: overflow, infinities
and NaN are not part of this model, and zeros have no sign.  Negation, conjugation, absolute value of a real
number, comparisons and the literals `0, 1, -1, 2, -2, 10, 20` are exact in every binary floating-point type.
-/

namespace SciRs.Rounded

/-- The operations of `F` and `Complex<F>`.  Used in `iirfilter.rs:60-441`, `lp2lp_zpk.rs:51-77`,
`lp2hp_zpk.rs:71-119`, `lp2bp_zpk.rs:63-116`, `lp2bs_zpk.rs:57-135`, `bilinear_zpk.rs:74-110`, `zpk2tf.rs:44-143`,
`cplx.rs:54-168` and `zpk2sos.rs:49-299`. -/
structure Arith where
  /-- the finite numbers of the type -/
  rep : ℝ → Prop
  /-- `F::from`, for the integers -/
  ofInt : ℤ → ℝ
  /-- `F::epsilon()` -/
  eps : ℝ
  /-- `F::pi()` and `F::from(PI)` -/
  pi : ℝ
  add : ℝ → ℝ → ℝ
  sub : ℝ → ℝ → ℝ
  mul : ℝ → ℝ → ℝ
  div : ℝ → ℝ → ℝ
  powi : ℝ → ℕ → ℝ
  powf : ℝ → ℝ → ℝ
  sqrt : ℝ → ℝ
  sin : ℝ → ℝ
  tan : ℝ → ℝ
  sinh : ℝ → ℝ
  cosh : ℝ → ℝ
  asinh : ℝ → ℝ
  cadd : ℂ → ℂ → ℂ
  csub : ℂ → ℂ → ℂ
  cmul : ℂ → ℂ → ℂ
  cdiv : ℂ → ℂ → ℂ
  /-- a complex number divided by a real one -/
  cdivReal : ℂ → ℝ → ℂ
  /-- `Complex::powi(_, 2)` -/
  csq : ℂ → ℂ
  csqrt : ℂ → ℂ
  cexp : ℂ → ℂ
  csinh : ℂ → ℂ
  /-- `Complex::abs` -/
  cabs : ℂ → ℝ

/-- Exact arithmetic.  The operations of `iirfilter.rs:60-441`, `lp2lp_zpk.rs:51-77`, `lp2hp_zpk.rs:71-119`,
`lp2bp_zpk.rs:63-116`, `lp2bs_zpk.rs:57-135`, `bilinear_zpk.rs:74-110` without rounding. -/
noncomputable def Arith.exact (eps : ℝ) : Arith where
  rep := fun _ => True
  ofInt := fun n => n
  eps := eps
  pi := Real.pi
  add := fun x y => x + y
  sub := fun x y => x - y
  mul := fun x y => x * y
  div := fun x y => x / y
  powi := fun x n => x ^ n
  powf := fun x y => x ^ y
  sqrt := Real.sqrt
  sin := Real.sin
  tan := Real.tan
  sinh := Real.sinh
  cosh := Real.cosh
  asinh := Real.arsinh
  cadd := fun x y => x + y
  csub := fun x y => x - y
  cmul := fun x y => x * y
  cdiv := fun x y => x / y
  cdivReal := fun x y => x / (y : ℂ)
  csq := fun x => x ^ 2
  csqrt := fun x => x ^ (1 / 2 : ℂ)
  cexp := Complex.exp
  csinh := Complex.sinh
  cabs := fun x => ‖x‖

end SciRs.Rounded

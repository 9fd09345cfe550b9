import Verif.Model.Rounded.Arith

/-!
# What the design code may expect of its arithmetic

Floating-point arithmetic is neither associative nor distributive, but rounding to nearest does not care about
signs.  The laws below say so: operations commute with negation and with conjugation.  They hold in exact
arithmetic, and in `f32` and `f64` for the formulas of `num_complex` (`C86_lawful`).
-/

namespace SciRs.Rounded

open Complex

/-- The symmetries of an arithmetic, and its few exact results. -/
structure Arith.Lawful (A : Arith) : Prop where
  ofInt_neg : ∀ n, A.ofInt (-n) = -A.ofInt n
  mul_neg : ∀ x y, A.mul x (-y) = -A.mul x y
  neg_mul : ∀ x y, A.mul (-x) y = -A.mul x y
  neg_div : ∀ x y, A.div (-x) y = -A.div x y
  sin_neg : ∀ x, A.sin (-x) = -A.sin x
  conj_cadd : ∀ x y, (starRingEnd ℂ) (A.cadd x y) = A.cadd ((starRingEnd ℂ) x) ((starRingEnd ℂ) y)
  conj_csub : ∀ x y, (starRingEnd ℂ) (A.csub x y) = A.csub ((starRingEnd ℂ) x) ((starRingEnd ℂ) y)
  conj_cmul : ∀ x y, (starRingEnd ℂ) (A.cmul x y) = A.cmul ((starRingEnd ℂ) x) ((starRingEnd ℂ) y)
  conj_cdiv : ∀ x y, (starRingEnd ℂ) (A.cdiv x y) = A.cdiv ((starRingEnd ℂ) x) ((starRingEnd ℂ) y)
  conj_csq : ∀ x, (starRingEnd ℂ) (A.csq x) = A.csq ((starRingEnd ℂ) x)
  conj_cexp : ∀ x, (starRingEnd ℂ) (A.cexp x) = A.cexp ((starRingEnd ℂ) x)
  conj_csinh : ∀ x, (starRingEnd ℂ) (A.csinh x) = A.csinh ((starRingEnd ℂ) x)
  /-- the square root of a negative number has two conjugates to choose from -/
  conj_csqrt : ∀ x, A.csqrt ((starRingEnd ℂ) x) = (starRingEnd ℂ) (A.csqrt x) ∨
    (A.csqrt ((starRingEnd ℂ) x) = -(starRingEnd ℂ) (A.csqrt x) ∧ (A.csqrt x).re = 0)
  cadd_neg : ∀ x y, A.cadd x (-y) = A.csub x y
  csub_neg : ∀ x y, A.csub x (-y) = A.cadd x y
  cmul_neg : ∀ x y, A.cmul x (-y) = -A.cmul x y
  neg_cmul : ∀ x y, A.cmul (-x) y = -A.cmul x y
  neg_cdiv : ∀ x y, A.cdiv (-x) y = -A.cdiv x y
  cdiv_neg : ∀ x y, A.cdiv x (-y) = -A.cdiv x y
  /-- the square root of the square of a real number is not negative -/
  csqrt_sq_re : ∀ x : ℂ, x.im = 0 → 0 ≤ (A.csqrt (A.cmul x x)).re
  mul_nonneg : ∀ x y, 0 ≤ x → 0 ≤ y → 0 ≤ A.mul x y
  eps_nonneg : 0 ≤ A.eps
  cabs_nonneg : ∀ x, 0 ≤ A.cabs x
  cabs_zero : A.cabs 0 = 0
  csub_self : ∀ x, A.csub x x = 0
  cmul_one_one : A.cmul 1 1 = 1
  cadd_zero_one : A.cadd 0 1 = 1
  rep_zero : A.rep 0
  rep_neg_one : A.rep (-1)
  rep_cdiv : ∀ x y, A.rep (A.cdiv x y).re ∧ A.rep (A.cdiv x y).im
  /-- doubling and halving a number of the type loses nothing -/
  halve_double : ∀ x : ℂ, A.rep x.re → A.rep x.im → A.cdivReal (A.cadd x x) 2 = x

/-- Both parts are numbers of the type. -/
def Arith.Rep (A : Arith) (x : ℂ) : Prop := A.rep x.re ∧ A.rep x.im

end SciRs.Rounded

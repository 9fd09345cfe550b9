import Verif.Model.Rounded.Arith
import Verif.Spec.BinaryRounding
import Mathlib.Analysis.SpecialFunctions.Complex.Arg

/-!
# Floating-point arithmetic for the design code

The real operations round, and the complex ones are computed from them by the formulas of `num_complex` (which
`nalgebra` re-exports): products and quotients by the schoolbook formulas, `exp`, `sinh` and `sqrt` through the
real functions of the mathematical library.
-/

namespace SciRs.Spec

/-- A rounding to nearest, as the floating-point types have it: it does not look at the sign, and keeps the
numbers it returns, their doubles, and one. -/
structure Rounding.Nearest (r : Rounding) : Prop where
  odd : ∀ x, r.rnd (-x) = -r.rnd x
  idem : ∀ x, r.rnd (r.rnd x) = r.rnd x
  double : ∀ x, r.rnd x = x → r.rnd (x + x) = x + x
  one : r.rnd 1 = 1

end SciRs.Spec

namespace SciRs.Rounded

open SciRs.Spec

/-- The functions of the mathematical library, and the constants of the type.  Nothing is assumed of their
accuracy; the assumptions are the symmetries. -/
structure Libm where
  eps : ℝ
  pi : ℝ
  powi : ℝ → ℕ → ℝ
  powf : ℝ → ℝ → ℝ
  exp : ℝ → ℝ
  sin : ℝ → ℝ
  cos : ℝ → ℝ
  tan : ℝ → ℝ
  sinh : ℝ → ℝ
  cosh : ℝ → ℝ
  asinh : ℝ → ℝ
  hypot : ℝ → ℝ → ℝ
  atan2 : ℝ → ℝ → ℝ
  eps_nonneg : 0 ≤ eps
  sin_neg : ∀ x, sin (-x) = -sin x
  cos_neg : ∀ x, cos (-x) = cos x
  hypot_neg : ∀ x y, hypot x (-y) = hypot x y
  hypot_nonneg : ∀ x y, 0 ≤ hypot x y
  hypot_zero : hypot 0 0 = 0
  atan2_neg : ∀ x y, y ≠ 0 → atan2 (-y) x = -atan2 y x

open Classical in
/-- `Complex::sqrt`: both axes are treated apart, everything else goes through polar coordinates. -/
noncomputable def flSqrt (r : Rounding) (m : Libm) (z : ℂ) : ℂ :=
  if z.im = 0 then
    if 0 ≤ z.re then ⟨r.rnd (Real.sqrt z.re), z.im⟩ else ⟨0, r.rnd (Real.sqrt (-z.re))⟩
  else if z.re = 0 then
    let x := r.rnd (Real.sqrt (r.rnd (|z.im| / 2)))
    if 0 ≤ z.im then ⟨x, x⟩ else ⟨x, -x⟩
  else
    let q := r.rnd (Real.sqrt (m.hypot z.re z.im))
    let t := r.rnd (m.atan2 z.im z.re / 2)
    ⟨r.rnd (q * m.cos t), r.rnd (q * m.sin t)⟩

/-- `Complex * Complex`. -/
noncomputable def flMul (r : Rounding) (a b : ℂ) : ℂ :=
  ⟨r.rnd (r.rnd (a.re * b.re) - r.rnd (a.im * b.im)), r.rnd (r.rnd (a.re * b.im) + r.rnd (a.im * b.re))⟩

/-- `Complex / Complex`. -/
noncomputable def flDiv (r : Rounding) (a b : ℂ) : ℂ :=
  let n := r.rnd (r.rnd (b.re * b.re) + r.rnd (b.im * b.im))
  ⟨r.rnd (r.rnd (r.rnd (a.re * b.re) + r.rnd (a.im * b.im)) / n),
    r.rnd (r.rnd (r.rnd (a.im * b.re) - r.rnd (a.re * b.im)) / n)⟩

/-- The arithmetic of a floating-point type. -/
noncomputable def Arith.ofRounding (r : Rounding) (m : Libm) : Arith where
  rep := fun x => r.rnd x = x
  ofInt := fun n => r.rnd n
  eps := m.eps
  pi := m.pi
  add := fun x y => r.rnd (x + y)
  sub := fun x y => r.rnd (x - y)
  mul := fun x y => r.rnd (x * y)
  div := fun x y => r.rnd (x / y)
  powi := m.powi
  powf := m.powf
  sqrt := fun x => r.rnd (Real.sqrt x)
  sin := m.sin
  tan := m.tan
  sinh := m.sinh
  cosh := m.cosh
  asinh := m.asinh
  cadd := fun a b => ⟨r.rnd (a.re + b.re), r.rnd (a.im + b.im)⟩
  csub := fun a b => ⟨r.rnd (a.re - b.re), r.rnd (a.im - b.im)⟩
  cmul := flMul r
  cdiv := flDiv r
  cdivReal := fun a y => ⟨r.rnd (a.re / y), r.rnd (a.im / y)⟩
  csq := fun a => flMul r a a
  csqrt := flSqrt r m
  cexp := fun a => ⟨r.rnd (m.exp a.re * m.cos a.im), r.rnd (m.exp a.re * m.sin a.im)⟩
  csinh := fun a => ⟨r.rnd (m.sinh a.re * m.cos a.im), r.rnd (m.cosh a.re * m.sin a.im)⟩
  cabs := fun a => m.hypot a.re a.im

/-- A library that rounds the exact values: one that meets the assumptions. -/
noncomputable def Libm.rounded (r : Rounding) (h : r.Nearest) (eps : ℝ) (he : 0 ≤ eps) : Libm where
  eps := eps
  pi := r.rnd Real.pi
  powi := fun x n => r.rnd (x ^ n)
  powf := fun x y => r.rnd (x ^ y)
  exp := fun x => r.rnd (Real.exp x)
  sin := fun x => r.rnd (Real.sin x)
  cos := fun x => r.rnd (Real.cos x)
  tan := fun x => r.rnd (Real.tan x)
  sinh := fun x => r.rnd (Real.sinh x)
  cosh := fun x => r.rnd (Real.cosh x)
  asinh := fun x => r.rnd (Real.arsinh x)
  hypot := fun x y => r.rnd (Real.sqrt (x ^ 2 + y ^ 2))
  atan2 := fun y x => r.rnd (Complex.arg ⟨x, y⟩)
  eps_nonneg := he
  sin_neg := fun x => by rw [Real.sin_neg, h.odd]
  cos_neg := fun x => by rw [Real.cos_neg]
  hypot_neg := fun x y => by rw [neg_sq]
  hypot_nonneg := fun x y => by rw [← r.zero]; exact r.mono _ _ (Real.sqrt_nonneg _)
  hypot_zero := by simp [r.zero]
  atan2_neg := fun x y hy => by
    have h1 : (⟨x, -y⟩ : ℂ) = (starRingEnd ℂ) ⟨x, y⟩ := rfl
    have h2 : Complex.arg ⟨x, y⟩ ≠ Real.pi := by
      intro h3
      have := (Complex.arg_eq_pi_iff.mp h3).2
      exact hy this
    rw [h1, Complex.arg_conj, if_neg h2, h.odd]

end SciRs.Rounded

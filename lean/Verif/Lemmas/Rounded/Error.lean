import Verif.Spec.LibmAccuracy
import Mathlib.Analysis.Complex.Norm
import Mathlib.Tactic.LinearCombination

/-! # Rounding errors of the complex operations -/

namespace SciRs.Rounded

open SciRs.Spec

variable {r : Rounding} {h σ : ℝ}

theorem Small.h_nonneg (S : Small r h σ) : 0 ≤ h := r.u_nonneg.trans S.u_le

/-- The error of one rounding. -/
theorem Small.fl (S : Small r h σ) {x B : ℝ} (hx : |x| ≤ B) (hB : σ ≤ B) : |r.rnd x - x| ≤ h * B := by
  have h1 := r.err x
  have h2 := S.t_le
  have h3 := mul_le_mul_of_nonneg_left hx r.u_nonneg
  have h4 := mul_le_mul_of_nonneg_left hB (sub_nonneg.mpr S.u_le)
  linarith

/-- The error of a sum of two rounded numbers. -/
theorem Small.sum (S : Small r h σ) (hh : h ≤ 1 / 64) {x y B : ℝ} (hx : |x| + |y| ≤ B) (hB : σ ≤ B) :
    |r.rnd (r.rnd x + r.rnd y) - (x + y)| ≤ 3.04 * h * B := by
  have h0 := S.h_nonneg
  have hBp : 0 < B := lt_of_lt_of_le S.pos hB
  have h1 := r.err x
  have h2 := r.err y
  have h3 := S.t_le
  have h4 := mul_le_mul_of_nonneg_left hx r.u_nonneg
  have h5 := mul_le_mul_of_nonneg_left hB (sub_nonneg.mpr S.u_le)
  have h6 : 0 ≤ r.u * B := mul_nonneg r.u_nonneg hBp.le
  have e1 : |(r.rnd x + r.rnd y) - (x + y)| ≤ 2 * h * B := by
    have : (r.rnd x + r.rnd y) - (x + y) = (r.rnd x - x) + (r.rnd y - y) := by ring
    rw [this]
    have := abs_add_le (r.rnd x - x) (r.rnd y - y)
    linarith
  have e2 : |r.rnd x + r.rnd y| ≤ (1 + 2 * h) * B := by
    have a1 := abs_add_le ((r.rnd x + r.rnd y) - (x + y)) (x + y)
    have a2 := abs_add_le x y
    rw [sub_add_cancel] at a1
    linarith
  have e3 := S.fl e2 (by nlinarith)
  have e4 := abs_add_le (r.rnd (r.rnd x + r.rnd y) - (r.rnd x + r.rnd y)) ((r.rnd x + r.rnd y) - (x + y))
  rw [sub_add_sub_cancel] at e4
  have e5 : h * (h * B) ≤ 1 / 64 * (h * B) := mul_le_mul_of_nonneg_right hh (by positivity)
  nlinarith

theorem Small.sum_sub (S : Small r h σ) (hh : h ≤ 1 / 64) (hr : r.Nearest) {x y B : ℝ} (hx : |x| + |y| ≤ B)
    (hB : σ ≤ B) : |r.rnd (r.rnd x - r.rnd y) - (x - y)| ≤ 3.04 * h * B := by
  have := S.sum hh (x := x) (y := -y) (by rwa [abs_neg]) hB
  rwa [hr.odd, ← sub_eq_add_neg, ← sub_eq_add_neg] at this

/-- The error of a rounded quotient of two numbers with errors. -/
theorem Small.quot (S : Small r h σ) (hh : h ≤ 1 / 64) {N N' n n' B : ℝ} (hn : 0 < n) (hN : |N| ≤ B)
    (e1 : |N' - N| ≤ 3.04 * h * B) (e2 : |n' - n| ≤ 3.04 * h * n) (hB : σ ≤ B / n) :
    |r.rnd (N' / n') - N / n| ≤ 7.5 * h * (B / n) := by
  have h0 := S.h_nonneg
  have hBn : 0 < B / n := lt_of_lt_of_le S.pos hB
  have hBp : 0 < B := by
    have := mul_pos hBn hn
    rwa [div_mul_cancel₀ _ hn.ne'] at this
  have a1 := abs_le.mp e2
  have hn1 : 0.9525 * n ≤ n' := by nlinarith
  have hn0 : 0 < n' := by nlinarith
  have e3 : N' / n' - N / n = ((N' - N) * n - N * (n' - n)) / (n' * n) := by field_simp; ring
  have e4 : |(N' - N) * n - N * (n' - n)| ≤ 6.08 * h * B * n := by
    refine (abs_sub _ _).trans ?_
    rw [abs_mul, abs_mul, abs_of_pos hn]
    have b1 := mul_le_mul_of_nonneg_right e1 hn.le
    have b2 : |N| * |n' - n| ≤ B * (3.04 * h * n) := mul_le_mul hN e2 (abs_nonneg _) hBp.le
    nlinarith
  have e5 : |N' / n' - N / n| ≤ 6.39 * h * (B / n) := by
    rw [e3, abs_div, abs_of_pos (mul_pos hn0 hn), div_le_iff₀ (mul_pos hn0 hn)]
    refine e4.trans ?_
    have : 6.39 * h * (B / n) * (n' * n) = 6.39 * h * B * n' := by field_simp
    rw [this]
    have : 6.39 * h * B * (0.9525 * n) ≤ 6.39 * h * B * n' :=
      mul_le_mul_of_nonneg_left hn1 (by positivity)
    have : 0 ≤ h * B * n := by positivity
    nlinarith
  have e6 : |N / n| ≤ B / n := by
    rw [abs_div, abs_of_pos hn]
    exact div_le_div_of_nonneg_right hN hn.le
  have e7 : |N' / n'| ≤ 1.1 * (B / n) := by
    have := abs_add_le (N' / n' - N / n) (N / n)
    rw [sub_add_cancel] at this
    nlinarith
  have e8 := S.fl e7 (by linarith)
  have e9 := abs_add_le (r.rnd (N' / n') - N' / n') (N' / n' - N / n)
  rw [sub_add_sub_cancel] at e9
  nlinarith

theorem norm_le_of_parts {z : ℂ} {B : ℝ} (h1 : |z.re| ≤ B) (h2 : |z.im| ≤ B) : ‖z‖ ≤ 1.415 * B := by
  have h3 := Complex.norm_le_sqrt_two_mul_max z
  have h4 : √2 ≤ 1.415 := by
    rw [Real.sqrt_le_left (by norm_num)]; norm_num
  have h5 : max |z.re| |z.im| ≤ B := max_le h1 h2
  have h6 : 0 ≤ B := (abs_nonneg _).trans h1
  exact h3.trans (mul_le_mul h4 h5 (le_max_of_le_left (abs_nonneg _)) (by norm_num))

theorem cauchy (x y x' y' : ℝ) :
    x * x' + y * y' ≤ √(x ^ 2 + y ^ 2) * √(x' ^ 2 + y' ^ 2) := by
  rw [← Real.sqrt_mul (by positivity)]
  apply Real.le_sqrt_of_sq_le
  nlinarith [sq_nonneg (x * y' - y * x')]

theorem norm_eq_parts (a : ℂ) : ‖a‖ = √(|a.re| ^ 2 + |a.im| ^ 2) := by
  rw [Complex.norm_eq_sqrt_sq_add_sq, sq_abs, sq_abs]

/-- The error of a complex quotient. -/
theorem Small.flDiv (S : Small r h σ) (hh : h ≤ 1 / 64) (hr : r.Nearest) {a b : ℂ} {B : ℝ} (hb : σ ≤ ‖b‖ ^ 2)
    (hB : ‖a‖ * ‖b‖ ≤ B) (h1 : σ ≤ B) (h2 : σ ≤ B / ‖b‖ ^ 2) :
    ‖Rounded.flDiv r a b - a / b‖ ≤ 11 * h * (B / ‖b‖ ^ 2) := by
  have h0 := S.h_nonneg
  have hn : 0 < ‖b‖ ^ 2 := lt_of_lt_of_le S.pos hb
  have hsq : ‖b‖ ^ 2 = b.re * b.re + b.im * b.im := by
    rw [Complex.sq_norm, Complex.normSq_apply]
  have hBn : 0 < B / ‖b‖ ^ 2 := lt_of_lt_of_le S.pos h2
  have c1 : |a.re * b.re| + |a.im * b.im| ≤ B := by
    rw [abs_mul, abs_mul]
    refine (cauchy _ _ _ _).trans ?_
    rwa [← norm_eq_parts, ← norm_eq_parts]
  have c2 : |a.im * b.re| + |a.re * b.im| ≤ B := by
    rw [abs_mul, abs_mul, add_comm]
    have := cauchy |a.re| |a.im| |b.im| |b.re|
    refine this.trans ?_
    rwa [add_comm (|b.im| ^ 2), ← norm_eq_parts, ← norm_eq_parts]
  have d0 := S.sum hh (x := b.re * b.re) (y := b.im * b.im) (B := ‖b‖ ^ 2)
    (by rw [abs_mul_self, abs_mul_self, hsq]) hb
  have d1 := S.sum hh c1 h1
  have d2 := S.sum_sub hh hr c2 h1
  rw [← hsq] at d0
  have q1 := S.quot hh hn ((abs_add_le _ _).trans c1) d1 d0 h2
  have q2 := S.quot hh hn ((abs_sub _ _).trans c2) d2 d0 h2
  have e1 : (a / b).re = (a.re * b.re + a.im * b.im) / ‖b‖ ^ 2 := by
    rw [Complex.div_re, Complex.sq_norm]; ring
  have e2 : (a / b).im = (a.im * b.re - a.re * b.im) / ‖b‖ ^ 2 := by
    rw [Complex.div_im, Complex.sq_norm]; ring
  have k := norm_le_of_parts (z := Rounded.flDiv r a b - a / b) (B := 7.5 * h * (B / ‖b‖ ^ 2))
    (by rw [Complex.sub_re, e1]; exact q1) (by rw [Complex.sub_im, e2]; exact q2)
  have : 0 ≤ h * (B / ‖b‖ ^ 2) := by positivity
  nlinarith

/-- A complex number times a real one. -/
theorem Small.flMul_real (S : Small r h σ) (hr : r.Nearest) {a : ℂ} {w B : ℝ} (hB : ‖a‖ * |w| ≤ B) (h1 : σ ≤ B) :
    ‖Rounded.flMul r a (w : ℂ) - a * w‖ ≤ 1.5 * h * B := by
  have h0 := S.h_nonneg
  have hBp : 0 < B := lt_of_lt_of_le S.pos h1
  have c1 : |a.re * w| ≤ B := by
    rw [abs_mul]
    exact (mul_le_mul_of_nonneg_right (Complex.abs_re_le_norm a) (abs_nonneg _)).trans hB
  have c2 : |a.im * w| ≤ B := by
    rw [abs_mul]
    exact (mul_le_mul_of_nonneg_right (Complex.abs_im_le_norm a) (abs_nonneg _)).trans hB
  have d1 := S.fl c1 h1
  have d2 := S.fl c2 h1
  have k := norm_le_of_parts (z := Rounded.flMul r a (w : ℂ) - a * w) (B := h * B)
    (by simpa [Rounded.flMul, r.zero, hr.idem] using d1) (by simpa [Rounded.flMul, r.zero, hr.idem] using d2)
  have : 0 ≤ h * B := by positivity
  nlinarith

end SciRs.Rounded

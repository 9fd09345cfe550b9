import Verif.Lemmas.Rounded.Error
import Verif.Spec.RoundedDesign
import Verif.Lemmas.Rounded.Lawful

/-! # How near to the real axis a number is that passes for real -/

namespace SciRs.Rounded

open SciRs.Spec

variable {r : Rounding} {m : Libm} {h σ : ℝ}

theorem Small.abs_fl (S : Small r h σ) {x B : ℝ} (hx : |x| ≤ B) (hB : σ ≤ B) : |r.rnd x| ≤ (1 + h) * B := by
  have h1 := S.fl hx hB
  have h2 := abs_add_le (r.rnd x - x) x
  rw [sub_add_cancel] at h2
  linarith

/-- The computed root of the square of a number in the unit disc or close to it. -/
theorem sqrt_square_le (S : Small r h σ) (hσ : σ ≤ 1) (hh : h ≤ 1 / 1024) (hr : r.Nearest) (hm : m.Accurate r h)
    {x : ℂ} (hx : ‖x‖ ≤ 1.01) : |(flSqrt r m (flMul r x x)).re| ≤ 2 := by
  have h0 := S.h_nonneg
  have hsq : x.re * x.re + x.im * x.im ≤ 1.03 := by
    have : ‖x‖ ^ 2 ≤ 1.03 := by nlinarith [norm_nonneg x]
    rwa [Complex.sq_norm, Complex.normSq_apply] at this
  obtain ⟨z, hz⟩ : ∃ z, z = flMul r x x := ⟨_, rfl⟩
  rw [← hz]
  have e1 : |z.re| ≤ 1.04 := by
    have k := S.sum_sub (by linarith) hr (x := x.re * x.re) (y := x.im * x.im) (B := 1.03)
      (by rwa [abs_mul_self, abs_mul_self]) (by linarith)
    have a : |x.re * x.re - x.im * x.im| ≤ 1.03 := by
      rw [abs_le]; constructor <;> nlinarith [mul_self_nonneg x.re, mul_self_nonneg x.im]
    have b := abs_add_le (z.re - (x.re * x.re - x.im * x.im)) (x.re * x.re - x.im * x.im)
    rw [sub_add_cancel] at b
    rw [hz] at b ⊢
    have : (flMul r x x).re = r.rnd (r.rnd (x.re * x.re) - r.rnd (x.im * x.im)) := rfl
    rw [this] at b ⊢
    linarith
  have e2 : |z.im| ≤ 1.04 := by
    have a1 : |x.re * x.im| + |x.im * x.re| ≤ 1.03 := by
      rw [abs_mul, abs_mul]
      nlinarith [sq_nonneg (|x.re| - |x.im|), abs_mul_abs_self x.re, abs_mul_abs_self x.im]
    have k := S.sum (by linarith) a1 (by linarith)
    have b := abs_add_le (z.im - (x.re * x.im + x.im * x.re)) (x.re * x.im + x.im * x.re)
    rw [sub_add_cancel] at b
    have c := abs_add_le (x.re * x.im) (x.im * x.re)
    rw [hz] at b ⊢
    have : (flMul r x x).im = r.rnd (r.rnd (x.re * x.im) + r.rnd (x.im * x.re)) := rfl
    rw [this] at b ⊢
    linarith
  unfold flSqrt
  split_ifs with c1 c2 c3 c4
  · have : |√z.re| ≤ 1.03 := by
      rw [abs_of_nonneg (Real.sqrt_nonneg _), Real.sqrt_le_left (by norm_num)]
      have := le_abs_self z.re
      norm_num at e1 ⊢
      linarith
    have := S.abs_fl this (by linarith)
    change |r.rnd (√z.re)| ≤ 2
    linarith
  · simp
  · have g1 : |(|z.im| / 2)| ≤ 1 := by rw [abs_of_nonneg (by positivity)]; linarith
    have g2 := S.abs_fl g1 hσ
    have g3 : |√(r.rnd (|z.im| / 2))| ≤ 1.01 := by
      rw [abs_of_nonneg (Real.sqrt_nonneg _), Real.sqrt_le_left (by norm_num)]
      have := le_abs_self (r.rnd (|z.im| / 2))
      norm_num at g2 ⊢
      linarith
    have := S.abs_fl g3 (by linarith)
    change |r.rnd (√(r.rnd (|z.im| / 2)))| ≤ 2
    linarith
  · have g1 : |(|z.im| / 2)| ≤ 1 := by rw [abs_of_nonneg (by positivity)]; linarith
    have g2 := S.abs_fl g1 hσ
    have g3 : |√(r.rnd (|z.im| / 2))| ≤ 1.01 := by
      rw [abs_of_nonneg (Real.sqrt_nonneg _), Real.sqrt_le_left (by norm_num)]
      have := le_abs_self (r.rnd (|z.im| / 2))
      norm_num at g2 ⊢
      linarith
    have := S.abs_fl g3 (by linarith)
    change |r.rnd (√(r.rnd (|z.im| / 2)))| ≤ 2
    linarith
  · have ht : r.t ≤ h := by
      have i1 := S.t_le
      have i2 : (h - r.u) * σ ≤ (h - r.u) * 1 := mul_le_mul_of_nonneg_left hσ (sub_nonneg.mpr S.u_le)
      linarith [r.u_nonneg]
    have g1 := hm.hypot z.re z.im
    have g2 : √(z.re ^ 2 + z.im ^ 2) ≤ 1.48 := by
      rw [Real.sqrt_le_left (by norm_num)]
      have a1 : z.re ^ 2 ≤ 1.04 ^ 2 := by rw [← sq_abs]; exact pow_le_pow_left₀ (abs_nonneg _) e1 2
      have a2 : z.im ^ 2 ≤ 1.04 ^ 2 := by rw [← sq_abs]; exact pow_le_pow_left₀ (abs_nonneg _) e2 2
      norm_num at a1 a2 ⊢
      linarith
    have g3 : |√(m.hypot z.re z.im)| ≤ 1.73 := by
      rw [abs_of_nonneg (Real.sqrt_nonneg _), Real.sqrt_le_left (by norm_num)]
      norm_num at g2 ⊢
      linarith
    have g4 := S.abs_fl g3 (by linarith)
    have g5 : |m.atan2 z.im z.re / 2| ≤ 2 := by
      rw [abs_div, abs_of_pos (by norm_num : (0 : ℝ) < 2)]
      linarith [hm.atan2 z.re z.im]
    have g6 := S.abs_fl g5 (by linarith)
    obtain ⟨t, ht'⟩ : ∃ t, t = r.rnd (m.atan2 z.im z.re / 2) := ⟨_, rfl⟩
    rw [← ht'] at g6
    have g7 := hm.cos t (by linarith)
    have g8 : |m.cos t| ≤ 1.01 := by
      have a := abs_add_le (m.cos t - Real.cos t) (Real.cos t)
      rw [sub_add_cancel] at a
      linarith [Real.abs_cos_le_one t]
    have g9 : |r.rnd (√(m.hypot z.re z.im)) * m.cos t| ≤ 1.8 := by
      rw [abs_mul]
      have b1 : |r.rnd (√(m.hypot z.re z.im))| ≤ 1.74 := by linarith
      have := mul_le_mul b1 g8 (abs_nonneg _) (by norm_num)
      linarith
    have := S.abs_fl g9 (by linarith)
    change |r.rnd (r.rnd (√(m.hypot z.re z.im)) * m.cos (r.rnd (m.atan2 z.im z.re / 2)))| ≤ 2
    rw [← ht']
    linarith

theorem nearReal_le (S : Small r h σ) (hσ : σ ≤ 1) (hh : h ≤ 1 / 1024) (hr : r.Nearest) (hm : m.Accurate r h)
    {x : ℂ} (hx : ‖x‖ ≤ 1.01) (hn : NearReal (.ofRounding r m) x) : |x.im| ≤ 420 * h := by
  have h0 := S.h_nonneg
  have ht : r.t ≤ h - r.u := by
    have i1 := S.t_le
    have i2 : (h - r.u) * σ ≤ (h - r.u) * 1 := mul_le_mul_of_nonneg_left hσ (sub_nonneg.mpr S.u_le)
    linarith
  have hu : r.u ≤ 1 / 1024 := S.u_le.trans hh
  have hu0 := r.u_nonneg
  have k := sqrt_square_le S hσ hh hr hm hx
  obtain ⟨-, hi⟩ := hn
  have hi : |x.im| ≤ r.rnd (r.rnd (m.eps * 100) * (flSqrt r m (flMul r x x)).re) := hi
  obtain ⟨q, hq⟩ : ∃ q, q = (flSqrt r m (flMul r x x)).re := ⟨_, rfl⟩
  rw [← hq] at k hi
  have a1 : |m.eps * 100| ≤ 200 * h := by
    rw [abs_of_nonneg (mul_nonneg m.eps_nonneg (by norm_num))]
    linarith [hm.eps]
  have a2 := r.err (m.eps * 100)
  have a3 : r.u * |m.eps * 100| ≤ 1 / 1024 * (200 * h) := mul_le_mul hu a1 (abs_nonneg _) (by norm_num)
  have a4 : |r.rnd (m.eps * 100)| ≤ 202 * h := by
    have := abs_add_le (r.rnd (m.eps * 100) - m.eps * 100) (m.eps * 100)
    rw [sub_add_cancel] at this
    linarith
  have a5 : |r.rnd (m.eps * 100) * q| ≤ 404 * h := by
    rw [abs_mul]
    have := mul_le_mul a4 k (abs_nonneg _) (by positivity)
    linarith
  have a6 := r.err (r.rnd (m.eps * 100) * q)
  have a7 : r.u * |r.rnd (m.eps * 100) * q| ≤ 1 / 1024 * (404 * h) := mul_le_mul hu a5 (abs_nonneg _) (by norm_num)
  have a8 := abs_add_le (r.rnd (r.rnd (m.eps * 100) * q) - r.rnd (m.eps * 100) * q) (r.rnd (m.eps * 100) * q)
  rw [sub_add_cancel] at a8
  have a9 := le_abs_self (r.rnd (r.rnd (m.eps * 100) * q))
  linarith

end SciRs.Rounded

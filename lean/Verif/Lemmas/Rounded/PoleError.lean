import Verif.Lemmas.Rounded.Error
import Verif.Lemmas.Rounded.Zeros
import Mathlib.Analysis.SpecialFunctions.Trigonometric.Bounds
import Mathlib.Analysis.Real.Pi.Bounds

/-! # Rounding errors of the poles of low-pass and high-pass designs -/

namespace SciRs.Rounded

open SciRs.Spec SciRs.Design

variable {r : Rounding} {m : Libm} {h σ : ℝ}

/-- The computed angle of a pole of the Butterworth prototype. -/
noncomputable def flAngle (r : Rounding) (m : Libm) (n : ℕ) (j : ℤ) : ℝ :=
  r.rnd (r.rnd (m.pi * r.rnd j) / r.rnd ((2 * n : ℤ) : ℝ))

theorem flAngle_zero (n : ℕ) : flAngle r m n 0 = 0 := by
  simp [flAngle, r.zero]

theorem angle_err (S : Small r h σ) (hσ : σ ≤ 1) (hh : h ≤ 1 / 1024) (hm : m.Accurate r h) {n : ℕ} (hn : 1 ≤ n)
    {j : ℤ} (hj : |(j : ℝ)| ≤ n) : |flAngle r m n j - Real.pi * j / (2 * n)| ≤ 9 * h := by
  have h0 := S.h_nonneg
  by_cases hj0 : j = 0
  · subst hj0; rw [flAngle_zero]; simpa using h0
  have hj1 : 1 ≤ |(j : ℝ)| := by
    rw [← Int.cast_abs]; exact_mod_cast Int.one_le_abs hj0
  have hn1 : (1 : ℝ) ≤ n := by exact_mod_cast hn
  have hpi3 := Real.pi_gt_three
  have hpi4 : Real.pi < 3.15 := Real.pi_lt_d2
  have e1 := S.fl (x := (j : ℝ)) le_rfl (by linarith)
  have e2 := S.fl (x := ((2 * n : ℤ) : ℝ)) (B := 2 * n) (by push_cast; rw [abs_of_nonneg (by linarith)]) (by linarith)
  have e3 := hm.pi
  unfold flAngle
  obtain ⟨j', hj'⟩ : ∃ j', j' = r.rnd (j : ℝ) := ⟨_, rfl⟩
  obtain ⟨n', hn'⟩ : ∃ n', n' = r.rnd ((2 * n : ℤ) : ℝ) := ⟨_, rfl⟩
  rw [← hj'] at e1 ⊢
  rw [← hn'] at e2 ⊢
  push_cast at e2
  obtain ⟨N, hN⟩ : ∃ N, N = Real.pi * |(j : ℝ)| := ⟨_, rfl⟩
  have hN3 : 3 ≤ N := by rw [hN]; nlinarith
  have f1 : |m.pi * j' - Real.pi * j| ≤ 2.001 * h * N := by
    have : m.pi * j' - Real.pi * j = (m.pi - Real.pi) * (j' - j) + ((m.pi - Real.pi) * j + Real.pi * (j' - j)) := by ring
    rw [this]
    have a1 := abs_add_le ((m.pi - Real.pi) * (j' - j)) ((m.pi - Real.pi) * j + Real.pi * (j' - j))
    have a2 := abs_add_le ((m.pi - Real.pi) * (j : ℝ)) (Real.pi * (j' - j))
    rw [abs_mul, abs_mul, abs_of_pos Real.pi_pos] at a2
    rw [abs_mul] at a1
    have a3 : |m.pi - Real.pi| * |j' - j| ≤ (h * Real.pi) * (h * |(j : ℝ)|) :=
      mul_le_mul e3 e1 (abs_nonneg _) (by positivity)
    have a4 := mul_le_mul_of_nonneg_right e3 (abs_nonneg (j : ℝ))
    have a5 := mul_le_mul_of_nonneg_left e1 Real.pi_pos.le
    have a6 : h * (h * N) ≤ 1 / 1024 * (h * N) := mul_le_mul_of_nonneg_right hh (by positivity)
    have a7 : 0 ≤ h * N := by positivity
    rw [hN] at a6 a7 ⊢
    nlinarith
  have f2 : |Real.pi * (j : ℝ)| = N := by rw [abs_mul, abs_of_pos Real.pi_pos, hN]
  have f3 : |m.pi * j'| ≤ 1.01 * N := by
    have := abs_add_le (m.pi * j' - Real.pi * j) (Real.pi * j)
    rw [sub_add_cancel, f2] at this
    nlinarith
  have f4 := S.fl f3 (by linarith)
  obtain ⟨x, hx⟩ : ∃ x, x = r.rnd (m.pi * j') := ⟨_, rfl⟩
  rw [← hx] at f4 ⊢
  have f5 : |x - Real.pi * j| ≤ 3.02 * h * N := by
    have := abs_add_le (x - m.pi * j') (m.pi * j' - Real.pi * j)
    rw [sub_add_sub_cancel] at this
    nlinarith
  have g1 := abs_le.mp e2
  have hn2 : 1.99 * n ≤ n' := by nlinarith
  have hn0 : 0 < n' := by linarith
  have g2 : x / n' - Real.pi * j / (2 * n) =
      ((x - Real.pi * j) * (2 * n) - Real.pi * j * (n' - 2 * n)) / (n' * (2 * n)) := by
    field_simp; ring
  have hNn : N ≤ 3.15 * n := by rw [hN]; nlinarith
  have g3 : |x / n' - Real.pi * j / (2 * n)| ≤ 6.5 * h := by
    rw [g2, abs_div, abs_of_pos (by positivity : 0 < n' * (2 * (n : ℝ))), div_le_iff₀ (by positivity)]
    refine (abs_sub _ _).trans ?_
    rw [abs_mul, abs_mul (Real.pi * (j : ℝ)), f2, abs_of_pos (by positivity : (0 : ℝ) < 2 * n)]
    have b1 := mul_le_mul_of_nonneg_right f5 (by positivity : (0 : ℝ) ≤ 2 * n)
    have b2 := mul_le_mul_of_nonneg_left e2 (by linarith : 0 ≤ N)
    have b3 : h * N * n ≤ h * (3.15 * n) * n := by gcongr
    have b4 : h * n * (1.99 * n) ≤ h * n * n' := by gcongr
    have b5 : 0 ≤ h * n * n := by positivity
    nlinarith
  have g4 : |Real.pi * j / (2 * n)| ≤ 1.575 := by
    rw [abs_div, f2, abs_of_pos (by positivity : (0 : ℝ) < 2 * n), div_le_iff₀ (by positivity)]
    linarith
  have g5 : |x / n'| ≤ 1.6 := by
    have := abs_add_le (x / n' - Real.pi * j / (2 * n)) (Real.pi * j / (2 * n))
    rw [sub_add_cancel] at this
    linarith
  have g6 := S.fl g5 (by linarith)
  have g7 := abs_add_le (r.rnd (x / n') - x / n') (x / n' - Real.pi * j / (2 * n))
  rw [sub_add_sub_cancel] at g7
  linarith

/-- The computed pole of the Butterworth prototype. -/
noncomputable def flProto (r : Rounding) (m : Libm) (n : ℕ) (j : ℤ) : ℂ :=
  -⟨r.rnd (m.exp 0 * m.cos (flAngle r m n j)), r.rnd (m.exp 0 * m.sin (flAngle r m n j))⟩

/-- The exact pole of the Butterworth prototype. -/
noncomputable def exProto (n : ℕ) (j : ℤ) : ℂ := -Complex.exp (⟨0, Real.pi * j / (2 * n)⟩ : ℂ)

theorem exProto_parts (n : ℕ) (j : ℤ) : (exProto n j).re = -Real.cos (Real.pi * j / (2 * n)) ∧
    (exProto n j).im = -Real.sin (Real.pi * j / (2 * n)) := by
  simp [exProto, Complex.exp_re, Complex.exp_im]

theorem exProto_norm (n : ℕ) (j : ℤ) : ‖exProto n j‖ = 1 := by
  rw [exProto, norm_neg, Complex.norm_exp]; simp

theorem proto_err (S : Small r h σ) (hσ : σ ≤ 1) (hh : h ≤ 1 / 1024) (hm : m.Accurate r h) {n : ℕ} (hn : 1 ≤ n)
    {j : ℤ} (hj : |(j : ℝ)| ≤ n) : ‖flProto r m n j - exProto n j‖ ≤ 16 * h := by
  have h0 := S.h_nonneg
  have e := angle_err S hσ hh hm hn hj
  have hn1 : (1 : ℝ) ≤ n := by exact_mod_cast hn
  have hpi4 : Real.pi < 3.15 := Real.pi_lt_d2
  obtain ⟨x, hx⟩ : ∃ x, x = flAngle r m n j := ⟨_, rfl⟩
  obtain ⟨y, hy⟩ : ∃ y, y = Real.pi * j / (2 * n) := ⟨_, rfl⟩
  obtain ⟨p1, p2⟩ := exProto_parts n j
  rw [← hy] at p1 p2
  rw [← hx, ← hy] at e
  have hy2 : |y| ≤ 2 := by
    rw [hy, abs_div, abs_mul, abs_of_pos Real.pi_pos, abs_of_pos (by positivity : (0 : ℝ) < 2 * n),
      div_le_iff₀ (by positivity)]
    have := mul_le_mul hpi4.le hj (abs_nonneg _) (by norm_num)
    linarith
  have hx4 : |x| ≤ 4 := by
    have := abs_add_le (x - y) y
    rw [sub_add_cancel] at this
    linarith
  have key : ∀ (f g : ℝ → ℝ), (∀ x, |x| ≤ 4 → |f x - g x| ≤ h) → |g x - g y| ≤ |x - y| → |g y| ≤ 1 →
      |-r.rnd (m.exp 0 * f x) - -g y| ≤ 11.1 * h := by
    intro f g a1 a2 a3
    rw [hm.exp_zero, one_mul]
    have b1 := a1 x hx4
    have b2 := abs_add_le (f x - g x) (g x - g y)
    rw [sub_add_sub_cancel] at b2
    have b3 : |f x| ≤ 1.01 := by
      have := abs_add_le (f x - g y) (g y)
      rw [sub_add_cancel] at this
      linarith
    have b4 := S.fl b3 (by linarith)
    have b5 := abs_add_le (r.rnd (f x) - f x) (f x - g y)
    rw [sub_add_sub_cancel] at b5
    rw [show -r.rnd (f x) - -g y = -(r.rnd (f x) - g y) by ring, abs_neg]
    linarith
  have k := norm_le_of_parts (z := flProto r m n j - exProto n j) (B := 11.1 * h)
    (by rw [Complex.sub_re, p1]; simp only [flProto, Complex.neg_re, ← hx]
        exact key _ _ hm.cos (Real.abs_cos_sub_cos_le x y) (Real.abs_cos_le_one y))
    (by rw [Complex.sub_im, p2]; simp only [flProto, Complex.neg_im, ← hx]
        exact key _ _ hm.sin (Real.abs_sin_sub_sin_le x y) (Real.abs_sin_le_one y))
  linarith

/-- The computed pre-warped edge. -/
noncomputable def flWarp (r : Rounding) (m : Libm) (e : ℝ) : ℝ :=
  r.rnd (r.rnd (2 * 2) * m.tan (r.rnd (r.rnd (m.pi * e) / 2)))

/-- The exact pre-warped edge. -/
noncomputable def exWarp (e : ℝ) : ℝ := 4 * Real.tan (Real.pi * e / 2)

/-- The tangent of a perturbed angle. -/
theorem tan_err {e x x' H : ℝ} (he0 : 0 < e) (hx0 : 0 < x) (hxe : x ≤ 1.575 * e) (c1 : 0 < Real.cos x)
    (c2 : 0 < Real.cos x') (b1 : 0.99 * (1 - e) ≤ Real.cos x') (b2 : e ≤ Real.sin x) (h0 : 0 ≤ h) (hH0 : 0 ≤ H)
    (hHh : H * (1 - e) = h) (hT0 : 0 < Real.tan x) (a7 : |x' - x| ≤ 4.07 * h * x) :
    |Real.tan x' - Real.tan x| ≤ 6.5 * H * Real.tan x := by
  have e1 : Real.tan x' - Real.tan x = Real.tan x * (Real.sin (x' - x) / (Real.cos x' * Real.sin x)) := by
    have : Real.sin x ≠ 0 := by linarith
    rw [Real.tan_eq_sin_div_cos, Real.tan_eq_sin_div_cos, Real.sin_sub]
    field_simp
  have e2 : |Real.sin (x' - x)| ≤ 4.07 * h * x := by
    have := Real.abs_sin_sub_sin_le (x' - x) 0
    rw [Real.sin_zero, sub_zero, sub_zero] at this
    exact this.trans a7
  have e3 : 0.99 * (1 - e) * e ≤ Real.cos x' * Real.sin x := mul_le_mul b1 b2 he0.le c2.le
  have e4 : 0 < Real.cos x' * Real.sin x := mul_pos c2 (by linarith)
  have e5 : |Real.sin (x' - x) / (Real.cos x' * Real.sin x)| ≤ 6.5 * H := by
    rw [abs_div, abs_of_pos e4, div_le_iff₀ e4]
    refine e2.trans ?_
    have k1 : 6.5 * H * (0.99 * (1 - e) * e) ≤ 6.5 * H * (Real.cos x' * Real.sin x) :=
      mul_le_mul_of_nonneg_left e3 (by positivity)
    have k2 : 6.5 * H * (0.99 * (1 - e) * e) = 6.5 * 0.99 * h * e := by
      rw [← hHh]; ring
    have k3 : h * x ≤ h * (1.575 * e) := mul_le_mul_of_nonneg_left (hxe) h0
    have k4 : 0 ≤ h * e := by positivity
    nlinarith
  rw [e1, abs_mul, abs_of_pos hT0]
  have := mul_le_mul_of_nonneg_left e5 hT0.le
  linarith

set_option maxHeartbeats 800000 in
theorem warp_err {e e' : ℝ} (S : Small r h e) (hr : r.Nearest) (he : e < 1) (hee : |e' - e| ≤ h * e) (hh : h ≤ (1 - e) / 1024) (hm : m.Accurate r h) :
    0 < exWarp e ∧ 6 * e ≤ exWarp e ∧ |flWarp r m e' - exWarp e| ≤ 9.7 * (h / (1 - e)) * exWarp e := by
  have h0 := S.h_nonneg
  have he0 := S.pos
  have hpi3 := Real.pi_gt_three
  have hpi4 : Real.pi < 3.15 := Real.pi_lt_d2
  have hh' : h ≤ 1 / 1024 := by linarith
  obtain ⟨x, hx⟩ : ∃ x, x = Real.pi * e / 2 := ⟨_, rfl⟩
  have hxe : 1.5 * e ≤ x := by rw [hx]; nlinarith
  have hx2 : x < Real.pi / 2 := by rw [hx]; nlinarith
  have hx0 : 0 < x := by linarith
  have htx := Real.le_tan hx0.le hx2
  have hw0 : 0 < exWarp e := by
    rw [exWarp, ← hx]; linarith
  refine ⟨hw0, by rw [exWarp, ← hx]; linarith, ?_⟩
  have hpe : Real.pi * e = 2 * x := by rw [hx]; ring
  have a1 : |m.pi * e' - 2 * x| ≤ 4.01 * h * x := by
    have e1 : m.pi * e' - 2 * x = (m.pi - Real.pi) * (e' - e) + ((m.pi - Real.pi) * e + Real.pi * (e' - e)) := by
      rw [← hpe]; ring
    rw [e1]
    have i1 := abs_add_le ((m.pi - Real.pi) * (e' - e)) ((m.pi - Real.pi) * e + Real.pi * (e' - e))
    have i2 := abs_add_le ((m.pi - Real.pi) * e) (Real.pi * (e' - e))
    rw [abs_mul, abs_mul, abs_of_pos Real.pi_pos, abs_of_pos he0] at i2
    rw [abs_mul] at i1
    have i3 : |m.pi - Real.pi| * |e' - e| ≤ (h * Real.pi) * (h * e) := mul_le_mul hm.pi hee (abs_nonneg _) (by positivity)
    have i4 := mul_le_mul_of_nonneg_right hm.pi he0.le
    have i5 := mul_le_mul_of_nonneg_left hee Real.pi_pos.le
    have i6 : h * (h * (Real.pi * e)) ≤ 1 / 1024 * (h * (Real.pi * e)) := mul_le_mul_of_nonneg_right hh' (by positivity)
    rw [hpe] at i6
    have i7 : (h * Real.pi) * (h * e) = h * (h * (2 * x)) := by rw [← hpe]; ring
    have i8 : h * Real.pi * e = h * (2 * x) := by rw [← hpe]; ring
    have i9 : Real.pi * (h * e) = h * (2 * x) := by rw [← hpe]; ring
    have i10 : 0 ≤ h * x := by positivity
    linarith
  have a2 : |m.pi * e'| ≤ 2.01 * x := by
    have := abs_add_le (m.pi * e' - 2 * x) (2 * x)
    rw [sub_add_cancel, abs_of_pos (by linarith : 0 < 2 * x)] at this
    nlinarith
  have a3 := S.fl a2 (by linarith)
  have a4 : |r.rnd (m.pi * e') / 2 - x| ≤ 3.01 * h * x := by
    have := abs_add_le (r.rnd (m.pi * e') - m.pi * e') (m.pi * e' - 2 * x)
    rw [sub_add_sub_cancel] at this
    rw [show r.rnd (m.pi * e') / 2 - x = (r.rnd (m.pi * e') - 2 * x) / 2 by ring, abs_div, abs_of_pos (by norm_num : (0 : ℝ) < 2)]
    have : 0 ≤ h * x := by positivity
    linarith
  have a5 : |r.rnd (m.pi * e') / 2| ≤ 1.01 * x := by
    have := abs_add_le (r.rnd (m.pi * e') / 2 - x) x
    rw [sub_add_cancel, abs_of_pos hx0] at this
    nlinarith
  have a6 := S.fl a5 (by linarith)
  obtain ⟨x', hx'⟩ : ∃ x', x' = r.rnd (r.rnd (m.pi * e') / 2) := ⟨_, rfl⟩
  rw [← hx'] at a6
  have a7 : |x' - x| ≤ 4.07 * h * x := by
    have := abs_add_le (x' - r.rnd (m.pi * e') / 2) (r.rnd (m.pi * e') / 2 - x)
    rw [sub_add_sub_cancel] at this
    have : 0 ≤ h * x := by positivity
    nlinarith
  obtain ⟨a8, a9⟩ := abs_le.mp a7
  have hx'e : e ≤ x' := by nlinarith
  have hx'0 : 0 < x' := by linarith
  have b0 : x' ≤ Real.pi / 2 * (1 - 0.99 * (1 - e)) := by
    have : h * x ≤ (1 - e) / 1024 * (Real.pi / 2) := mul_le_mul hh hx2.le hx0.le (by linarith)
    have : x = Real.pi / 2 * e := by rw [hx]; ring
    nlinarith
  have hx'2 : x' < Real.pi / 2 := by nlinarith
  have b1 : 0.99 * (1 - e) ≤ Real.cos x' := by
    have := Real.one_sub_mul_le_cos hx'0.le hx'2.le
    refine le_trans ?_ this
    have : 2 / Real.pi * x' ≤ 2 / Real.pi * (Real.pi / 2 * (1 - 0.99 * (1 - e))) :=
      mul_le_mul_of_nonneg_left b0 (by positivity)
    have h2 : 2 / Real.pi * (Real.pi / 2 * (1 - 0.99 * (1 - e))) = 1 - 0.99 * (1 - e) := by
      field_simp
    linarith
  have b2 : e ≤ Real.sin x := by
    have := Real.mul_le_sin hx0.le hx2.le
    rw [hx] at this ⊢
    have h2 : 2 / Real.pi * (Real.pi * e / 2) = e := by field_simp
    linarith
  have c1 : 0 < Real.cos x := Real.cos_pos_of_mem_Ioo ⟨by linarith, hx2⟩
  have c2 : 0 < Real.cos x' := lt_of_lt_of_le (by nlinarith) b1
  obtain ⟨H, hH⟩ : ∃ H, H = h / (1 - e) := ⟨_, rfl⟩
  have h1e : 0 < 1 - e := by linarith
  have hHh : H * (1 - e) = h := by rw [hH]; field_simp
  have hH0 : 0 ≤ H := by rw [hH]; positivity
  have hHs : H ≤ 1 / 1024 := by rw [hH, div_le_iff₀ h1e]; linarith
  have hhH : h ≤ H := by nlinarith
  obtain ⟨T, hT⟩ : ∃ T, T = Real.tan x := ⟨_, rfl⟩
  have hT0 : 0 < T := by rw [hT]; linarith
  have b3 : |Real.tan x' - T| ≤ 6.5 * H * T := by
    rw [hT]; exact tan_err he0 hx0 (by rw [hx]; nlinarith) c1 c2 b1 b2 h0 hH0 hHh (by rw [← hT]; exact hT0) a7
  have b4 := hm.tan x' hx'0 hx'2
  have b5 : e ≤ Real.tan x' := hx'e.trans (Real.le_tan hx'0.le hx'2)
  have b6 : Real.tan x' ≤ 1.01 * T := by
    have := (abs_le.mp b3).2
    have : H * T ≤ 1 / 1024 * T := mul_le_mul_of_nonneg_right hHs hT0.le
    linarith
  have b7 : r.t ≤ h * Real.tan x' := by
    have i1 := S.t_le
    have i2 : (h - r.u) * e ≤ h * e := mul_le_mul_of_nonneg_right (by linarith [r.u_nonneg]) he0.le
    have i3 := mul_le_mul_of_nonneg_left b5 h0
    linarith
  have b8 : |m.tan x' - T| ≤ 8.6 * H * T := by
    have i1 := abs_add_le (m.tan x' - Real.tan x') (Real.tan x' - T)
    rw [sub_add_sub_cancel] at i1
    have i2 := mul_le_mul_of_nonneg_left b6 h0
    have i3 := mul_le_mul_of_nonneg_right hhH hT0.le
    have i4 : 0 ≤ H * T := by positivity
    linarith
  have b9 : |4 * m.tan x'| ≤ 4.04 * T := by
    rw [abs_mul, abs_of_pos (by norm_num : (0 : ℝ) < 4)]
    have i1 := abs_add_le (m.tan x' - T) T
    rw [sub_add_cancel, abs_of_pos hT0] at i1
    have : H * T ≤ 1 / 1024 * T := mul_le_mul_of_nonneg_right hHs hT0.le
    linarith
  have hTe : e ≤ 4.04 * T := by rw [hT]; linarith
  have b10 := S.fl b9 hTe
  have hw : flWarp r m e' = r.rnd (4 * m.tan x') := by
    rw [flWarp, ← hx', show (2 : ℝ) * 2 = 4 by norm_num, rnd_four hr]
  rw [hw, exWarp, ← hx, ← hT, ← hH]
  have i1 := abs_add_le (r.rnd (4 * m.tan x') - 4 * m.tan x') (4 * m.tan x' - 4 * T)
  rw [sub_add_sub_cancel, ← mul_sub, abs_mul, abs_of_pos (by norm_num : (0 : ℝ) < 4)] at i1
  have i3 := mul_le_mul_of_nonneg_right hhH hT0.le
  have i4 : 0 ≤ H * T := by positivity
  linarith

/-- The computed pole of the analog low-pass filter. -/
theorem lp_err {e w w' H : ℝ} {ζ ζ' : ℂ} (S : Small r h e) (hr : r.Nearest) (hh : h ≤ 1 / 1024) (hhH : h ≤ H)
    (hH : H ≤ 1 / 1024) (hw : 0 < w) (hwe : 6 * e ≤ w) (hζ : ‖ζ‖ = 1) (eζ : ‖ζ' - ζ‖ ≤ 16 * h)
    (ew : |w' - w| ≤ 9.7 * H * w) : ‖flMul r ζ' (w' : ℂ) - w * ζ‖ ≤ 38 * H * w := by
  have h0 := S.h_nonneg
  have hHw : H * w ≤ 1 / 1024 * w := mul_le_mul_of_nonneg_right hH hw.le
  have hw' : |w'| ≤ 1.01 * w := by
    have := abs_add_le (w' - w) w
    rw [sub_add_cancel, abs_of_pos hw] at this
    linarith
  have hζ' : ‖ζ'‖ ≤ 1.02 := by
    have := norm_add_le (ζ' - ζ) ζ
    rw [sub_add_cancel, hζ] at this
    linarith
  have hB : ‖ζ'‖ * |w'| ≤ 1.04 * w := by
    have := mul_le_mul hζ' hw' (abs_nonneg _) (by norm_num)
    linarith
  have k1 := S.flMul_real hr hB (by linarith [S.pos])
  have k2 : ‖ζ' * (w' : ℂ) - w * ζ‖ ≤ 16.2 * h * w + 9.7 * H * w := by
    have e1 : ζ' * (w' : ℂ) - w * ζ = (ζ' - ζ) * (w' : ℂ) + ((w' - w : ℝ) : ℂ) * ζ := by push_cast; ring
    rw [e1]
    refine (norm_add_le _ _).trans ?_
    rw [norm_mul, norm_mul, hζ, Complex.norm_real, Complex.norm_real, Real.norm_eq_abs, Real.norm_eq_abs]
    have := mul_le_mul eζ hw' (abs_nonneg _) (by positivity)
    nlinarith [mul_nonneg h0 hw.le]
  have k3 := norm_add_le (flMul r ζ' (w' : ℂ) - ζ' * w') (ζ' * w' - w * ζ)
  rw [sub_add_sub_cancel] at k3
  have := mul_le_mul_of_nonneg_right hhH hw.le
  nlinarith

/-- The computed pole of the analog high-pass filter. -/
theorem hp_err {e w w' H : ℝ} {ζ ζ' : ℂ} (S : Small r h e) (he1 : e < 1) (hr : r.Nearest) (hh : h ≤ (1 - e) / 1024)
    (hhH : h ≤ H) (hH : H ≤ 1 / 1024) (hw : 0 < w) (hwe : 6 * e ≤ w) (hζ : ‖ζ‖ = 1) (eζ : ‖ζ' - ζ‖ ≤ 16 * h)
    (ew : |w' - w| ≤ 9.7 * H * w) : ‖flDiv r (w' : ℂ) ζ' - w / ζ‖ ≤ 38 * H * w := by
  have h0 := S.h_nonneg
  have he := S.pos
  have hHw : H * w ≤ 1 / 1024 * w := mul_le_mul_of_nonneg_right hH hw.le
  obtain ⟨v1, v2⟩ := abs_le.mp ew
  have hw1 : w' ≤ 1.01 * w := by linarith
  have hw2 : 0.99 * w ≤ w' := by linarith
  have hw0 : 0 < w' := by linarith
  have z1 : ‖ζ'‖ ≤ 1.02 := by
    have := norm_add_le (ζ' - ζ) ζ
    rw [sub_add_cancel, hζ] at this
    linarith
  have z2 : 1 - 16 * h ≤ ‖ζ'‖ := by
    have := norm_sub_norm_le ζ ζ'
    rw [hζ, norm_sub_rev] at this
    linarith
  have z3 : 0.98 ≤ ‖ζ'‖ := by linarith
  have z0 : 0 < ‖ζ'‖ := by linarith
  have z4 : e ≤ ‖ζ'‖ ^ 2 := by nlinarith
  have hζ0 : ζ ≠ 0 := by rw [← norm_pos_iff, hζ]; norm_num
  have hζ0' : ζ' ≠ 0 := by rwa [← norm_pos_iff]
  have hb : ‖(w' : ℂ)‖ * ‖ζ'‖ ≤ w' * ‖ζ'‖ := by rw [Complex.norm_real, Real.norm_of_nonneg hw0.le]
  have e1 : w' * ‖ζ'‖ / ‖ζ'‖ ^ 2 = w' / ‖ζ'‖ := by field_simp
  have e2 : w' / ‖ζ'‖ ≤ 1.04 * w := by
    rw [div_le_iff₀ z0]; nlinarith
  have k1 := S.flDiv (by linarith) hr z4 hb (by nlinarith) (by
    rw [e1, le_div_iff₀ z0]; nlinarith)
  rw [e1] at k1
  have k2 : ‖(w' : ℂ) / ζ' - w / ζ‖ ≤ 10 * H * w + 16.4 * h * w := by
    have e3 : (w' : ℂ) / ζ' - w / ζ = (((w' - w : ℝ) : ℂ) * ζ - w * (ζ' - ζ)) / (ζ' * ζ) := by
      push_cast; field_simp; ring
    rw [e3, norm_div, norm_mul, hζ, mul_one, div_le_iff₀ z0]
    refine (norm_sub_le _ _).trans ?_
    rw [norm_mul, norm_mul, hζ, Complex.norm_real, Complex.norm_real, Real.norm_eq_abs, Real.norm_of_nonneg hw.le]
    have i1 := mul_le_mul_of_nonneg_left eζ hw.le
    have i2 : (10 * H * w + 16.4 * h * w) * 0.98 ≤ (10 * H * w + 16.4 * h * w) * ‖ζ'‖ :=
      mul_le_mul_of_nonneg_left z3 (by have := h0.trans hhH; positivity)
    nlinarith [mul_nonneg h0 hw.le, mul_nonneg (h0.trans hhH) hw.le]
  have k3 := norm_add_le (Rounded.flDiv r (w' : ℂ) ζ' - w' / ζ') (w' / ζ' - w / ζ)
  rw [sub_add_sub_cancel] at k3
  have i1 := mul_le_mul_of_nonneg_right hhH hw.le
  have i2 := mul_le_mul_of_nonneg_left e2 h0
  nlinarith

/-- The computed pole of the digital filter. -/
noncomputable def flBilinear (r : Rounding) (p : ℂ) : ℂ :=
  flDiv r ⟨r.rnd (r.rnd (2 * 2) + p.re), r.rnd (0 + p.im)⟩ ⟨r.rnd (r.rnd (2 * 2) - p.re), r.rnd (0 - p.im)⟩

set_option maxHeartbeats 800000 in
theorem bilinear_err {e H : ℝ} {p p' : ℂ} (S : Small r h e) (he1 : e < 1) (hr : r.Nearest) (hhH : h ≤ H)
    (hH : H ≤ 1 / 1024) (hp : p.re ≤ 0) (ep : ‖p' - p‖ ≤ 38 * H * ‖p‖) :
    ‖flBilinear r p' - (4 + p) / (4 - p)‖ ≤ 55 * H := by
  have h0 := S.h_nonneg
  have hH0 : 0 ≤ H := h0.trans hhH
  obtain ⟨L, hL⟩ : ∃ L, L = ‖4 - p‖ := ⟨_, rfl⟩
  have hL2 : 16 + ‖p‖ ^ 2 ≤ L ^ 2 := by
    rw [hL, Complex.sq_norm, Complex.sq_norm, Complex.normSq_apply, Complex.normSq_apply]
    simp
    nlinarith
  have hL0 : 0 ≤ L := by rw [hL]; exact norm_nonneg _
  have hn := norm_nonneg p
  have hL4 : 4 ≤ L := by nlinarith
  have hpL : ‖p‖ ≤ L := by nlinarith
  have hp8 : 8 * ‖p‖ ≤ L ^ 2 := by nlinarith [sq_nonneg (‖p‖ - 4)]
  have ha : ‖4 + p‖ ≤ L := by
    have : ‖4 + p‖ ^ 2 ≤ L ^ 2 := by
      rw [hL, Complex.sq_norm, Complex.sq_norm, Complex.normSq_apply, Complex.normSq_apply]
      simp
      nlinarith
    exact (sq_le_sq₀ (norm_nonneg _) hL0).mp this
  have ep2 : ‖p' - p‖ ≤ 38 * H * L := ep.trans (mul_le_mul_of_nonneg_left hpL (by positivity))
  have hHL : H * L ≤ 1 / 1024 * L := mul_le_mul_of_nonneg_right hH hL0
  have ep3 : ‖p' - p‖ ≤ 0.0372 * L := by linarith
  obtain ⟨D, hD⟩ : ∃ D, D = ‖4 - p'‖ := ⟨_, rfl⟩
  have hD1 : 0.9628 * L ≤ D := by
    have := norm_sub_norm_le (4 - p) (4 - p')
    rw [← hL, ← hD, show (4 : ℂ) - p - (4 - p') = p' - p by ring] at this
    linarith
  have hD4 : 3.8 ≤ D := by linarith
  have hA1 : ‖4 + p'‖ ≤ 1.0372 * L := by
    have := norm_add_le (4 + p) (p' - p)
    rw [show (4 : ℂ) + p + (p' - p) = 4 + p' by ring] at this
    linarith
  have hA2 : ‖4 + p'‖ ≤ 1.08 * D := by linarith
  have b0 : (4 : ℂ) - p' ≠ 0 := by rw [← norm_pos_iff, ← hD]; linarith
  have b1 : (4 : ℂ) - p ≠ 0 := by rw [← norm_pos_iff, ← hL]; linarith
  -- the exact map
  have k1 : ‖(4 + p') / (4 - p') - (4 + p) / (4 - p)‖ ≤ 39.6 * H := by
    have e1 : (4 + p') / (4 - p') - (4 + p) / (4 - p) = 8 * (p' - p) / ((4 - p') * (4 - p)) := by
      field_simp; ring
    rw [e1, norm_div, norm_mul, norm_mul, ← hD, ← hL, div_le_iff₀ (by positivity)]
    have : ‖(8 : ℂ)‖ = 8 := by simp
    rw [this]
    have i1 : 39.6 * H * (0.9628 * L * L) ≤ 39.6 * H * (D * L) := by gcongr
    have i2 : H * (8 * ‖p‖) ≤ H * L ^ 2 := mul_le_mul_of_nonneg_left hp8 hH0
    nlinarith [mul_nonneg hH0 (sq_nonneg L)]
  -- the rounded sum and difference
  rw [flBilinear, show (2 : ℝ) * 2 = 4 by norm_num, rnd_four hr]
  obtain ⟨a, hadef⟩ : ∃ a : ℂ, a = ⟨r.rnd (4 + p'.re), r.rnd (0 + p'.im)⟩ := ⟨_, rfl⟩
  obtain ⟨b, hbdef⟩ : ∃ b : ℂ, b = ⟨r.rnd (4 - p'.re), r.rnd (0 - p'.im)⟩ := ⟨_, rfl⟩
  rw [← hadef, ← hbdef]
  have ea : ‖a - (4 + p')‖ ≤ 1.53 * h * D := by
    have r1 : |4 + p'.re| ≤ 1.08 * D := by
      have := Complex.abs_re_le_norm (4 + p')
      simp at this
      linarith
    have r2 : |0 + p'.im| ≤ 1.08 * D := by
      have := Complex.abs_im_le_norm (4 + p')
      simp at this
      rw [zero_add]
      linarith
    have k := norm_le_of_parts (z := a - (4 + p')) (B := h * (1.08 * D))
      (by rw [hadef]; simpa using S.fl r1 (by linarith)) (by rw [hadef]; simpa using S.fl r2 (by linarith))
    nlinarith [mul_nonneg h0 (by linarith : 0 ≤ D)]
  have eb : ‖b - (4 - p')‖ ≤ 1.42 * h * D := by
    have r1 : |4 - p'.re| ≤ D := by
      have := Complex.abs_re_le_norm (4 - p')
      simp at this
      linarith
    have r2 : |0 - p'.im| ≤ D := by
      have := Complex.abs_im_le_norm (4 - p')
      simp at this
      rw [zero_sub, abs_neg]
      linarith
    have k := norm_le_of_parts (z := b - (4 - p')) (B := h * D)
      (by rw [hbdef]; simpa using S.fl r1 (by linarith)) (by rw [hbdef]; simpa [sub_eq_add_neg] using S.fl r2 (by linarith))
    nlinarith [mul_nonneg h0 (by linarith : 0 ≤ D)]
  have hhs : h ≤ 1 / 1024 := hhH.trans hH
  have hhD : h * D ≤ 1 / 1024 * D := mul_le_mul_of_nonneg_right hhs (by linarith)
  have hb1 : 0.998 * D ≤ ‖b‖ := by
    have := norm_sub_norm_le (4 - p') b
    rw [← hD, norm_sub_rev] at this
    linarith
  have ha1 : ‖a‖ ≤ 1.09 * D := by
    have := norm_add_le (a - (4 + p')) (4 + p')
    rw [sub_add_cancel] at this
    linarith
  have hbn : 0 < ‖b‖ := by linarith
  have hb0 : b ≠ 0 := norm_pos_iff.mp hbn
  have k2 : ‖a / b - (4 + p') / (4 - p')‖ ≤ 3.1 * h := by
    have e1 : a / b - (4 + p') / (4 - p') =
        ((a - (4 + p')) * (4 - p') - (4 + p') * (b - (4 - p'))) / (b * (4 - p')) := by
      field_simp; ring
    rw [e1, norm_div, norm_mul b, ← hD, div_le_iff₀ (by positivity)]
    refine (norm_sub_le _ _).trans ?_
    rw [norm_mul, norm_mul, ← hD]
    have hD0 : 0 ≤ D := by linarith
    have i1 := mul_le_mul_of_nonneg_right ea hD0
    have i2 := mul_le_mul hA2 eb (norm_nonneg _) (by positivity)
    have i3 : 3.1 * h * (0.998 * D * D) ≤ 3.1 * h * (‖b‖ * D) := by gcongr
    nlinarith [mul_nonneg h0 (mul_nonneg hD0 hD0)]
  -- the rounded quotient
  have hb2 : 9 ≤ ‖b‖ ^ 2 := by nlinarith
  have k3 := S.flDiv (a := a) (b := b) (B := 1.1 * ‖b‖ ^ 2) (by linarith) hr (by linarith) (by nlinarith)
    (by linarith) (by rw [mul_div_assoc, div_self (by positivity)]; linarith)
  rw [mul_div_assoc, div_self (by positivity)] at k3
  have t1 := norm_add_le (Rounded.flDiv r a b - a / b) (a / b - (4 + p') / (4 - p'))
  have t2 := norm_add_le (Rounded.flDiv r a b - (4 + p') / (4 - p')) ((4 + p') / (4 - p') - (4 + p) / (4 - p))
  rw [sub_add_sub_cancel] at t1 t2
  linarith

end SciRs.Rounded

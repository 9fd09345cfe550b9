import Verif.Lemmas.Rounded.BandGeometry

/-! # Rounding errors of the poles of band-pass and band-stop designs -/

namespace SciRs.Rounded

open SciRs.Spec SciRs.Design

variable {r : Rounding} {m : Libm} {h σ : ℝ}

theorem Small.anti (S : Small r h σ) {τ : ℝ} (hτ : σ ≤ τ) : Small r h τ :=
  ⟨S.u_le, S.t_le.trans (mul_le_mul_of_nonneg_left hτ (sub_nonneg.mpr S.u_le)), lt_of_lt_of_le S.pos hτ⟩

/-- Half of the computed bandwidth. -/
theorem half_err {w0 w1 v0 v1 H M : ℝ} (S : Small r h σ) (hhH : h ≤ H) (hH : H ≤ 1 / 1024) (h0 : 0 < w0)
    (h01 : w0 < w1) (hM : M = (w0 + w1) / 2) (hσ : σ ≤ M) (e0 : |v0 - w0| ≤ 9.7 * H * w0)
    (e1 : |v1 - w1| ≤ 9.7 * H * w1) : |r.rnd (r.rnd (v1 - v0) / 2) - (w1 - w0) / 2| ≤ 12 * H * M := by
  have hh0 := S.h_nonneg
  have hM0 : 0 < M := lt_of_lt_of_le S.pos hσ
  have hHM : H * M ≤ 1 / 1024 * M := mul_le_mul_of_nonneg_right hH hM0.le
  have hhM : h * M ≤ H * M := mul_le_mul_of_nonneg_right hhH hM0.le
  have hhM0 : 0 ≤ h * M := by positivity
  have a1 : |(v1 - v0) - (w1 - w0)| ≤ 19.4 * (H * M) := by
    have : (v1 - v0) - (w1 - w0) = (v1 - w1) - (v0 - w0) := by ring
    rw [this]
    have := abs_sub (v1 - w1) (v0 - w0)
    have : 9.7 * H * w0 + 9.7 * H * w1 = 19.4 * (H * M) := by rw [hM]; ring
    linarith
  have a2 : |v1 - v0| ≤ 2.02 * M := by
    have := abs_add_le ((v1 - v0) - (w1 - w0)) (w1 - w0)
    rw [sub_add_cancel, abs_of_pos (by linarith : 0 < w1 - w0)] at this
    linarith
  have a3 := S.fl a2 (by linarith)
  obtain ⟨b, hb⟩ : ∃ b, b = r.rnd (v1 - v0) := ⟨_, rfl⟩
  rw [← hb] at a3 ⊢
  have a4 := abs_add_le (b - (v1 - v0)) ((v1 - v0) - (w1 - w0))
  rw [sub_add_sub_cancel] at a4
  have a5 : |b / 2 - (w1 - w0) / 2| ≤ 10.8 * (H * M) := by
    rw [← sub_div, abs_div, abs_of_pos (by norm_num : (0 : ℝ) < 2)]
    linarith
  have a6 : |b / 2| ≤ 1.02 * M := by
    have := abs_add_le (b / 2 - (w1 - w0) / 2) ((w1 - w0) / 2)
    rw [sub_add_cancel, abs_of_pos (by linarith : 0 < (w1 - w0) / 2)] at this
    linarith
  have a7 := S.fl a6 (by linarith)
  have a8 := abs_add_le (r.rnd (b / 2) - b / 2) (b / 2 - (w1 - w0) / 2)
  rw [sub_add_sub_cancel] at a8
  linarith

/-- The computed centre frequency. -/
theorem centre_err {w0 w1 v0 v1 H : ℝ} (S : Small r h σ) (hhH : h ≤ H) (hH : H ≤ 1 / 1024)
    (h0 : 0 < w0) (h01 : w0 < w1) (hσ : σ ≤ w0 * w1) (hσ1 : σ ≤ √(w0 * w1)) (e0 : |v0 - w0| ≤ 9.7 * H * w0)
    (e1 : |v1 - w1| ≤ 9.7 * H * w1) : |r.rnd √(r.rnd (v0 * v1)) - √(w0 * w1)| ≤ 22 * H * √(w0 * w1) := by
  have hh0 := S.h_nonneg
  have hH0 : 0 ≤ H := hh0.trans hhH
  obtain ⟨W, hW⟩ : ∃ W, W = w0 * w1 := ⟨_, rfl⟩
  have hW0 : 0 < W := by rw [hW]; exact mul_pos h0 (h0.trans h01)
  have hHW : H * W ≤ 1 / 1024 * W := mul_le_mul_of_nonneg_right hH hW0.le
  have hhW : h * W ≤ H * W := mul_le_mul_of_nonneg_right hhH hW0.le
  have hhW0 : 0 ≤ h * W := by positivity
  rw [← hW] at hσ hσ1 ⊢
  have a1 : |v0 * v1 - W| ≤ 19.5 * (H * W) := by
    have : v0 * v1 - W = (v0 - w0) * (v1 - w1) + ((v0 - w0) * w1 + w0 * (v1 - w1)) := by rw [hW]; ring
    rw [this]
    have i1 := abs_add_le ((v0 - w0) * (v1 - w1)) ((v0 - w0) * w1 + w0 * (v1 - w1))
    have i2 := abs_add_le ((v0 - w0) * w1) (w0 * (v1 - w1))
    rw [abs_mul, abs_mul, abs_of_pos h0, abs_of_pos (h0.trans h01)] at i2
    rw [abs_mul] at i1
    have i3 := mul_le_mul e0 e1 (abs_nonneg _) (by positivity)
    have i4 := mul_le_mul_of_nonneg_right e0 (h0.trans h01).le
    have i5 := mul_le_mul_of_nonneg_left e1 h0.le
    have i6 : 9.7 * H * w0 * (9.7 * H * w1) = 94.09 * (H * (H * W)) := by rw [hW]; ring
    have i7 : H * (H * W) ≤ 1 / 1024 * (H * W) := mul_le_mul_of_nonneg_right hH (by positivity)
    have i8 : 9.7 * H * w0 * w1 = 9.7 * (H * W) := by rw [hW]; ring
    have i9 : w0 * (9.7 * H * w1) = 9.7 * (H * W) := by rw [hW]; ring
    linarith
  have a2 : |v0 * v1| ≤ 1.02 * W := by
    have := abs_add_le (v0 * v1 - W) W
    rw [sub_add_cancel, abs_of_pos hW0] at this
    linarith
  have a3 := S.fl a2 (by linarith)
  obtain ⟨b, hb⟩ : ∃ b, b = r.rnd (v0 * v1) := ⟨_, rfl⟩
  rw [← hb] at a3 ⊢
  have a4 : |b - W| ≤ 20.6 * (H * W) := by
    have := abs_add_le (b - v0 * v1) (v0 * v1 - W)
    rw [sub_add_sub_cancel] at this
    linarith
  have hb0 : 0 ≤ b := by
    have := (abs_le.mp a4).1
    linarith
  obtain ⟨q, hq⟩ : ∃ q, q = √W := ⟨_, rfl⟩
  have hq0 : 0 < q := by rw [hq]; exact Real.sqrt_pos.mpr hW0
  have hqq : q * q = W := by rw [hq]; exact Real.mul_self_sqrt hW0.le
  have a5 := (sqrt_diff hb0 hW0).trans a4
  rw [← hq] at a5 hσ1 ⊢
  have a6 : |√b - q| ≤ 20.6 * (H * q) := by
    have : 20.6 * (H * W) = 20.6 * (H * q) * q := by rw [← hqq]; ring
    rw [this] at a5
    exact le_of_mul_le_mul_right a5 hq0
  have hHq : H * q ≤ 1 / 1024 * q := mul_le_mul_of_nonneg_right hH hq0.le
  have hhq : h * q ≤ H * q := mul_le_mul_of_nonneg_right hhH hq0.le
  have a7 : |√b| ≤ 1.03 * q := by
    have := abs_add_le (√b - q) q
    rw [sub_add_cancel, abs_of_pos hq0] at this
    linarith
  have a8 := S.fl a7 (by linarith)
  have a9 := abs_add_le (r.rnd √b - √b) (√b - q)
  rw [sub_add_sub_cancel] at a9
  have : 0 ≤ h * q := by positivity
  linarith

/-- Its square. -/
theorem centre_sq_err {W v H : ℝ} (S : Small r h σ) (hhH : h ≤ H) (hH : H ≤ 1 / 1024)
    (hm : m.Accurate r h) (hW0 : 0 < W) (hσ : σ ≤ W) (e : |v - √W| ≤ 22 * H * √W) :
    |m.powi v 2 - W| ≤ 51 * H * W := by
  have hh0 := S.h_nonneg
  have hH0 : 0 ≤ H := hh0.trans hhH
  obtain ⟨q, hq⟩ : ∃ q, q = √W := ⟨_, rfl⟩
  have hq0 : 0 < q := by rw [hq]; exact Real.sqrt_pos.mpr hW0
  have hqq : q * q = W := by rw [hq]; exact Real.mul_self_sqrt hW0.le
  rw [← hq] at e
  have hHq : H * q ≤ 1 / 1024 * q := mul_le_mul_of_nonneg_right hH hq0.le
  have hv0 : 0 < v := by
    have := (abs_le.mp e).1
    linarith
  have a1 := hm.powi v 2 hv0
  have hHW : 0 ≤ H * W := by positivity
  have hhW : h * W ≤ H * W := mul_le_mul_of_nonneg_right hhH hW0.le
  have a2 : |v ^ 2 - W| ≤ 44.5 * (H * W) := by
    have : v ^ 2 - W = (v - q) * (v - q) + 2 * q * (v - q) := by rw [← hqq]; ring
    rw [this]
    refine (abs_add_le _ _).trans ?_
    rw [abs_mul, abs_mul (2 * q), abs_of_pos (by positivity : 0 < 2 * q)]
    have i1 := mul_le_mul e e (abs_nonneg _) (by positivity)
    have i2 := mul_le_mul_of_nonneg_left e (by positivity : 0 ≤ 2 * q)
    have i3 : 22 * H * q * (22 * H * q) = 484 * (H * (H * W)) := by rw [← hqq]; ring
    have i4 : H * (H * W) ≤ 1 / 1024 * (H * W) := mul_le_mul_of_nonneg_right hH hHW
    have i5 : 2 * q * (22 * H * q) = 44 * (H * W) := by rw [← hqq]; ring
    linarith
  have a3 : v ^ 2 ≤ 1.05 * W := by
    have := (abs_le.mp a2).2
    have : H * W ≤ 1 / 1024 * W := mul_le_mul_of_nonneg_right hH hW0.le
    linarith
  have ht : r.t ≤ h * W := by
    have i1 := S.t_le
    have i2 : (h - r.u) * σ ≤ h * σ := mul_le_mul_of_nonneg_right (by linarith [r.u_nonneg]) S.pos.le
    have i3 := mul_le_mul_of_nonneg_left hσ hh0
    linarith
  have a4 := mul_le_mul_of_nonneg_left a3 hh0
  have a5 := abs_add_le (m.powi v 2 - v ^ 2) (v ^ 2 - W)
  rw [sub_add_sub_cancel] at a5
  push_cast at a1
  linarith

/-- The computed prototype pole times half of the bandwidth. -/
theorem bp_err {b b' H M : ℝ} {ζ ζ' : ℂ} (S : Small r h σ) (hr : r.Nearest) (hhH : h ≤ H)
    (hH : H ≤ 1 / 1024) (hσ : σ ≤ M) (hb0 : 0 < b) (hbM : b ≤ M) (hζ : ‖ζ‖ = 1) (eζ : ‖ζ' - ζ‖ ≤ 16 * h)
    (eb : |b' - b| ≤ 12 * H * M) : ‖flMul r ζ' (b' : ℂ) - b * ζ‖ ≤ 42 * H * M := by
  have h0 := S.h_nonneg
  have hM0 : 0 < M := lt_of_lt_of_le S.pos hσ
  have hHM : H * M ≤ 1 / 1024 * M := mul_le_mul_of_nonneg_right hH hM0.le
  have hhM : h * M ≤ H * M := mul_le_mul_of_nonneg_right hhH hM0.le
  have hb' : |b'| ≤ 1.02 * M := by
    have := abs_add_le (b' - b) b
    rw [sub_add_cancel, abs_of_pos hb0] at this
    linarith
  have hζ' : ‖ζ'‖ ≤ 1.02 := by
    have := norm_add_le (ζ' - ζ) ζ
    rw [sub_add_cancel, hζ] at this
    linarith
  have hB : ‖ζ'‖ * |b'| ≤ 1.05 * M := by
    have := mul_le_mul hζ' hb' (abs_nonneg _) (by norm_num)
    linarith
  have k1 := S.flMul_real hr hB (by linarith [S.pos])
  have k2 : ‖ζ' * (b' : ℂ) - b * ζ‖ ≤ 16.4 * (h * M) + 12 * (H * M) := by
    have e1 : ζ' * (b' : ℂ) - b * ζ = (ζ' - ζ) * (b' : ℂ) + ((b' - b : ℝ) : ℂ) * ζ := by push_cast; ring
    rw [e1]
    refine (norm_add_le _ _).trans ?_
    rw [norm_mul, norm_mul, hζ, Complex.norm_real, Complex.norm_real, Real.norm_eq_abs, Real.norm_eq_abs]
    have := mul_le_mul eζ hb' (abs_nonneg _) (by positivity)
    have : 0 ≤ h * M := by positivity
    linarith
  have k3 := norm_add_le (flMul r ζ' (b' : ℂ) - ζ' * b') (ζ' * b' - b * ζ)
  rw [sub_add_sub_cancel] at k3
  have : 0 ≤ h * M := by positivity
  linarith

/-- The product with `-i` is exact. -/
theorem flMul_neg_I (hr : r.Nearest) {x : ℂ} (h1 : r.rnd x.re = x.re) (h2 : r.rnd x.im = x.im) :
    flMul r x (-Complex.I) = x * -Complex.I := by
  apply Complex.ext <;> simp [flMul, r.zero, hr.odd, h1, h2]

/-- Half of the bandwidth divided by the computed prototype pole. -/
theorem bs_err {b b' H M : ℝ} {ζ ζ' : ℂ} (S : Small r h σ) (hσ1 : σ ≤ 0.9) (hr : r.Nearest) (hhH : h ≤ H)
    (hH : H ≤ 1 / 1024) (hσ : σ ≤ 0.9 * M) (hb0 : 0 < b) (hbM : b ≤ M) (hζ : ‖ζ‖ = 1) (eζ : ‖ζ' - ζ‖ ≤ 16 * h)
    (eb : |b' - b| ≤ 12 * H * M) :
    ‖flMul r (flDiv r ⟨0, b'⟩ ζ') (-Complex.I) - b / ζ‖ ≤ 42 * H * M := by
  have h0 := S.h_nonneg
  have hM0 : 0 < M := by linarith [S.pos]
  have hHM : H * M ≤ 1 / 1024 * M := mul_le_mul_of_nonneg_right hH hM0.le
  have hhM : h * M ≤ H * M := mul_le_mul_of_nonneg_right hhH hM0.le
  have hhM0 : 0 ≤ h * M := by positivity
  have hb' : |b'| ≤ 1.02 * M := by
    have := abs_add_le (b' - b) b
    rw [sub_add_cancel, abs_of_pos hb0] at this
    linarith
  have z1 : ‖ζ'‖ ≤ 1.02 := by
    have := norm_add_le (ζ' - ζ) ζ
    rw [sub_add_cancel, hζ] at this
    linarith
  have z3 : 0.98 ≤ ‖ζ'‖ := by
    have := norm_sub_norm_le ζ ζ'
    rw [hζ, norm_sub_rev] at this
    linarith
  have z0 : 0 < ‖ζ'‖ := by linarith
  have hζ0 : ζ ≠ 0 := by rw [← norm_pos_iff, hζ]; norm_num
  have hζ0' : ζ' ≠ 0 := by rwa [← norm_pos_iff]
  have eI : (⟨0, b'⟩ : ℂ) = (b' : ℂ) * Complex.I := by apply Complex.ext <;> simp
  have nI : ‖(⟨0, b'⟩ : ℂ)‖ = |b'| := by
    rw [eI, norm_mul, Complex.norm_I, mul_one, Complex.norm_real, Real.norm_eq_abs]
  have hB : ‖(⟨0, b'⟩ : ℂ)‖ * ‖ζ'‖ ≤ 1.02 * M * ‖ζ'‖ := by
    rw [nI]; exact mul_le_mul_of_nonneg_right hb' z0.le
  have e1 : 1.02 * M * ‖ζ'‖ / ‖ζ'‖ ^ 2 = 1.02 * M / ‖ζ'‖ := by field_simp
  have e2 : 1.02 * M / ‖ζ'‖ ≤ 1.05 * M := by
    rw [div_le_iff₀ z0]; nlinarith
  have k1 := S.flDiv (by linarith) hr (by nlinarith) hB (by nlinarith) (by
    rw [e1, le_div_iff₀ z0]; nlinarith)
  rw [e1] at k1
  have k1' : ‖flDiv r ⟨0, b'⟩ ζ' - ⟨0, b'⟩ / ζ'‖ ≤ 11.6 * (h * M) := by
    have := mul_le_mul_of_nonneg_left e2 h0
    linarith
  obtain ⟨x, hx⟩ : ∃ x, x = flDiv r ⟨0, b'⟩ ζ' := ⟨_, rfl⟩
  have rx : r.rnd x.re = x.re ∧ r.rnd x.im = x.im := by
    rw [hx]; exact ⟨hr.idem _, hr.idem _⟩
  rw [← hx] at k1' ⊢
  rw [flMul_neg_I hr rx.1 rx.2]
  have k2 : ‖(b' : ℂ) / ζ' - b / ζ‖ ≤ 12.3 * (H * M) + 16.4 * (h * M) := by
    have e3 : (b' : ℂ) / ζ' - b / ζ = (((b' - b : ℝ) : ℂ) * ζ - b * (ζ' - ζ)) / (ζ' * ζ) := by
      push_cast; field_simp; ring
    rw [e3, norm_div, norm_mul, hζ, mul_one, div_le_iff₀ z0]
    refine (norm_sub_le _ _).trans ?_
    rw [norm_mul, norm_mul, hζ, Complex.norm_real, Complex.norm_real, Real.norm_eq_abs, Real.norm_of_nonneg hb0.le]
    have i1 := mul_le_mul hbM eζ (norm_nonneg _) hM0.le
    have i2 : (12.3 * (H * M) + 16.4 * (h * M)) * 0.98 ≤ (12.3 * (H * M) + 16.4 * (h * M)) * ‖ζ'‖ :=
      mul_le_mul_of_nonneg_left z3 (by linarith)
    linarith
  have e4 : x * -Complex.I - b / ζ = (x - ⟨0, b'⟩ / ζ') * -Complex.I + ((b' : ℂ) / ζ' - b / ζ) := by
    have e5 : (b' : ℂ) * Complex.I / ζ' * -Complex.I = -(Complex.I * Complex.I) * (b' / ζ') := by ring
    rw [eI, sub_mul, e5, Complex.I_mul_I]
    ring
  rw [e4]
  refine (norm_add_le _ _).trans ?_
  rw [norm_mul, norm_neg, Complex.norm_I, mul_one]
  linarith

/-- The computed number under the square root. -/
theorem disc_err {H M W W' : ℝ} {q q' : ℂ} (S : Small r h σ) (hr : r.Nearest) (hhH : h ≤ H) (hH : H ≤ 1 / 1024)
    (hM0 : 0 < M) (hσ : σ ≤ M ^ 2) (hq : ‖q‖ ≤ M) (eq : ‖q' - q‖ ≤ 42 * H * M) (hW0 : 0 < W) (hWM : W ≤ M ^ 2)
    (eW : |W' - W| ≤ 51 * H * W) :
    ‖(⟨r.rnd ((flMul r q' q').re - W'), r.rnd ((flMul r q' q').im - 0)⟩ : ℂ) - (q ^ 2 - (W : ℂ))‖ ≤
      150 * H * M ^ 2 := by
  have h0 := S.h_nonneg
  have hHM : H * M ≤ 1 / 1024 * M := mul_le_mul_of_nonneg_right hH hM0.le
  obtain ⟨B, hB⟩ : ∃ B, B = M ^ 2 := ⟨_, rfl⟩
  rw [← hB] at hσ hWM ⊢
  have hB0 : 0 < B := by rw [hB]; positivity
  have hhB : h * B ≤ H * B := mul_le_mul_of_nonneg_right hhH hB0.le
  have hHB : H * B ≤ 1 / 1024 * B := mul_le_mul_of_nonneg_right hH hB0.le
  have hhB0 : 0 ≤ h * B := by positivity
  have nq' : ‖q'‖ ≤ 1.05 * M := by
    have := norm_add_le (q' - q) q
    rw [sub_add_cancel] at this
    linarith
  have n2 : ‖q'‖ * ‖q'‖ ≤ 1.11 * B := by
    have := mul_le_mul nq' nq' (norm_nonneg _) (by positivity)
    have e : 1.05 * M * (1.05 * M) = 1.1025 * B := by rw [hB]; ring
    linarith
  have k1 := S.flMul (by linarith) hr n2 (by linarith)
  obtain ⟨y, hy⟩ : ∃ y, y = flMul r q' q' := ⟨_, rfl⟩
  rw [← hy] at k1 ⊢
  have k2 : ‖q' * q' - q ^ 2‖ ≤ 86.1 * (H * B) := by
    have e1 : q' * q' - q ^ 2 = (q' - q) * (q' + q) := by ring
    have e2 : ‖q' + q‖ ≤ 2.05 * M := (norm_add_le _ _).trans (by linarith)
    rw [e1, norm_mul]
    have := mul_le_mul eq e2 (norm_nonneg _) (mul_nonneg (by linarith) hM0.le)
    have e3 : 42 * H * M * (2.05 * M) = 86.1 * (H * B) := by rw [hB]; ring
    linarith
  have k3 : ‖((W' : ℂ)) - W‖ ≤ 51 * (H * B) := by
    rw [← Complex.ofReal_sub, Complex.norm_real, Real.norm_eq_abs]
    have := mul_le_mul_of_nonneg_left hWM (by linarith : 0 ≤ 51 * H)
    linarith
  have k4 : ‖(y - (W' : ℂ)) - (q ^ 2 - W)‖ ≤ 142.5 * (H * B) := by
    have e1 : (y - (W' : ℂ)) - (q ^ 2 - W) = (y - q' * q') + ((q' * q' - q ^ 2) - ((W' : ℂ) - W)) := by ring
    rw [e1]
    have i1 := norm_add_le (y - q' * q') ((q' * q' - q ^ 2) - ((W' : ℂ) - W))
    have i2 := norm_sub_le (q' * q' - q ^ 2) ((W' : ℂ) - W)
    linarith
  have k5 : ‖y - (W' : ℂ)‖ ≤ 2.2 * B := by
    have i1 := norm_add_le ((y - (W' : ℂ)) - (q ^ 2 - W)) (q ^ 2 - W)
    rw [sub_add_cancel] at i1
    have i2 := norm_sub_le (q ^ 2) (W : ℂ)
    rw [norm_pow, Complex.norm_real, Real.norm_of_nonneg hW0.le] at i2
    have i3 : ‖q‖ ^ 2 ≤ B := by rw [hB]; exact pow_le_pow_left₀ (norm_nonneg _) hq 2
    linarith
  have f1 : |y.re - W'| ≤ 2.2 * B := by
    have := Complex.abs_re_le_norm (y - (W' : ℂ))
    rw [Complex.sub_re, Complex.ofReal_re] at this
    linarith
  have f2 : |y.im - 0| ≤ 2.2 * B := by
    have := Complex.abs_im_le_norm (y - (W' : ℂ))
    rw [Complex.sub_im, Complex.ofReal_im] at this
    linarith
  have g := norm_le_of_parts (z := (⟨r.rnd (y.re - W'), r.rnd (y.im - 0)⟩ : ℂ) - (y - (W' : ℂ))) (B := h * (2.2 * B))
    (by rw [Complex.sub_re, Complex.sub_re, Complex.ofReal_re]; exact S.fl f1 (by linarith))
    (by rw [Complex.sub_im, Complex.sub_im, Complex.ofReal_im]; exact S.fl f2 (by linarith))
  have t := norm_add_le ((⟨r.rnd (y.re - W'), r.rnd (y.im - 0)⟩ : ℂ) - (y - (W' : ℂ))) ((y - (W' : ℂ)) - (q ^ 2 - W))
  rw [sub_add_sub_cancel] at t
  linarith

/-- The computed root of the quadratic equation. -/
theorem band_root_err {H M κ : ℝ} {q q' a a' : ℂ} (S : Small r h σ) (hhH : h ≤ H) (hm : m.Accurate r h)
    (hp : m.AccuratePolar r h) (hH : 300 * H ≤ κ ^ 2) (hH1 : H ≤ 1 / 1024)
    (hκ : 0 < κ) (hκ1 : κ ≤ 1) (hM0 : 0 < M) (hσ1 : σ ≤ 1) (hσM : σ ≤ M) (hσ : σ ≤ κ ^ 2 * M ^ 2 / 2) (hq : ‖q‖ ≤ M)
    (eq : ‖q' - q‖ ≤ 42 * H * M) (ha : κ ^ 2 * M ^ 2 ≤ ‖a‖) (ha2 : ‖a‖ ≤ M ^ 2) (ea : ‖a' - a‖ ≤ 150 * H * M ^ 2)
    (hs : SameSide a a') :
    ‖flSqrt r m a' - csqrt a‖ ≤ 170 * H * M / κ ∧
    ∀ x' : ℂ, ∀ x : ℂ, ‖x'‖ ≤ 1.2 * M → ‖x' - x‖ ≤ 170 * H * M / κ →
      ‖(⟨r.rnd (q'.re + x'.re), r.rnd (q'.im + x'.im)⟩ : ℂ) - (q + x)‖ ≤ 216 * H * M / κ := by
  have h0 := S.h_nonneg
  have hH0 : 0 ≤ H := h0.trans hhH
  obtain ⟨B, hB⟩ : ∃ B, B = M ^ 2 := ⟨_, rfl⟩
  have hB0 : 0 < B := by rw [hB]; positivity
  have hHM0 : 0 ≤ H * M := by positivity
  have hhM : h * M ≤ H * M := mul_le_mul_of_nonneg_right hhH hM0.le
  have hhM0 : 0 ≤ h * M := by positivity
  have hHMk : H * M ≤ H * M / κ := by
    rw [le_div_iff₀ hκ]
    nlinarith
  rw [← hB] at ha ha2 ea hσ
  have hHB : H * B ≤ 1 / 1024 * B := mul_le_mul_of_nonneg_right hH1 hB0.le
  have hHB2 : 300 * H * B ≤ κ ^ 2 * B := mul_le_mul_of_nonneg_right hH hB0.le
  have n1 : ‖a'‖ ≤ 1.15 * B := by
    have := norm_add_le (a' - a) a
    rw [sub_add_cancel] at this
    linarith
  have n2 : σ ≤ ‖a'‖ := by
    have := norm_sub_norm_le a a'
    rw [norm_sub_rev] at this
    linarith
  have n3 : √‖a'‖ ≤ 1.08 * M := by
    refine Real.sqrt_le_iff.mpr ⟨by positivity, ?_⟩
    have : (1.08 * M) ^ 2 = 1.1664 * B := by rw [hB]; ring
    linarith
  constructor
  · have k1 := S.flSqrt hσ1 (by linarith) hm hp n2
    have k2 := csqrt_diff hs
    have k3 : κ * M ≤ ‖csqrt a‖ := by
      rw [csqrt_norm]
      refine Real.le_sqrt_of_sq_le ?_
      have : (κ * M) ^ 2 = κ ^ 2 * B := by rw [hB]; ring
      linarith
    have k4 : ‖csqrt a' - csqrt a‖ ≤ 150 * (H * M / κ) := by
      have i1 : ‖csqrt a' - csqrt a‖ * (κ * M) ≤ 150 * H * B :=
        (mul_le_mul_of_nonneg_left k3 (norm_nonneg _)).trans (k2.trans ea)
      have i2 : 150 * H * B = 150 * (H * M / κ) * (κ * M) := by rw [hB]; field_simp
      rw [i2] at i1
      exact le_of_mul_le_mul_right i1 (by positivity)
    have k5 := norm_add_le (flSqrt r m a' - csqrt a') (csqrt a' - csqrt a)
    rw [sub_add_sub_cancel] at k5
    have k6 := mul_le_mul_of_nonneg_left n3 h0
    have e : 170 * H * M / κ = 170 * (H * M / κ) := by ring
    rw [e]
    linarith
  · intro x' x hx' ex
    have nq' : ‖q'‖ ≤ 1.05 * M := by
      have := norm_add_le (q' - q) q
      rw [sub_add_cancel] at this
      have : H * M ≤ 1 / 1024 * M := mul_le_mul_of_nonneg_right hH1 hM0.le
      linarith
    have ns := (norm_add_le q' x').trans (add_le_add nq' hx')
    have f1 : |q'.re + x'.re| ≤ 2.25 * M := by
      have := Complex.abs_re_le_norm (q' + x')
      rw [Complex.add_re] at this
      linarith
    have f2 : |q'.im + x'.im| ≤ 2.25 * M := by
      have := Complex.abs_im_le_norm (q' + x')
      rw [Complex.add_im] at this
      linarith
    have g := norm_le_of_parts (z := (⟨r.rnd (q'.re + x'.re), r.rnd (q'.im + x'.im)⟩ : ℂ) - (q' + x'))
      (B := h * (2.25 * M))
      (by rw [Complex.sub_re, Complex.add_re]; exact S.fl f1 (by linarith))
      (by rw [Complex.sub_im, Complex.add_im]; exact S.fl f2 (by linarith))
    have t := norm_add_le ((⟨r.rnd (q'.re + x'.re), r.rnd (q'.im + x'.im)⟩ : ℂ) - (q' + x')) ((q' - q) + (x' - x))
    have e1 : (⟨r.rnd (q'.re + x'.re), r.rnd (q'.im + x'.im)⟩ : ℂ) - (q' + x') + ((q' - q) + (x' - x)) =
        (⟨r.rnd (q'.re + x'.re), r.rnd (q'.im + x'.im)⟩ : ℂ) - (q + x) := by ring
    rw [e1] at t
    have t2 := norm_add_le (q' - q) (x' - x)
    have e2 : 216 * H * M / κ = 216 * (H * M / κ) := by ring
    have e3 : 170 * H * M / κ = 170 * (H * M / κ) := by ring
    rw [e2]
    rw [e3] at ex
    linarith

set_option maxHeartbeats 800000 in
/-- The bilinear transformation of a number with an absolute error. -/
theorem bilinear_abs_err {ε : ℝ} {p p' : ℂ} (S : Small r h σ) (hσ1 : σ ≤ 1) (hr : r.Nearest) (hh : h ≤ 1 / 1024)
    (hp : p.re ≤ 0) (ep : ‖p' - p‖ ≤ ε) (hε : ε ≤ 0.14) :
    ‖flBilinear r p' - (4 + p) / (4 - p)‖ ≤ 0.52 * ε + 16 * h := by
  have h0 := S.h_nonneg
  have hε0 : 0 ≤ ε := (norm_nonneg _).trans ep
  obtain ⟨L, hL⟩ : ∃ L, L = ‖4 - p‖ := ⟨_, rfl⟩
  have hL2 : 16 + ‖p‖ ^ 2 ≤ L ^ 2 := by
    rw [hL, norm_four_sub]; linarith
  have hL0 : 0 ≤ L := by rw [hL]; exact norm_nonneg _
  have hn := norm_nonneg p
  have hL4 : 4 ≤ L := by nlinarith
  have ha : ‖4 + p‖ ≤ L := by
    have : ‖4 + p‖ ^ 2 ≤ L ^ 2 := by
      rw [hL, Complex.sq_norm, Complex.sq_norm, Complex.normSq_apply, Complex.normSq_apply]
      simp
      nlinarith
    exact (sq_le_sq₀ (norm_nonneg _) hL0).mp this
  have ep3 : ‖p' - p‖ ≤ 0.0372 * L := by linarith
  obtain ⟨D, hD⟩ : ∃ D, D = ‖4 - p'‖ := ⟨_, rfl⟩
  have hD1 : 0.9628 * L ≤ D := by
    have := norm_sub_norm_le (4 - p) (4 - p')
    rw [← hL, ← hD, show (4 : ℂ) - p - (4 - p') = p' - p by ring] at this
    linarith
  have hD4 : 3.8 ≤ D := by linarith
  have hA1 : ‖4 + p'‖ ≤ 1.0372 * L := by
    have := norm_add_le (4 + p) (p' - p)
    rw [show (4 : ℂ) + p + (p' - p) = 4 + p' by ring] at this
    linarith
  have hA2 : ‖4 + p'‖ ≤ 1.08 * D := by linarith
  have b0 : (4 : ℂ) - p' ≠ 0 := by rw [← norm_pos_iff, ← hD]; linarith
  have b1 : (4 : ℂ) - p ≠ 0 := by rw [← norm_pos_iff, ← hL]; linarith
  -- the exact map
  have k1 : ‖(4 + p') / (4 - p') - (4 + p) / (4 - p)‖ ≤ 0.52 * ε := by
    have e1 : (4 + p') / (4 - p') - (4 + p) / (4 - p) = 8 * (p' - p) / ((4 - p') * (4 - p)) := by
      field_simp; ring
    rw [e1, norm_div, norm_mul, norm_mul, ← hD, ← hL, div_le_iff₀ (by positivity)]
    have : ‖(8 : ℂ)‖ = 8 := by simp
    rw [this]
    have i0 : 15.4 ≤ D * L := by nlinarith
    have i1 := mul_le_mul_of_nonneg_left i0 (by positivity : 0 ≤ 0.52 * ε)
    linarith
  -- the rounded sum and difference
  rw [flBilinear, show (2 : ℝ) * 2 = 4 by norm_num, rnd_four hr]
  obtain ⟨a, hadef⟩ : ∃ a : ℂ, a = ⟨r.rnd (4 + p'.re), r.rnd (0 + p'.im)⟩ := ⟨_, rfl⟩
  obtain ⟨b, hbdef⟩ : ∃ b : ℂ, b = ⟨r.rnd (4 - p'.re), r.rnd (0 - p'.im)⟩ := ⟨_, rfl⟩
  rw [← hadef, ← hbdef]
  have ea : ‖a - (4 + p')‖ ≤ 1.53 * h * D := by
    have r1 : |4 + p'.re| ≤ 1.08 * D := by
      have := Complex.abs_re_le_norm (4 + p')
      simp at this
      linarith
    have r2 : |0 + p'.im| ≤ 1.08 * D := by
      have := Complex.abs_im_le_norm (4 + p')
      simp at this
      rw [zero_add]
      linarith
    have k := norm_le_of_parts (z := a - (4 + p')) (B := h * (1.08 * D))
      (by rw [hadef]; simpa using S.fl r1 (by linarith)) (by rw [hadef]; simpa using S.fl r2 (by linarith))
    nlinarith [mul_nonneg h0 (by linarith : 0 ≤ D)]
  have eb : ‖b - (4 - p')‖ ≤ 1.42 * h * D := by
    have r1 : |4 - p'.re| ≤ D := by
      have := Complex.abs_re_le_norm (4 - p')
      simp at this
      linarith
    have r2 : |0 - p'.im| ≤ D := by
      have := Complex.abs_im_le_norm (4 - p')
      simp at this
      rw [zero_sub, abs_neg]
      linarith
    have k := norm_le_of_parts (z := b - (4 - p')) (B := h * D)
      (by rw [hbdef]; simpa using S.fl r1 (by linarith)) (by rw [hbdef]; simpa [sub_eq_add_neg] using S.fl r2 (by linarith))
    nlinarith [mul_nonneg h0 (by linarith : 0 ≤ D)]
  have hhD : h * D ≤ 1 / 1024 * D := mul_le_mul_of_nonneg_right hh (by linarith)
  have hb1 : 0.998 * D ≤ ‖b‖ := by
    have := norm_sub_norm_le (4 - p') b
    rw [← hD, norm_sub_rev] at this
    linarith
  have ha1 : ‖a‖ ≤ 1.09 * D := by
    have := norm_add_le (a - (4 + p')) (4 + p')
    rw [sub_add_cancel] at this
    linarith
  have hbn : 0 < ‖b‖ := by linarith
  have hb0 : b ≠ 0 := norm_pos_iff.mp hbn
  have k2 : ‖a / b - (4 + p') / (4 - p')‖ ≤ 3.1 * h := by
    have e1 : a / b - (4 + p') / (4 - p') =
        ((a - (4 + p')) * (4 - p') - (4 + p') * (b - (4 - p'))) / (b * (4 - p')) := by
      field_simp; ring
    rw [e1, norm_div, norm_mul b, ← hD, div_le_iff₀ (by positivity)]
    refine (norm_sub_le _ _).trans ?_
    rw [norm_mul, norm_mul, ← hD]
    have hD0 : 0 ≤ D := by linarith
    have i1 := mul_le_mul_of_nonneg_right ea hD0
    have i2 := mul_le_mul hA2 eb (norm_nonneg _) (by positivity)
    have i3 : 3.1 * h * (0.998 * D * D) ≤ 3.1 * h * (‖b‖ * D) := by gcongr
    nlinarith [mul_nonneg h0 (mul_nonneg hD0 hD0)]
  -- the rounded quotient
  have hb2 : 9 ≤ ‖b‖ ^ 2 := by nlinarith
  have k3 := S.flDiv (a := a) (b := b) (B := 1.1 * ‖b‖ ^ 2) (by linarith) hr (by linarith) (by nlinarith)
    (by linarith) (by rw [mul_div_assoc, div_self (by positivity)]; linarith)
  rw [mul_div_assoc, div_self (by positivity)] at k3
  have t1 := norm_add_le (Rounded.flDiv r a b - a / b) (a / b - (4 + p') / (4 - p'))
  have t2 := norm_add_le (Rounded.flDiv r a b - (4 + p') / (4 - p')) ((4 + p') / (4 - p') - (4 + p) / (4 - p))
  rw [sub_add_sub_cancel] at t1 t2
  linarith

end SciRs.Rounded

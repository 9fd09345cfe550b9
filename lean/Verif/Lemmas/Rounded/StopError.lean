import Verif.Lemmas.Rounded.StopDesign
import Verif.Lemmas.Rounded.ButterPoles

/-! # Chebyshev II low-pass designs: distances from the unit circle and rounding errors -/

namespace SciRs.Rounded

open SciRs.Spec SciRs.Design

variable {r : Rounding} {m : Libm} {h : ℝ}

theorem exWarp_pos {e : ℝ} (h0 : 0 < e) (h1 : e < 1) : 0 < exWarp e := by
  have hpi := Real.pi_pos
  rw [exWarp]
  have : 0 < Real.tan (Real.pi * e / 2) := Real.tan_pos_of_pos_of_lt_pi_div_two (by positivity) (by nlinarith)
  linarith

/-- The exact poles keep their distance from the unit circle and from the real axis. -/
theorem stop_margin {n : ℕ} (hn : n ≠ 0) {rs : ℝ} (hμ : 0 < stopMu n rs) {e : ℝ} (h0 : 0 < e) (h1 : e < 1)
    {j : ℤ} (hj : j ∈ stepRange (-(n : ℤ) + 1) n) {X : ℝ} (hX : X = stopMargin n rs e) :
    (exSPole n rs e j).re ≤ 0 ∧
    ‖(4 + exSPole n rs e j) / (4 - exSPole n rs e j)‖ ≤ 1 - X / 2 ∧
    (j ≠ 0 → X / 2 ≤ |((4 + exSPole n rs e j) / (4 - exSPole n rs e j)).im|) := by
  rw [stopMargin] at hX
  have hn0 : (0 : ℝ) < n := by exact_mod_cast Nat.pos_of_ne_zero hn
  have hw0 := exWarp_pos h0 h1
  have hR := exWarp_ratio h0 h1
  obtain ⟨-, -, c1, c2⟩ := angle_facts hn hj
  obtain ⟨b1, b2⟩ := exStop_bounds hμ j
  have z1 : (exStop n rs j).re = -(Real.sinh (stopMu n rs) * Real.cos (Real.pi * j / (2 * n))) := rfl
  have z2 : (exStop n rs j).im = -(Real.cosh (stopMu n rs) * Real.sin (Real.pi * j / (2 * n))) := rfl
  have hS0 : 0 < Real.sinh (stopMu n rs) := Real.sinh_pos_iff.mpr hμ
  have hSC : Real.sinh (stopMu n rs) ≤ Real.cosh (stopMu n rs) := (Real.sinh_lt_cosh _).le
  have hC1 := Real.one_le_cosh (stopMu n rs)
  have hz : 0 < ‖exStop n rs j‖ := lt_of_lt_of_le hS0 b1
  unfold exSPole
  generalize exStop n rs j = ζ at *
  generalize exWarp e = w at *
  generalize Real.cos (Real.pi * j / (2 * n)) = c at *
  generalize Real.sin (Real.pi * j / (2 * n)) = s at *
  generalize Real.sinh (stopMu n rs) = Sh at *
  generalize Real.cosh (stopMu n rs) = C at *
  have hz0 : ζ ≠ 0 := norm_pos_iff.mp hz
  have hsq : Complex.normSq ζ = ‖ζ‖ ^ 2 := (Complex.sq_norm ζ).symm
  have h4 : ‖(4 : ℂ)‖ = 4 := by simp
  obtain ⟨q, hq⟩ : ∃ q, q = ‖ζ‖ ^ 2 := ⟨_, rfl⟩
  have q0 : 0 < q := by rw [hq]; positivity
  have hPd : (w : ℂ) * (1 / ζ) = w / ζ := by rw [mul_one_div]
  rw [hPd]
  have p1 : ((w : ℂ) / ζ).re = -(w * Sh * c) / q := by
    rw [Complex.div_re, hsq, z1, hq]; simp; ring
  have p2 : |((w : ℂ) / ζ).im| = w * C * |s| / q := by
    rw [Complex.div_im, hsq, z2, hq]
    simp only [Complex.ofReal_im, Complex.ofReal_re, zero_mul, zero_div, zero_sub, abs_neg, abs_div, abs_mul,
      abs_of_pos hw0, abs_pow, abs_norm, abs_of_pos (by linarith : 0 < C)]
    ring
  have p3 : q * ‖4 - (w : ℂ) / ζ‖ ^ 2 ≤ (C * (4 + w)) ^ 2 := by
    rw [hq, ← mul_pow, ← norm_mul]
    refine pow_le_pow_left₀ (norm_nonneg _) ?_ 2
    rw [mul_sub, mul_div_cancel₀ _ hz0]
    refine (norm_sub_le _ _).trans ?_
    rw [norm_mul, Complex.norm_real, Real.norm_of_nonneg hw0.le, h4]
    nlinarith
  obtain ⟨P, hP⟩ : ∃ P, P = (w : ℂ) / ζ := ⟨_, rfl⟩
  rw [← hP] at p1 p2 p3 ⊢
  have c0 : 0 ≤ c := le_trans (by positivity) c1
  have hre : P.re ≤ 0 := by
    rw [p1]; exact div_nonpos_of_nonpos_of_nonneg (by have : 0 ≤ w * Sh * c := by positivity
                                                      linarith) q0.le
  obtain ⟨D, hD⟩ : ∃ D, D = ‖4 - P‖ ^ 2 := ⟨_, rfl⟩
  rw [← hD] at p3
  have hDe : D = (4 - P.re) * (4 - P.re) + P.im * P.im := by
    rw [hD, Complex.sq_norm, Complex.normSq_apply]; simp
  have hD0 : 0 < D := by rw [hDe]; nlinarith
  have h1e : 0 < 1 - e := by linarith
  have hX0 : 0 ≤ X := by rw [hX]; positivity
  have key : ∀ d : ℝ, Sh * (1 / n) ≤ d → X ≤ 16 * w * d / (q * D) := by
    intro d hd
    have hd0 : 0 < d := lt_of_lt_of_le (by positivity) hd
    have s1 : 16 * w * d / (C * (4 + w)) ^ 2 ≤ 16 * w * d / (q * D) := by gcongr
    refine le_trans ?_ s1
    have hC0 : 0 < C := by linarith
    have s2 : 16 * w * d / (C * (4 + w)) ^ 2 = 4 * (4 * w / (4 + w) ^ 2) * d / C ^ 2 := by
      field_simp; ring
    rw [s2, hX]
    have s3 : 4 * (e * (1 - e) / 4) * (Sh * (1 / n)) / C ^ 2 ≤
        4 * (4 * w / (4 + w) ^ 2) * d / C ^ 2 := by gcongr
    refine le_trans (le_of_eq ?_) s3
    field_simp
  refine ⟨hre, ?_, fun hj0 => ?_⟩
  · have hsq : ‖(4 + P) / (4 - P)‖ ^ 2 = 1 - 16 * w * (Sh * c) / (q * D) := by
      have e1 : 16 * w * (Sh * c) / (q * D) = -16 * P.re / D := by rw [p1]; field_simp
      rw [e1, norm_div, div_pow, ← hD, eq_sub_iff_add_eq, ← add_div, div_eq_one_iff_eq hD0.ne', hDe, Complex.sq_norm,
        Complex.normSq_apply]
      simp
      ring
    have k := key (Sh * c) (mul_le_mul_of_nonneg_left c1 hS0.le)
    have hN := norm_nonneg ((4 + P) / (4 - P))
    obtain ⟨N, hN'⟩ : ∃ N, N = ‖(4 + P) / (4 - P)‖ := ⟨_, rfl⟩
    rw [← hN'] at hsq hN ⊢
    nlinarith [sq_nonneg (N - 1)]
  · have him : ((4 + P) / (4 - P)).im = 8 * P.im / D := by
      have : Complex.normSq (4 - P) = D := by rw [hD, Complex.sq_norm]
      rw [Complex.div_im, this]
      simp
      ring
    rw [him, abs_div, abs_of_pos hD0, abs_mul, p2, abs_of_pos (by norm_num : (0 : ℝ) < 8)]
    have k := key (C * |s|) (mul_le_mul hSC (c2 hj0) (by positivity) (by linarith))
    have e3 : 8 * (w * C * |s| / q) / D = 16 * w * (C * |s|) / (q * D) / 2 := by field_simp; ring
    rw [e3]
    linarith

theorem exSZero_parts (n : ℕ) (e : ℝ) (j : ℤ) : (exSZero n e j).re = 0 ∧
    (exSZero n e j).im = exWarp e / Real.sin (Real.pi * j / (2 * n)) := by
  rw [exSZero, exZero]
  generalize Real.sin (Real.pi * j / (2 * n)) = s
  rw [show (exWarp e : ℂ) * (Complex.I / (s : ℝ)) = ((exWarp e / s : ℝ) : ℂ) * Complex.I by push_cast; ring]
  simp

/-- The exact zeros lie on the unit circle and keep their distance from the real axis. -/
theorem stop_zero_margin {n : ℕ} (hn : n ≠ 0) {rs : ℝ} (hμ : 0 < stopMu n rs) {e : ℝ} (h0 : 0 < e) (h1 : e < 1)
    {j : ℤ} (hj : j ∈ stepRange (-(n : ℤ) + 1) n) (hj0 : j ≠ 0) {X : ℝ} (hX : X = stopMargin n rs e) :
    ‖(4 + exSZero n e j) / (4 - exSZero n e j)‖ = 1 ∧
    X / 2 ≤ |((4 + exSZero n e j) / (4 - exSZero n e j)).im| := by
  have hn0 : (0 : ℝ) < n := by exact_mod_cast Nat.pos_of_ne_zero hn
  have hw0 := exWarp_pos h0 h1
  have hR := exWarp_ratio h0 h1
  have h1e : 0 < 1 - e := by linarith
  obtain ⟨p1, p2⟩ := exSZero_parts n e j
  obtain ⟨-, -, -, c2⟩ := angle_facts hn hj
  have c2 := c2 hj0
  have c3 := Real.abs_sin_le_one (Real.pi * j / (2 * n))
  have hXe : X ≤ e * (1 - e) / n := by
    have hS0 : 0 < Real.sinh (stopMu n rs) := Real.sinh_pos_iff.mpr hμ
    have hSC : Real.sinh (stopMu n rs) ≤ Real.cosh (stopMu n rs) := (Real.sinh_lt_cosh _).le
    have hC1 := Real.one_le_cosh (stopMu n rs)
    have hCC : Real.cosh (stopMu n rs) ≤ Real.cosh (stopMu n rs) ^ 2 := le_self_pow₀ hC1 two_ne_zero
    rw [hX, stopMargin, div_le_div_iff₀ (by positivity) hn0]
    have := mul_le_mul_of_nonneg_left (hSC.trans hCC) (by positivity : 0 ≤ e * (1 - e) * n)
    linarith
  generalize exSZero n e j = P at *
  generalize exWarp e = w at *
  generalize Real.sin (Real.pi * j / (2 * n)) = s at *
  have hs0 : 0 < |s| := lt_of_lt_of_le (by positivity) c2
  have hs : s ≠ 0 := abs_pos.mp hs0
  obtain ⟨D, hD⟩ : ∃ D, D = ‖4 - P‖ ^ 2 := ⟨_, rfl⟩
  have hDe : D = 16 + (w / s) ^ 2 := by
    rw [hD, Complex.sq_norm, Complex.normSq_apply]; simp [p1, p2]; ring
  have hD0 : 0 < D := by rw [hDe]; positivity
  constructor
  · have : ‖4 + P‖ ^ 2 = ‖4 - P‖ ^ 2 := by
      rw [Complex.sq_norm, Complex.sq_norm, Complex.normSq_apply, Complex.normSq_apply]; simp [p1]
    have := (sq_eq_sq₀ (norm_nonneg _) (norm_nonneg _)).mp this
    rw [norm_div, this, div_self]
    intro h
    rw [h] at hD
    rw [hD] at hD0
    norm_num at hD0
  · have him : ((4 + P) / (4 - P)).im = 8 * P.im / D := by
      have : Complex.normSq (4 - P) = D := by rw [hD, Complex.sq_norm]
      rw [Complex.div_im, this]
      simp
      ring
    rw [him, abs_div, abs_of_pos hD0, abs_mul, p2, abs_of_pos (by norm_num : (0 : ℝ) < 8), abs_div, abs_of_pos hw0]
    have e1 : 8 * (w / |s|) / D = 8 * w * |s| / (16 * |s| ^ 2 + w ^ 2) := by
      rw [hDe, div_pow, ← sq_abs s]
      field_simp
    have e2 : 16 * |s| ^ 2 + w ^ 2 ≤ (4 + w) ^ 2 := by nlinarith
    have e3 : 8 * w * (1 / n) / (4 + w) ^ 2 ≤ 8 * w * |s| / (16 * |s| ^ 2 + w ^ 2) := by gcongr
    rw [e1]
    refine le_trans ?_ e3
    have e4 : 8 * w * (1 / n) / (4 + w) ^ 2 = 2 * (4 * w / (4 + w) ^ 2) / n := by field_simp; ring
    rw [e4]
    have e5 : 2 * (e * (1 - e) / 4) / n ≤ 2 * (4 * w / (4 + w) ^ 2) / n := by gcongr
    refine le_trans ?_ e5
    rw [show 2 * (e * (1 - e) / 4) / n = e * (1 - e) / n / 2 by ring]
    linarith

/-- The computed zero of the prototype. -/
theorem zero_err (S : Small r h h) (hr : r.Nearest) (hm : m.Accurate r h) {n : ℕ} (hn : n ≠ 0) {H : ℝ}
    (hH : 3 * (n * h) ≤ H) (hH1 : H ≤ 1 / 1024) (hhn : 4 * (h * n ^ 2) ≤ 1) {j : ℤ}
    (hj : j ∈ stepRange (-(n : ℤ) + 1) n) (hj0 : j ≠ 0) :
    ‖flZero r m n j - exZero n j‖ ≤ 16 * H * ‖exZero n j‖ := by
  have h0 := S.h_nonneg
  have hn1 : (1 : ℝ) ≤ n := by exact_mod_cast Nat.one_le_iff_ne_zero.mpr hn
  have hn0 : (0 : ℝ) < n := by linarith
  obtain ⟨ja, jb, -, js⟩ := angle_facts hn hj
  have c2 := js hj0
  have hhn1 : h ≤ n * h := le_mul_of_one_le_left h0 hn1
  have hhn2 : h ≤ 1 / n := by
    rw [le_div_iff₀ hn0]
    have : h * n ≤ h * n ^ 2 := mul_le_mul_of_nonneg_left (le_self_pow₀ hn1 two_ne_zero) h0
    linarith
  have ea := zangle_err S (by linarith) hm (Nat.one_le_iff_ne_zero.mpr hn) hhn2 ja
  have hth : |flZAngle r m n j| ≤ 4 := by
    have := abs_add_le (flZAngle r m n j - Real.pi * j / (2 * n)) (Real.pi * j / (2 * n))
    rw [sub_add_cancel] at this
    linarith
  have c1 := hm.sin _ hth
  have c4 := Real.abs_sin_sub_sin_le (flZAngle r m n j) (Real.pi * j / (2 * n))
  have c6 := Real.abs_sin_le_one (Real.pi * j / (2 * n))
  unfold flZero exZero
  generalize Real.pi * (j : ℝ) / (2 * n) = x at *
  generalize flZAngle r m n j = x' at *
  have d4 : |m.sin x' - Real.sin x| ≤ 12 * h := by
    have := abs_add_le (m.sin x' - Real.sin x') (Real.sin x' - Real.sin x)
    rw [sub_add_sub_cancel] at this
    linarith
  generalize m.sin x' = s' at *
  generalize Real.sin x = s at *
  have hs0 : 0 < |s| := lt_of_lt_of_le (by positivity) c2
  have hs : s ≠ 0 := abs_pos.mp hs0
  have hns : 1 ≤ n * |s| := by
    rw [div_le_iff₀ hn0] at c2; linarith
  have d5 : |s' - s| ≤ 12 * (n * h) * |s| := by
    have := mul_le_mul_of_nonneg_left hns h0
    linarith
  have d6 : 12 * (n * h) * |s| ≤ 0.01 * |s| := mul_le_mul_of_nonneg_right (by linarith) hs0.le
  have d7 : 0.99 * |s| ≤ |s'| := by
    have := abs_sub_abs_le_abs_sub s s'
    rw [abs_sub_comm] at this
    linarith
  have d8 : |s'| ≤ 1.01 := by
    have := abs_add_le (s' - s) s
    rw [sub_add_cancel] at this
    linarith
  have hs0' : 0 < |s'| := by linarith
  have hs' : s' ≠ 0 := abs_pos.mp hs0'
  have hsn : 1 / n ^ 2 ≤ |s| ^ 2 := by
    have := pow_le_pow_left₀ (by positivity) c2 2
    rwa [div_pow, one_pow] at this
  have hhs : 4 * h ≤ |s| ^ 2 := by
    refine le_trans ?_ hsn
    rw [le_div_iff₀ (by positivity)]
    linarith
  have hss : |s| ^ 2 ≤ |s| := by
    have := mul_le_mul_of_nonneg_left c6 hs0.le
    rw [sq]; linarith
  have k1 := S.flDiv (a := Complex.I) (b := (s' : ℂ)) (B := |s'|) (by linarith) hr
    (by rw [Complex.norm_real, Real.norm_eq_abs]
        have := mul_le_mul d7 d7 (by positivity) hs0'.le
        nlinarith)
    (by rw [Complex.norm_I, Complex.norm_real, Real.norm_eq_abs, one_mul]) (by linarith)
    (by rw [Complex.norm_real, Real.norm_eq_abs, le_div_iff₀ (by positivity)]
        have i1 := mul_le_mul_of_nonneg_right d8 hs0'.le
        have i2 : h * |s'| ^ 2 ≤ 0.5 * |s'| ^ 2 := mul_le_mul_of_nonneg_right (by linarith) (sq_nonneg _)
        rw [← sq] at i1
        linarith)
  rw [Complex.norm_real, Real.norm_eq_abs] at k1
  have e1 : |s'| / |s'| ^ 2 = 1 / |s'| := by field_simp
  rw [e1] at k1
  have e2 : 1 / |s'| ≤ 1.02 * (1 / |s|) := by
    rw [div_le_iff₀ hs0', mul_one_div, div_mul_eq_mul_div, le_div_iff₀ hs0]
    linarith
  have k2 : ‖Complex.I / (s' : ℂ) - Complex.I / (s : ℂ)‖ ≤ 12.3 * (n * h) * (1 / |s|) := by
    have hsc : (s : ℂ) ≠ 0 := by exact_mod_cast hs
    have hsc' : (s' : ℂ) ≠ 0 := by exact_mod_cast hs'
    have e3 : Complex.I / (s' : ℂ) - Complex.I / (s : ℂ) = Complex.I * (((s - s' : ℝ)) : ℂ) / ((s' : ℂ) * s) := by
      push_cast; field_simp
    rw [e3, norm_div, norm_mul, norm_mul, Complex.norm_I, Complex.norm_real, Complex.norm_real, Complex.norm_real,
      Real.norm_eq_abs, Real.norm_eq_abs, Real.norm_eq_abs, one_mul, abs_sub_comm, div_le_iff₀ (by positivity)]
    have i3 : 12.3 * (n * h) * (1 / |s|) * (|s'| * |s|) = 12.3 * (n * h) * |s'| := by field_simp
    rw [i3]
    have := mul_le_mul_of_nonneg_left d7 (by positivity : 0 ≤ 12.3 * (n * h))
    have : 0 ≤ n * h * |s| := by positivity
    linarith
  have k3 := norm_add_le (Rounded.flDiv r Complex.I (s' : ℂ) - Complex.I / (s' : ℂ)) (Complex.I / (s' : ℂ) - Complex.I / (s : ℂ))
  rw [sub_add_sub_cancel] at k3
  have e4 : -(starRingEnd ℂ) (Rounded.flDiv r Complex.I (s' : ℂ)) - Complex.I / (s : ℂ) =
      -(starRingEnd ℂ) (Rounded.flDiv r Complex.I (s' : ℂ) - Complex.I / (s : ℂ)) := by
    rw [map_sub, map_div₀, Complex.conj_I, Complex.conj_ofReal]; ring
  rw [e4, norm_neg, RCLike.norm_conj, norm_div, Complex.norm_I, Complex.norm_real, Real.norm_eq_abs]
  have hq : 0 < 1 / |s| := by positivity
  have i2 := mul_le_mul_of_nonneg_left e2 h0
  have i3 := mul_le_mul_of_nonneg_right hhn1 hq.le
  have i4 := mul_le_mul_of_nonneg_right hH hq.le
  have i5 : 0 ≤ n * h * (1 / |s|) := by positivity
  linarith

theorem stopMargin_mul_le {n : ℕ} (hn : n ≠ 0) {rs e : ℝ} (h0 : 0 < e) (h1 : e < 1) (hμ : 0 < stopMu n rs) :
    stopMargin n rs e * n ≤ 1 / 8 := by
  have hn0 : (0 : ℝ) < n := by exact_mod_cast Nat.pos_of_ne_zero hn
  have c1 := Real.cosh_sq (stopMu n rs)
  have c2 := sq_nonneg (Real.sinh (stopMu n rs) - 1)
  have c3 : 0 < Real.sinh (stopMu n rs) := Real.sinh_pos_iff.mpr hμ
  have c4 : e * (1 - e) ≤ 1 / 4 := by nlinarith [sq_nonneg (e - 1 / 2)]
  have c6 := mul_le_mul_of_nonneg_right c4 c3.le
  rw [stopMargin, div_mul_eq_mul_div, div_le_iff₀ (by positivity)]
  have : e * (1 - e) * Real.sinh (stopMu n rs) ≤ 1 / 8 * Real.cosh (stopMu n rs) ^ 2 := by nlinarith
  have := mul_le_mul_of_nonneg_right this hn0.le
  linarith

set_option maxHeartbeats 1600000 in
/-- The relative errors of the prototype and of the analog filter. -/
theorem stop_analog_err {e e' : ℝ} {n : ℕ} (hn : n ≠ 0) {rs : ℝ} (hrs : 0 < rs) (S : Small r h h)
    (hr : r.Nearest) (he0 : 0 < e) (he : e < 1) (hee : |e' - e| ≤ h * e) (hfl : h ≤ rippleFloor rs)
    (hh : 12288 * (n * (stopCond n rs * h)) ≤ stopMargin n rs e ^ 2) (hm : m.Accurate r h) (hm2 : m.AccurateHyp r h)
    {H : ℝ} (hHd : H = 12 * (n * (stopCond n rs * h)) / (1 - e)) :
    h ≤ H ∧ n * H ≤ 1 / 8192 ∧ 0 < exWarp e ∧ |flWarp r m e' - exWarp e| ≤ 9.7 * H * exWarp e ∧
    ∀ j ∈ stepRange (-(n : ℤ) + 1) n,
      ‖flDiv r 1 (flStop r m n rs j) - 1 / exStop n rs j‖ ≤ 16 * H * ‖1 / exStop n rs j‖ ∧
      ‖flSPole r m n rs e' j - exSPole n rs e j‖ ≤ 38 * H * ‖exSPole n rs e j‖ ∧
      (j ≠ 0 → ‖flZero r m n j - exZero n j‖ ≤ 16 * H * ‖exZero n j‖ ∧
        ‖flSZero r m n e' j - exSZero n e j‖ ≤ 38 * H * ‖exSZero n e j‖) := by
  have h0 := S.h_nonneg
  have hn1 : (1 : ℝ) ≤ n := by exact_mod_cast Nat.one_le_iff_ne_zero.mpr hn
  have hn0 : (0 : ℝ) < n := by linarith
  obtain ⟨f1, f2, f3, f4, f5, f6, f7, f8, f9, f10, f11, f12, f13, f14, f15, f16, f17⟩ :=
    stop_facts hn hrs he0 he h0 hh rfl rfl
  have h1e : 0 < 1 - e := by linarith
  obtain ⟨X, hX⟩ : ∃ X, X = stopMargin n rs e := ⟨_, rfl⟩
  rw [← hX] at f2 f3 f4 f5 f6 f7 f8 f9 f10 f11 f17 hh
  obtain ⟨K, hK⟩ : ∃ K, K = rippleCond rs * h * (1 + stopMu n rs) := ⟨_, rfl⟩
  have hKc : stopCond n rs * h = K := by rw [hK, stopCond]; ring
  rw [hKc] at hh hHd
  rw [← hK] at f11 f15 f16
  have hXX : X ^ 2 ≤ X / 4 := by rw [sq]; have := mul_le_mul_of_nonneg_left f3 f2.le; linarith
  have hhX : 12288 * h ≤ X / 4 := by linarith
  have hhe : h ≤ e := by linarith
  have Se : Small r h e := S.weaken hhe
  have hhK : h ≤ K := by linarith
  have hK1 : K ≤ 1 / 4096 := by linarith
  obtain ⟨w0, w1, ew⟩ := warp_err Se hr he hee (by linarith) hm
  have hXn : X * n ≤ 1 := by rw [le_div_iff₀ hn0] at f6; exact f6
  -- the error parameter
  have hnK0 : 0 ≤ n * K := mul_nonneg hn0.le (h0.trans hhK)
  have hHK : H * (1 - e) = 12 * (n * K) := by rw [hHd]; field_simp
  have hXe : X ^ 2 ≤ (1 - e) / 4 := by linarith
  have hHX : H ≤ 1 / 1024 * X := by
    rw [hHd, div_le_iff₀ h1e]
    have : X ^ 2 ≤ X * (1 - e) := by rw [sq]; exact mul_le_mul_of_nonneg_left f5 f2.le
    linarith
  have hHs : H ≤ 1 / 1024 := by linarith
  have hH0 : 0 ≤ H := by rw [hHd]; positivity
  have h5K : 12 * (n * K) ≤ H := by
    have : H * (1 - e) ≤ H * 1 := mul_le_mul_of_nonneg_left (by linarith) hH0
    linarith
  have hnKK : K ≤ n * K := by linarith
  have hhH : h ≤ 5 / 12 * H := by linarith
  have ew' : |flWarp r m e' - exWarp e| ≤ 9.7 * H * exWarp e := by
    refine ew.trans (mul_le_mul_of_nonneg_right (mul_le_mul_of_nonneg_left ?_ (by norm_num)) w0.le)
    rw [div_le_iff₀ h1e]
    linarith
  refine ⟨by linarith, ?_, w0, ew', fun j hj => ?_⟩
  · have := mul_le_mul_of_nonneg_left hHX hn0.le
    have := stopMargin_mul_le hn he0 he f1
    rw [← hX] at this
    linarith
  obtain ⟨b1, b2⟩ := exStop_bounds f1 j
  have eζ := stop_err S hm hm2 hn hrs hfl (by linarith) f1 hK hhK f15 hK1 hj
  have eζ' : ‖flStop r m n rs j - exStop n rs j‖ ≤ 16 * (5 / 12 * H) * ‖exStop n rs j‖ :=
    eζ.trans (mul_le_mul_of_nonneg_right (by linarith) (norm_nonneg _))
  have hS0 : 0 < Real.sinh (stopMu n rs) := Real.sinh_pos_iff.mpr f1
  have hC1 := Real.one_le_cosh (stopMu n rs)
  have hzp : 0 < ‖exStop n rs j‖ := by linarith
  have hz : exStop n rs j ≠ 0 := norm_pos_iff.mp hzp
  have hXN : X ≤ ‖exStop n rs j‖ := by linarith
  have hhC : 12288 * (h * ‖exStop n rs j‖) ≤ X * Real.cosh (stopMu n rs) / 4 := by
    have := mul_le_mul hhX b2 hzp.le (by linarith)
    linarith
  have q := hp_err' (w := 1) (w' := 1) S hr hhH (by linarith) one_pos hz
    (by have := pow_le_pow_left₀ f2.le hXN 2
        linarith) (by linarith) (by linarith) eζ' (by simp; positivity)
  rw [Complex.ofReal_one] at q
  have q' : ‖flDiv r 1 (flStop r m n rs j) - 1 / exStop n rs j‖ ≤ 16 * H * ‖1 / exStop n rs j‖ := by
    rw [norm_div, norm_one]
    refine q.trans (mul_le_mul_of_nonneg_right (by linarith) (by positivity))
  refine ⟨q', ?_, fun hj0 => ?_⟩
  · have hwσ : h ≤ exWarp e * ‖1 / exStop n rs j‖ := by
      rw [norm_div, norm_one, mul_one_div, le_div_iff₀ hzp]
      linarith
    unfold flSPole exSPole
    rw [norm_mul, Complex.norm_real, Real.norm_of_nonneg w0.le]
    exact lp_err' S hr (by linarith) hHs w0 hwσ q' ew'
  · have hn2 : 4 * (h * n ^ 2) ≤ 1 := by
      have i2 : (X * n) ^ 2 ≤ 1 := pow_le_one₀ (by positivity) hXn
      have i3 : 12288 * h * n ^ 2 ≤ X ^ 2 * n ^ 2 := mul_le_mul_of_nonneg_right f17 (by positivity)
      rw [mul_pow] at i2
      have i4 : 0 ≤ h * (n : ℝ) ^ 2 := by positivity
      linarith
    have hnh : n * h ≤ n * K := mul_le_mul_of_nonneg_left hhK hn0.le
    have q := zero_err S hr hm hn (H := H) (by linarith) hHs hn2 hj hj0
    have c6 := Real.abs_sin_le_one (Real.pi * j / (2 * n))
    obtain ⟨-, -, -, js⟩ := angle_facts hn hj
    have hs0 : 0 < |Real.sin (Real.pi * j / (2 * n))| := lt_of_lt_of_le (by positivity) (js hj0)
    have hN : ‖exZero n j‖ = 1 / |Real.sin (Real.pi * j / (2 * n))| := by
      rw [exZero, norm_div, Complex.norm_I, Complex.norm_real, Real.norm_eq_abs]
    have hwσ : h ≤ exWarp e * ‖exZero n j‖ := by
      rw [hN, mul_one_div, le_div_iff₀ hs0]
      have := mul_le_mul_of_nonneg_left c6 h0
      linarith
    refine ⟨q, ?_⟩
    unfold flSZero exSZero
    rw [norm_mul, Complex.norm_real, Real.norm_of_nonneg w0.le]
    exact lp_err' S hr (by linarith) hHs w0 hwσ q ew'

/-- All errors together. -/
theorem stop_root_err {e e' : ℝ} {n : ℕ} (hn : n ≠ 0) {rs : ℝ} (hrs : 0 < rs) (S : Small r h h)
    (hr : r.Nearest) (he0 : 0 < e) (he : e < 1) (hee : |e' - e| ≤ h * e) (hfl : h ≤ rippleFloor rs)
    (hh : 12288 * (n * (stopCond n rs * h)) ≤ stopMargin n rs e ^ 2) (hm : m.Accurate r h) (hm2 : m.AccurateHyp r h)
    {j : ℤ} (hj : j ∈ stepRange (-(n : ℤ) + 1) n) :
    ‖flBilinear r (flSPole r m n rs e' j) - (4 + exSPole n rs e j) / (4 - exSPole n rs e j)‖ ≤
      660 * (n * (stopCond n rs * h)) / (1 - e) ∧
    (j ≠ 0 → ‖flBilinear r (flSZero r m n e' j) - (4 + exSZero n e j) / (4 - exSZero n e j)‖ ≤
      660 * (n * (stopCond n rs * h)) / (1 - e)) := by
  have h0 := S.h_nonneg
  have hn1 : (1 : ℝ) ≤ n := by exact_mod_cast Nat.one_le_iff_ne_zero.mpr hn
  obtain ⟨f1, f2, f3, f4, -, -, -, -, -, -, -, -, -, -, -, -, f17⟩ := stop_facts hn hrs he0 he h0 hh rfl rfl
  obtain ⟨hre, -⟩ := stop_margin hn f1 he0 he hj rfl
  have hhe : h ≤ e := by nlinarith
  obtain ⟨H, hH⟩ : ∃ H, H = 12 * (n * (stopCond n rs * h)) / (1 - e) := ⟨_, rfl⟩
  obtain ⟨hhH, hnH, -, -, key⟩ := stop_analog_err (m := m) hn hrs S hr he0 he hee hfl hh hm hm2 hH
  have hHs : H ≤ 1 / 1024 := by
    have := le_mul_of_one_le_left (h0.trans hhH) hn1
    linarith
  obtain ⟨-, k1, k2⟩ := key j hj
  have fin : ∀ P P' : ℂ, P.re ≤ 0 → ‖P' - P‖ ≤ 38 * H * ‖P‖ →
      ‖flBilinear r P' - (4 + P) / (4 - P)‖ ≤ 660 * (n * (stopCond n rs * h)) / (1 - e) := by
    intro P P' i1 i2
    have := bilinear_err (S.weaken hhe) he hr hhH hHs i1 i2
    refine this.trans (le_of_eq ?_)
    rw [hH]; ring
  exact ⟨fin _ _ hre k1, fun hj0 => fin _ _ (exSZero_parts n e j).1.le (k2 hj0).2⟩

/-- The middle pole of an odd order is real. -/
theorem flStop_real (n : ℕ) (rs e' : ℝ) : (flBilinear r (flSPole r m n rs e' 0)).im = 0 := by
  have hs : m.sin 0 = 0 := by
    have := m.sin_neg 0
    rw [neg_zero] at this
    linarith
  have h1 : (flStop r m n rs 0).im = 0 := by
    simp [flStop, flSAngle_zero, hs, r.zero]
  have h2 : (flSPole r m n rs e' 0).im = 0 := by
    simp [flSPole, flMul, flDiv, h1, r.zero]
  simp [flBilinear, flDiv, h2, r.zero]

end SciRs.Rounded

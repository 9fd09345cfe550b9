import Verif.Lemmas.Rounded.CsqrtError
import Verif.Lemmas.Rounded.ButterPoles

/-! # Where the exact poles of Butterworth band-pass and band-stop filters lie -/

namespace SciRs.Rounded

open SciRs.Spec SciRs.Design

/-- The distance of the poles from the unit circle, in terms of the warped edges. -/
noncomputable def bandGap (w0 w1 : ℝ) : ℝ := (w1 - w0) * w0 / ((w0 + w1) * (16 + w0 * w1))

/-- A pole of the analog band filter: it lies between the edges. -/
theorem band_root {w0 w1 : ℝ} (h0 : 0 < w0) (h01 : w0 < w1) {ζ s : ℂ} (hζ : ‖ζ‖ = 1)
    (hs : s ^ 2 - 2 * (((w1 - w0) / 2 : ℝ) * ζ) * s + (w0 * w1 : ℝ) = 0) :
    w0 ≤ ‖s‖ ∧ ‖s‖ ≤ w1 ∧ s.re * (‖s‖ ^ 2 + w0 * w1) = (w1 - w0) * ζ.re * ‖s‖ ^ 2 ∧
      s.im * (‖s‖ ^ 2 - w0 * w1) = (w1 - w0) * ζ.im * ‖s‖ ^ 2 := by
  obtain ⟨t, ht⟩ : ∃ t, t = ‖s‖ := ⟨_, rfl⟩
  have ht0 : 0 < t := by
    rw [ht, norm_pos_iff]
    rintro rfl
    have : ((w0 * w1 : ℝ) : ℂ) = 0 := by simpa using hs
    have : w0 * w1 = 0 := by exact_mod_cast this
    have : 0 < w0 * w1 := mul_pos h0 (h0.trans h01)
    linarith
  have hN : t ^ 2 = s.re * s.re + s.im * s.im := by rw [ht, Complex.sq_norm, Complex.normSq_apply]
  have hre := congrArg Complex.re hs
  have him := congrArg Complex.im hs
  simp [sq] at hre him
  have e1 : s.re * (t ^ 2 + w0 * w1) = (w1 - w0) * ζ.re * t ^ 2 := by
    rw [hN]; linear_combination s.re * hre + s.im * him
  have e2 : s.im * (t ^ 2 - w0 * w1) = (w1 - w0) * ζ.im * t ^ 2 := by
    rw [hN]; linear_combination s.re * him - s.im * hre
  rw [← ht]
  have hz : ζ.re * ζ.re + ζ.im * ζ.im = 1 := by
    rw [← Complex.normSq_apply, ← Complex.sq_norm, hζ]; norm_num
  have hW : 0 < w0 * w1 := mul_pos h0 (h0.trans h01)
  have e3 : (t ^ 2 - w0 * w1) ^ 2 ≤ ((w1 - w0) * t) ^ 2 := by
    have a1 : (s.re * (t ^ 2 + w0 * w1)) ^ 2 + (s.im * (t ^ 2 - w0 * w1)) ^ 2 = ((w1 - w0) * t) ^ 2 * t ^ 2 := by
      rw [e1, e2]
      linear_combination ((w1 - w0) * t ^ 2) ^ 2 * hz
    have a2 : (s.re * (t ^ 2 + w0 * w1)) ^ 2 + (s.im * (t ^ 2 - w0 * w1)) ^ 2 =
        t ^ 2 * (t ^ 2 - w0 * w1) ^ 2 + s.re ^ 2 * (4 * t ^ 2 * (w0 * w1)) := by
      rw [hN]; ring
    have a3 : 0 ≤ s.re ^ 2 * (4 * t ^ 2 * (w0 * w1)) := by positivity
    have a4 : t ^ 2 * (t ^ 2 - w0 * w1) ^ 2 ≤ t ^ 2 * ((w1 - w0) * t) ^ 2 := by linarith
    exact le_of_mul_le_mul_left a4 (by positivity)
  have e4 := abs_le_of_sq_le_sq' e3 (mul_nonneg (by linarith) ht0.le)
  refine ⟨?_, ?_, e1, e2⟩
  · by_contra hc
    push Not at hc
    nlinarith [mul_pos (sub_pos.mpr hc) (by linarith : 0 < t + w1)]
  · by_contra hc
    push Not at hc
    nlinarith [mul_pos (sub_pos.mpr hc) (by linarith : 0 < t + w0)]

theorem bandGap_le {w0 w1 N : ℝ} (h0 : 0 < w0) (h01 : w0 < w1) (n0 : w0 ^ 2 ≤ N) (n1 : N ≤ w1 ^ 2) :
    bandGap w0 w1 ≤ (w1 - w0) * N / ((N + w0 * w1) * (16 + N)) := by
  have hW : 0 < w0 * w1 := mul_pos h0 (h0.trans h01)
  have hN : 0 < N := lt_of_lt_of_le (by positivity) n0
  unfold bandGap
  rw [div_le_div_iff₀ (mul_pos (by linarith) (by linarith)) (mul_pos (by linarith) (by linarith))]
  have key : w0 * ((N + w0 * w1) * (16 + N)) ≤ N * ((w0 + w1) * (16 + w0 * w1)) := by
    have k1 : 0 ≤ (N - w0 ^ 2) * (16 * w1) := mul_nonneg (by linarith) (by linarith)
    have k2 : 0 ≤ (w1 ^ 2 - N) * (N * w0) := mul_nonneg (by linarith) (by positivity)
    nlinarith
  have := mul_le_mul_of_nonneg_left key (by linarith : 0 ≤ w1 - w0)
  linarith

theorem norm_four_sub (s : ℂ) : ‖4 - s‖ ^ 2 = 16 - 8 * s.re + ‖s‖ ^ 2 := by
  rw [Complex.sq_norm, Complex.sq_norm, Complex.normSq_apply, Complex.normSq_apply]
  simp; ring

/-- The squared distance in the bilinear transformation. -/
theorem four_sub_le (s : ℂ) : ‖4 - s‖ ^ 2 ≤ 2 * (16 + ‖s‖ ^ 2) := by
  rw [norm_four_sub]
  have := abs_le.mp (Complex.abs_re_le_norm s)
  nlinarith [sq_nonneg (‖s‖ - 4)]

theorem bilinear_norm {s : ℂ} (hs : s.re ≤ 0) : ‖(4 + s) / (4 - s)‖ ^ 2 = 1 - 16 * (-s.re) / ‖4 - s‖ ^ 2 ∧
    0 < ‖4 - s‖ ^ 2 := by
  have hD : 0 < ‖4 - s‖ ^ 2 := by
    rw [norm_four_sub]; nlinarith [sq_nonneg ‖s‖]
  refine ⟨?_, hD⟩
  rw [norm_div, div_pow, eq_sub_iff_add_eq, ← add_div, div_eq_one_iff_eq hD.ne', norm_four_sub, Complex.sq_norm,
    Complex.sq_norm, Complex.normSq_apply, Complex.normSq_apply]
  simp; ring

theorem bilinear_im (s : ℂ) : ((4 + s) / (4 - s)).im = 8 * s.im / ‖4 - s‖ ^ 2 := by
  rw [Complex.div_im, Complex.sq_norm]
  simp; ring

/-- The poles of the digital filter keep their distance from the unit circle and from the real axis. -/
theorem band_margin {w0 w1 : ℝ} (h0 : 0 < w0) (h01 : w0 < w1) {ζ s : ℂ} (hζ : ‖ζ‖ = 1)
    (hs : s ^ 2 - 2 * (((w1 - w0) / 2 : ℝ) * ζ) * s + (w0 * w1 : ℝ) = 0) {c : ℝ} (hc : 0 ≤ c) (hre : ζ.re ≤ -c) :
    s.re ≤ 0 ∧ ‖(4 + s) / (4 - s)‖ ≤ 1 - 4 * c * bandGap w0 w1 ∧
      ∀ d, 0 < d → d ≤ |ζ.im| → 4 * d * bandGap w0 w1 ≤ |((4 + s) / (4 - s)).im| := by
  obtain ⟨b1, b2, b3, b4⟩ := band_root h0 h01 hζ hs
  obtain ⟨N, hN⟩ : ∃ N, N = ‖s‖ ^ 2 := ⟨_, rfl⟩
  have hD := four_sub_le s
  rw [← hN] at b3 b4 hD
  have n0 : w0 ^ 2 ≤ N := by rw [hN]; exact pow_le_pow_left₀ h0.le b1 2
  have n1 : N ≤ w1 ^ 2 := by rw [hN]; exact pow_le_pow_left₀ (norm_nonneg _) b2 2
  have hN0 : 0 < N := lt_of_lt_of_le (by positivity) n0
  have hW : 0 < w0 * w1 := mul_pos h0 (h0.trans h01)
  have hg := bandGap_le h0 h01 n0 n1
  have hbw : 0 < w1 - w0 := by linarith
  have hs0 : s.re ≤ 0 := by
    by_contra hcon
    push Not at hcon
    have k1 := mul_pos hcon (by linarith : 0 < N + w0 * w1)
    have k2 : (w1 - w0) * ζ.re * N ≤ 0 :=
      mul_nonpos_of_nonpos_of_nonneg (mul_nonpos_of_nonneg_of_nonpos hbw.le (by linarith)) hN0.le
    linarith
  obtain ⟨q1, q2⟩ := bilinear_norm hs0
  obtain ⟨D, hDd⟩ : ∃ D, D = ‖4 - s‖ ^ 2 := ⟨_, rfl⟩
  rw [← hDd] at q1 q2 hD
  refine ⟨hs0, ?_, fun d hd0 hd => ?_⟩
  · have k1 : c * bandGap w0 w1 * 8 ≤ 16 * (-s.re) / D := by
      have e1 : (w1 - w0) * c * N / (N + w0 * w1) ≤ -s.re := by
        rw [div_le_iff₀ (by linarith)]
        have : (w1 - w0) * c * N ≤ (w1 - w0) * (-ζ.re) * N :=
          mul_le_mul_of_nonneg_right (mul_le_mul_of_nonneg_left (by linarith) hbw.le) hN0.le
        linarith
      have e2 : 16 * ((w1 - w0) * c * N / (N + w0 * w1)) / (2 * (16 + N)) ≤ 16 * (-s.re) / D := by
        have : 0 ≤ (w1 - w0) * c * N / (N + w0 * w1) := by positivity
        exact div_le_div₀ (by linarith) (by linarith) q2 hD
      refine le_trans ?_ e2
      have e3 : 16 * ((w1 - w0) * c * N / (N + w0 * w1)) / (2 * (16 + N)) =
          c * ((w1 - w0) * N / ((N + w0 * w1) * (16 + N))) * 8 := by
        field_simp; ring
      rw [e3]
      gcongr
    have hB0 : 0 ≤ c * bandGap w0 w1 := by
      refine mul_nonneg hc (div_nonneg (mul_nonneg hbw.le h0.le) ?_)
      exact mul_nonneg (by linarith) (by linarith)
    obtain ⟨x, hx⟩ : ∃ x, x = ‖(4 + s) / (4 - s)‖ := ⟨_, rfl⟩
    rw [← hx] at q1 ⊢
    nlinarith [sq_nonneg (x - 1)]
  · rw [bilinear_im, ← hDd, abs_div, abs_of_pos q2, abs_mul, abs_of_pos (by norm_num : (0 : ℝ) < 8)]
    have e1 : (w1 - w0) * d * N / (N + w0 * w1) ≤ |s.im| := by
      rw [div_le_iff₀ (by linarith)]
      have k1 : (w1 - w0) * d * N ≤ (w1 - w0) * |ζ.im| * N := by gcongr
      have k2 : (w1 - w0) * |ζ.im| * N = |s.im| * |N - w0 * w1| := by
        rw [← abs_mul, b4, abs_mul, abs_mul, abs_of_pos hbw, abs_of_pos hN0]
      have k3 : |N - w0 * w1| ≤ N + w0 * w1 := by
        rw [abs_le]; constructor <;> linarith
      have := mul_le_mul_of_nonneg_left k3 (abs_nonneg s.im)
      linarith
    have e2 : 8 * ((w1 - w0) * d * N / (N + w0 * w1)) / (2 * (16 + N)) ≤ 8 * |s.im| / D := by
      have : 0 ≤ (w1 - w0) * d * N / (N + w0 * w1) := by positivity
      gcongr
    refine le_trans ?_ e2
    have e3 : 8 * ((w1 - w0) * d * N / (N + w0 * w1)) / (2 * (16 + N)) =
        4 * d * ((w1 - w0) * N / ((N + w0 * w1) * (16 + N))) := by
      field_simp; ring
    rw [e3]
    gcongr

theorem abs_le_abs_of_sq {x y : ℝ} (h : x ^ 2 ≤ y ^ 2) (hx : 0 ≤ x) : x ≤ |y| := by
  have := sq_le_sq.mp h
  rwa [abs_of_nonneg hx] at this

/-- The same for a pole from a real prototype pole that is not real itself. -/
theorem band_margin_real {w0 w1 κ : ℝ} (h0 : 0 < w0) (h01 : w0 < w1) (hκ : 0 < κ) {ζ s : ℂ} (hζ : ‖ζ‖ = 1)
    (hs : s ^ 2 - 2 * (((w1 - w0) / 2 : ℝ) * ζ) * s + (w0 * w1 : ℝ) = 0) (hi : ζ.im = 0) (hre : ζ.re ≤ 0)
    (hsi : (κ * ((w0 + w1) / 2)) ^ 2 ≤ s.im ^ 2) : 4 * κ * bandGap w0 w1 ≤ |((4 + s) / (4 - s)).im| := by
  obtain ⟨b1, b2, b3, b4⟩ := band_root h0 h01 hζ hs
  have hM : 0 < κ * ((w0 + w1) / 2) := mul_pos hκ (by linarith)
  have hsi' := abs_le_abs_of_sq hsi hM.le
  rw [hi, mul_zero, zero_mul] at b4
  have him : s.im ≠ 0 := by
    intro hc
    rw [hc, abs_zero] at hsi'
    linarith
  have hN : ‖s‖ ^ 2 = w0 * w1 := by
    have := (mul_eq_zero.mp b4).resolve_left him
    linarith
  have hW : 0 < w0 * w1 := mul_pos h0 (h0.trans h01)
  have hD := four_sub_le s
  rw [hN] at hD b3
  have hs0 : s.re ≤ 0 := by
    by_contra hcon
    push Not at hcon
    have k1 := mul_pos hcon (by linarith : 0 < w0 * w1 + w0 * w1)
    have k2 : (w1 - w0) * ζ.re * (w0 * w1) ≤ 0 :=
      mul_nonpos_of_nonpos_of_nonneg (mul_nonpos_of_nonneg_of_nonpos (by linarith) hre) hW.le
    linarith
  obtain ⟨-, q2⟩ := bilinear_norm hs0
  rw [bilinear_im, abs_div, abs_of_pos q2, abs_mul, abs_of_pos (by norm_num : (0 : ℝ) < 8)]
  have e2 : 8 * (κ * ((w0 + w1) / 2)) / (2 * (16 + w0 * w1)) ≤ 8 * |s.im| / ‖4 - s‖ ^ 2 :=
    div_le_div₀ (by positivity) (by linarith) q2 hD
  refine le_trans ?_ e2
  unfold bandGap
  rw [← mul_div_assoc, div_le_div_iff₀ (mul_pos (by linarith) (by linarith)) (by linarith)]
  have k1 : (w1 - w0) * w0 ≤ (w0 + w1) * ((w0 + w1) / 2) := by nlinarith
  have k2 := mul_le_mul_of_nonneg_left k1 (by positivity : 0 ≤ 8 * κ * (16 + w0 * w1))
  linarith

/-- The gap in terms of the edges. -/
theorem exWarp_gap {e0 e1 : ℝ} (h0 : 0 < e0) (h01 : e0 < e1) (h1 : e1 < 1) :
    0 < exWarp e0 ∧ exWarp e0 < exWarp e1 ∧ exWarp e1 * (1 - e1) ≤ 2.55 ∧
    e0 * (1 - e1) * (e1 - e0) ≤ 4 * bandGap (exWarp e0) (exWarp e1) ∧
    (e1 - e0) * (exWarp e0 + exWarp e1) ≤ exWarp e1 - exWarp e0 := by
  have hpi := Real.pi_pos
  have hpi3 : 3.14 < Real.pi := Real.pi_gt_d2
  obtain ⟨x, hx⟩ : ∃ x, x = Real.pi * e0 / 2 := ⟨_, rfl⟩
  obtain ⟨y, hy⟩ : ∃ y, y = Real.pi * e1 / 2 := ⟨_, rfl⟩
  have x0 : 0 < x := by rw [hx]; positivity
  have xy : x < y := by rw [hx, hy]; nlinarith
  have y2 : y < Real.pi / 2 := by rw [hy]; nlinarith
  have cx : 0 < Real.cos x := Real.cos_pos_of_mem_Ioo ⟨by linarith, by linarith⟩
  have cy : 0 < Real.cos y := Real.cos_pos_of_mem_Ioo ⟨by linarith, by linarith⟩
  have sx : 0 < Real.sin x := Real.sin_pos_of_pos_of_lt_pi x0 (by linarith)
  have sy : 0 < Real.sin y := Real.sin_pos_of_pos_of_lt_pi (by linarith) (by linarith)
  have a1 : e0 ≤ Real.sin x := by
    have := Real.mul_le_sin x0.le (by linarith)
    rw [hx] at this ⊢
    have h2 : 2 / Real.pi * (Real.pi * e0 / 2) = e0 := by field_simp
    linarith
  have a2 : 1 - e1 ≤ Real.cos y := by
    have := Real.one_sub_mul_le_cos (by linarith : 0 ≤ y) y2.le
    rw [hy] at this ⊢
    have h2 : 2 / Real.pi * (Real.pi * e1 / 2) = e1 := by field_simp
    linarith
  have a3 : e1 - e0 ≤ Real.sin (y - x) := by
    have := Real.mul_le_sin (by linarith : 0 ≤ y - x) (by linarith)
    have h2 : 2 / Real.pi * (y - x) = e1 - e0 := by rw [hx, hy]; field_simp
    linarith
  have d1 := Real.sin_sub y x
  have d2 := Real.cos_sub y x
  have d3 := Real.sin_add y x
  have d4 : 0 < Real.sin (y + x) := by rw [d3]; positivity
  have d5 : 0 < Real.cos (y - x) := by rw [d2]; positivity
  have d6 := Real.sin_le_one (y + x)
  have d7 := Real.cos_le_one (y - x)
  have d8 : 0 < Real.sin (y - x) := by linarith
  have w0 : exWarp e0 = 4 * (Real.sin x / Real.cos x) := by rw [exWarp, ← hx, Real.tan_eq_sin_div_cos]
  have w1 : exWarp e1 = 4 * (Real.sin y / Real.cos y) := by rw [exWarp, ← hy, Real.tan_eq_sin_div_cos]
  have f1 : exWarp e1 - exWarp e0 = 4 * Real.sin (y - x) / (Real.cos x * Real.cos y) := by
    rw [w0, w1, d1]; field_simp
  have f2 : exWarp e0 + exWarp e1 = 4 * Real.sin (y + x) / (Real.cos x * Real.cos y) := by
    rw [w0, w1, d3]; field_simp; ring
  have f3 : 16 + exWarp e0 * exWarp e1 = 16 * Real.cos (y - x) / (Real.cos x * Real.cos y) := by
    rw [w0, w1, d2]; field_simp; ring
  refine ⟨by rw [w0]; positivity, ?_, ?_, ?_, ?_⟩
  · have : 0 < exWarp e1 - exWarp e0 := by rw [f1]; positivity
    linarith
  · have t2 := Real.le_tan (x := Real.pi / 2 - y) (by linarith) (by linarith)
    rw [Real.tan_pi_div_two_sub] at t2
    have hT0 : 0 < Real.tan y := by rw [Real.tan_eq_sin_div_cos]; positivity
    have : (Real.pi / 2 - y) * Real.tan y ≤ 1 := by
      have := mul_le_mul_of_nonneg_right t2 hT0.le
      rwa [inv_mul_cancel₀ hT0.ne'] at this
    have e : Real.pi / 2 - y = Real.pi / 2 * (1 - e1) := by rw [hy]; ring
    rw [e] at this
    rw [exWarp, ← hy]
    have k : 0 < (1 - e1) * Real.tan y := mul_pos (by linarith) hT0
    nlinarith
  · have e : 4 * bandGap (exWarp e0) (exWarp e1) =
        Real.sin x * Real.cos y * Real.sin (y - x) / (Real.sin (y + x) * Real.cos (y - x)) := by
      rw [bandGap, f1, f2, f3, w0]; field_simp; ring
    rw [e, le_div_iff₀ (by positivity)]
    have k1 : e0 * (1 - e1) * (e1 - e0) ≤ Real.sin x * Real.cos y * Real.sin (y - x) := by
      have : 0 ≤ 1 - e1 := by linarith
      have : 0 ≤ e1 - e0 := by linarith
      gcongr
    have k2 : Real.sin (y + x) * Real.cos (y - x) ≤ 1 := by nlinarith
    have k3 : 0 ≤ e0 * (1 - e1) * (e1 - e0) :=
      mul_nonneg (mul_nonneg h0.le (by linarith)) (by linarith)
    nlinarith
  · rw [f1, f2, ← mul_div_assoc]
    refine div_le_div_of_nonneg_right ?_ (by positivity)
    have : (e1 - e0) * Real.sin (y + x) ≤ Real.sin (y - x) * 1 := by
      refine mul_le_mul a3 d6 d4.le d8.le
    linarith

end SciRs.Rounded

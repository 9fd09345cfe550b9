import Verif.Lemmas.Rounded.BandAccuracy

/-! # The zeros of band-stop designs in floating point -/

namespace SciRs.Rounded

open SciRs.Spec SciRs.Design

variable {r : Rounding} {m : Libm} {h : ℝ}

/-- The computed centre frequency. -/
theorem band_centre_err (hr : r.Nearest) (hm : m.Accurate r h) {n : ℕ} {e0 e1 κ : ℝ} (R : BandRequest n e0 e1 κ h)
    (S : Small r h (κ ^ 2 * e0 ^ 2 / 2)) {f0 f1 : ℝ} (hf0 : |f0 - e0| ≤ h * e0) (hf1 : |f1 - e1| ≤ h * e1) :
    |r.rnd √(r.rnd (flWarp r m f0 * flWarp r m f1)) - √(exWarp e0 * exWarp e1)| ≤
      22 * (h / (1 - e1)) * √(exWarp e0 * exWarp e1) := by
  have h0 := S.h_nonneg
  obtain ⟨c1, c2, c3, c4, c5, c6, -, -, -, -, -⟩ := band_facts R h0
  have hpos := R.pos
  have hlt := R.lt
  have hone := R.one
  have hκ2 : κ ^ 2 ≤ 1 := pow_le_one₀ R.kappa.le c1
  have he2 : e0 ^ 2 ≤ e0 := by nlinarith
  have hke := mul_le_of_le_one_left (sq_nonneg e0) hκ2
  have hke0 := mul_nonneg (sq_nonneg κ) (sq_nonneg e0)
  have hσe : κ ^ 2 * e0 ^ 2 / 2 ≤ e0 := by linarith
  have S0 := S.anti hσe
  have S1 := S0.anti hlt.le
  obtain ⟨w0, w06, ew0⟩ := warp_err S0 hr (hlt.trans hone) hf0 c5 hm
  obtain ⟨w1, w16, ew1⟩ := warp_err S1 hr hone hf1 c4 hm
  obtain ⟨-, w01, -, -, -⟩ := exWarp_gap hpos hlt hone
  have ew0 : |flWarp r m f0 - exWarp e0| ≤ 9.7 * (h / (1 - e1)) * exWarp e0 := by
    refine ew0.trans (mul_le_mul_of_nonneg_right ?_ w0.le)
    linarith
  have hWW : 36 * e0 ^ 2 ≤ exWarp e0 * exWarp e1 := by nlinarith
  refine centre_err S c3 c2 w0 w01 (by linarith) ?_ ew0 ew1
  refine Real.le_sqrt_of_sq_le ?_
  have : (κ ^ 2 * e0 ^ 2 / 2) ^ 2 ≤ e0 ^ 2 := pow_le_pow_left₀ (by positivity) hσe 2
  linarith [sq_nonneg e0]

/-- The zeros are close to the exact ones, which keep their distance from the real axis. -/
theorem band_zero_err (hr : r.Nearest) (hm : m.Accurate r h) {n : ℕ} {e0 e1 κ : ℝ} (R : BandRequest n e0 e1 κ h)
    (S : Small r h (κ ^ 2 * e0 ^ 2 / 2)) {f0 f1 : ℝ} (hf0 : |f0 - e0| ≤ h * e0) (hf1 : |f1 - e1| ≤ h * e1)
    {c : ℝ} (hc : c = 1 ∨ c = -1) :
    ‖flBilinear r ⟨0, r.rnd (c * r.rnd √(r.rnd (flWarp r m f0 * flWarp r m f1)))⟩ -
      exBilin ⟨0, c * √(exWarp e0 * exWarp e1)⟩‖ ≤ 310 * (h / ((1 - e1) ^ 2 * κ)) ∧
    ‖exBilin ⟨0, c * √(exWarp e0 * exWarp e1)⟩‖ = 1 ∧
    e0 * (1 - e1) * (e1 - e0) ≤ |(exBilin ⟨0, c * √(exWarp e0 * exWarp e1)⟩).im| := by
  have h0 := S.h_nonneg
  obtain ⟨c1, c2, c3, -, -, -, -, c8, c9, c10, -⟩ := band_facts R h0
  obtain ⟨w0, w01, -, w3, -⟩ := exWarp_gap R.pos R.lt R.one
  have ec := band_centre_err hr hm R S hf0 hf1
  have hκ := R.kappa
  have hκ2 : κ ^ 2 ≤ 1 := pow_le_one₀ hκ.le c1
  have he2 : e0 ^ 2 ≤ 1 := pow_le_one₀ R.pos.le (R.lt.trans R.one).le
  have hke := mul_le_of_le_one_left (sq_nonneg e0) hκ2
  obtain ⟨v, hv⟩ : ∃ v, v = r.rnd √(r.rnd (flWarp r m f0 * flWarp r m f1)) := ⟨_, rfl⟩
  have hvv : r.rnd v = v := by rw [hv]; exact hr.idem _
  rw [← hv] at ec ⊢
  obtain ⟨W0, hW0⟩ : ∃ W0, W0 = exWarp e0 := ⟨_, rfl⟩
  obtain ⟨W1, hW1⟩ : ∃ W1, W1 = exWarp e1 := ⟨_, rfl⟩
  rw [← hW0, ← hW1] at ec c8 c9 w3 w01 ⊢
  rw [← hW0] at w0
  have hcv : r.rnd (c * v) = c * v := by
    rcases hc with rfl | rfl
    · rw [one_mul, hvv]
    · rw [neg_one_mul, hr.odd, hvv]
  have hc1 : |c| = 1 := by rcases hc with rfl | rfl <;> simp
  have hW : 0 < W0 * W1 := mul_pos w0 (w0.trans w01)
  obtain ⟨q, hq⟩ : ∃ q, q = √(W0 * W1) := ⟨_, rfl⟩
  have hq2 : q * q = W0 * W1 := by rw [hq]; exact Real.mul_self_sqrt hW.le
  have hq0 : 0 < q := by rw [hq]; exact Real.sqrt_pos.mpr hW
  rw [← hq] at ec ⊢
  have hqM : q ≤ (W0 + W1) / 2 := by
    refine abs_le_of_sq_le_sq' ?_ (by linarith) |>.2
    rw [sq, hq2]
    nlinarith [sq_nonneg (W0 - W1)]
  have hD : ‖4 - (⟨0, c * q⟩ : ℂ)‖ ^ 2 = 16 + q * q := by
    rw [Complex.sq_norm, Complex.normSq_apply]
    rcases hc with rfl | rfl <;> simp <;> ring
  refine ⟨?_, ?_, ?_⟩
  · rw [hcv]
    obtain ⟨H, hH⟩ : ∃ H, H = h / (1 - e1) := ⟨_, rfl⟩
    rw [← hH] at ec c8 c9 c3
    have hH0 : 0 ≤ H := h0.trans c3
    have k1 : 22 * H * q ≤ 216 * H * ((W0 + W1) / 2) / κ * 0.11 := by
      have a1 : 22 * H * q ≤ 22 * H * ((W0 + W1) / 2) := by gcongr
      have a2 : H * ((W0 + W1) / 2) ≤ H * ((W0 + W1) / 2) / κ :=
        le_div_self (mul_nonneg hH0 (by linarith)) hκ c1
      have a3 : 216 * H * ((W0 + W1) / 2) / κ = 216 * (H * ((W0 + W1) / 2) / κ) := by ring
      have a4 : 0 ≤ H * ((W0 + W1) / 2) / κ := div_nonneg (mul_nonneg hH0 (by linarith)) hκ.le
      rw [a3]
      linarith
    have hpole : ‖(⟨0, c * v⟩ : ℂ) - ⟨0, c * q⟩‖ ≤ 22 * H * q := by
      have e : (⟨0, c * v⟩ : ℂ) - ⟨0, c * q⟩ = ((c * (v - q) : ℝ) : ℂ) * Complex.I := by
        apply Complex.ext <;> simp; ring
      rw [e, norm_mul, Complex.norm_I, mul_one, Complex.norm_real, Real.norm_eq_abs, abs_mul, hc1, one_mul]
      exact ec
    have k := bilinear_abs_err S (by linarith) hr (by linarith) (le_refl (0 : ℝ)) hpole (by linarith)
    refine k.trans ?_
    have h5 : 0 ≤ h / ((1 - e1) ^ 2 * κ) := h0.trans c10
    linarith
  · have hD0 : ‖4 - (⟨0, c * q⟩ : ℂ)‖ ≠ 0 := by
      intro h'
      rw [h'] at hD
      nlinarith
    unfold exBilin
    rw [norm_div, div_eq_one_iff_eq hD0]
    have hN : ‖4 + (⟨0, c * q⟩ : ℂ)‖ ^ 2 = 16 + q * q := by
      rw [Complex.sq_norm, Complex.normSq_apply]
      rcases hc with rfl | rfl <;> simp <;> ring
    have := hN.trans hD.symm
    rwa [sq_eq_sq₀ (norm_nonneg _) (norm_nonneg _)] at this
  · unfold exBilin
    rw [bilinear_im, hD, abs_div, abs_mul, abs_mul, hc1, one_mul, abs_of_pos hq0,
      abs_of_pos (by positivity : 0 < 16 + q * q), abs_of_pos (by norm_num : (0 : ℝ) < 8)]
    refine w3.trans ?_
    unfold bandGap
    rw [hq2, ← mul_div_assoc, div_le_div_iff₀ (mul_pos (by linarith) (by linarith)) (by linarith)]
    have hq4 : W0 ≤ q := by
      refine abs_le_of_sq_le_sq' ?_ hq0.le |>.2
      rw [sq, sq, hq2]
      exact mul_le_mul_of_nonneg_left w01.le w0.le
    have k1 : 4 * ((W1 - W0) * W0) ≤ 8 * q * (W0 + W1) := by
      have a1 : (W1 - W0) * W0 ≤ (W0 + W1) * q := mul_le_mul (by linarith) hq4 w0.le (by linarith)
      have a2 : 0 ≤ (W0 + W1) * q := mul_nonneg (by linarith) hq0.le
      linarith
    have := mul_le_mul_of_nonneg_right k1 (by linarith : 0 ≤ 16 + W0 * W1)
    linarith

end SciRs.Rounded

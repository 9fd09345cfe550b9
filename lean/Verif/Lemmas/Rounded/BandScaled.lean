import Verif.Lemmas.Rounded.BandAccuracy

/-!
# Band transformations of prototype poles of any size

The roots of `s ^ 2 - 2 q s + W` for `q` of any size: they lie where the band transformation of a pole of size one puts
them for other edges, with the same product `W` and the difference `2 |q|`.
-/

namespace SciRs.Rounded

open SciRs.Spec SciRs.Design

variable {r : Rounding} {m : Libm} {h σ : ℝ}

/-- Edges with a given difference and product. -/
theorem scaled_edges {B W : ℝ} (hB : 0 < B) (hW : 0 < W) : ∃ x0 x1 : ℝ, 0 < x0 ∧ x0 < x1 ∧ (x1 - x0) / 2 = B ∧
    x0 * x1 = W ∧ (x0 + x1) / 2 = √(B ^ 2 + W) ∧ x0 = √(B ^ 2 + W) - B := by
  obtain ⟨M, hM⟩ : ∃ M, M = √(B ^ 2 + W) := ⟨_, rfl⟩
  have hM2 : M ^ 2 = B ^ 2 + W := by rw [hM]; exact Real.sq_sqrt (by positivity)
  have hM0 : 0 ≤ M := by rw [hM]; exact Real.sqrt_nonneg _
  rw [← hM]
  refine ⟨M - B, M + B, by nlinarith, by linarith, by ring, ?_, by ring, rfl⟩
  linear_combination hM2

theorem unit_dir {q : ℂ} (hq : q ≠ 0) : ‖q / (‖q‖ : ℂ)‖ = 1 ∧ ((‖q‖ : ℝ) : ℂ) * (q / (‖q‖ : ℂ)) = q ∧
    (q / (‖q‖ : ℂ)).re = q.re / ‖q‖ ∧ (q / (‖q‖ : ℂ)).im = q.im / ‖q‖ := by
  have h1 : (‖q‖ : ℂ) ≠ 0 := by exact_mod_cast norm_ne_zero_iff.mpr hq
  refine ⟨?_, by field_simp, Complex.div_ofReal_re _ _, Complex.div_ofReal_im _ _⟩
  rw [norm_div, Complex.norm_real, norm_norm, div_self (norm_ne_zero_iff.mpr hq)]

/-- The number under the square root: its size. -/
theorem scaled_disc {q : ℂ} {W M : ℝ} (hq : q ≠ 0) (hW : 0 < W) (hM : M = √(‖q‖ ^ 2 + W)) :
    ‖q ^ 2 - (W : ℂ)‖ ≤ M ^ 2 ∧ |q.im| * M ^ 2 ≤ ‖q‖ * ‖q ^ 2 - (W : ℂ)‖ ∧
    (q ^ 2 - (W : ℂ)).im = 2 * (q.re * q.im) ∧ (q.im = 0 → (q ^ 2 - (W : ℂ)).re = ‖q‖ ^ 2 - W) := by
  have hn : 0 < ‖q‖ := norm_pos_iff.mpr hq
  obtain ⟨x0, x1, h0, h01, e1, e2, e3, -⟩ := scaled_edges hn hW
  obtain ⟨u1, u2, u3, u4⟩ := unit_dir hq
  obtain ⟨d1, d2, -, -⟩ := disc_size h0 h01 u1
  rw [e1, e2, e3, u2, ← hM] at d1 d2
  rw [u4, abs_div, abs_of_pos hn] at d2
  refine ⟨d1, ?_, by rw [sq]; simp; ring, fun hi => ?_⟩
  · have := mul_le_mul_of_nonneg_left d2 hn.le
    rw [← mul_assoc, mul_div_cancel₀ _ hn.ne'] at this
    exact this
  · rw [Complex.sq_norm, Complex.normSq_apply, sq]
    simp [hi]

/-- How far the roots keep away from the boundary. -/
noncomputable def scaledGap (B W : ℝ) : ℝ := B * (√(B ^ 2 + W) - B) / (√(B ^ 2 + W) * (16 + W))

theorem scaledGap_eq {B W x0 x1 : ℝ} (e1 : (x1 - x0) / 2 = B) (e2 : x0 * x1 = W)
    (e3 : (x0 + x1) / 2 = √(B ^ 2 + W)) (e4 : x0 = √(B ^ 2 + W) - B) : bandGap x0 x1 = scaledGap B W := by
  unfold bandGap scaledGap
  rw [← e4, ← e3, e2, ← e1]
  rw [show (x1 - x0) / 2 * x0 = 2⁻¹ * ((x1 - x0) * x0) by ring,
    show (x0 + x1) / 2 * (16 + W) = 2⁻¹ * ((x0 + x1) * (16 + W)) by ring, mul_div_mul_left _ _ (by norm_num)]

/-- The poles of the digital filter keep their distance from the unit circle and from the real axis. -/
theorem scaled_margin {q s : ℂ} {W M : ℝ} (hq : q ≠ 0) (hW : 0 < W) (hM : M = √(‖q‖ ^ 2 + W))
    (hs : s ^ 2 - 2 * q * s + (W : ℂ) = 0) {c : ℝ} (hc : 0 ≤ c) (hre : q.re ≤ -(c * ‖q‖)) :
    s.re ≤ 0 ∧ ‖exBilin s‖ ≤ 1 - 4 * c * scaledGap ‖q‖ W ∧
    (∀ d, 0 < d → d * ‖q‖ ≤ |q.im| → 4 * d * scaledGap ‖q‖ W ≤ |(exBilin s).im|) ∧
    (∀ κ, 0 < κ → q.im = 0 → (κ * M) ^ 2 ≤ s.im ^ 2 → 4 * κ * scaledGap ‖q‖ W ≤ |(exBilin s).im|) := by
  have hn : 0 < ‖q‖ := norm_pos_iff.mpr hq
  obtain ⟨x0, x1, h0, h01, e1, e2, e3, e4⟩ := scaled_edges hn hW
  obtain ⟨u1, u2, u3, u4⟩ := unit_dir hq
  have hs' : s ^ 2 - 2 * (((x1 - x0) / 2 : ℝ) * (q / (‖q‖ : ℂ))) * s + (x0 * x1 : ℝ) = 0 := by
    rw [e1, u2, e2]; exact hs
  have hre' : (q / (‖q‖ : ℂ)).re ≤ -c := by
    rw [u3, div_le_iff₀ hn]; linarith
  obtain ⟨m1, m2, m3⟩ := band_margin h0 h01 u1 hs' hc hre'
  rw [scaledGap_eq e1 e2 e3 e4] at m2 m3
  refine ⟨m1, m2, fun d hd hi => m3 d hd ?_, fun κ hκ hi hsi => ?_⟩
  · rw [u4, abs_div, abs_of_pos hn, le_div_iff₀ hn]; exact hi
  · rw [← scaledGap_eq e1 e2 e3 e4]
    refine band_margin_real h0 h01 hκ u1 hs' (by rw [u4, hi, zero_div]) (by linarith) ?_
    rw [e3, ← hM]; exact hsi

/-- The gap for prototype poles of other sizes than one. -/
theorem scaledGap_le {w0 w1 N Λ : ℝ} (h0 : 0 < w0) (h01 : w0 < w1) (hN : 0 < N) (hΛ : N ≤ Λ) (hΛ1 : 1 ≤ Λ * N) :
    bandGap w0 w1 ≤ Λ * scaledGap (N * ((w1 - w0) / 2)) (w0 * w1) := by
  obtain ⟨b, hb⟩ : ∃ b, b = (w1 - w0) / 2 := ⟨_, rfl⟩
  obtain ⟨W, hW⟩ : ∃ W, W = w0 * w1 := ⟨_, rfl⟩
  obtain ⟨K, hK⟩ : ∃ K, K = (w0 + w1) / 2 := ⟨_, rfl⟩
  have hb0 : 0 < b := by rw [hb]; linarith
  have hK0 : 0 < K := by rw [hK]; linarith
  have hW0 : 0 < W := by rw [hW]; exact mul_pos h0 (h0.trans h01)
  have hK2 : K ^ 2 = b ^ 2 + W := by rw [hK, hb, hW]; ring
  have hw : w0 = K - b := by rw [hK, hb]; ring
  have hg : bandGap w0 w1 = b * w0 / (K * (16 + W)) := by
    unfold bandGap
    rw [← hW, hK, hb, show (w1 - w0) / 2 * w0 = 2⁻¹ * ((w1 - w0) * w0) by ring,
      show (w0 + w1) / 2 * (16 + W) = 2⁻¹ * ((w0 + w1) * (16 + W)) by ring, mul_div_mul_left _ _ (by norm_num)]
  rw [hg, ← hb, ← hW]
  unfold scaledGap
  obtain ⟨M, hM⟩ : ∃ M, M = √((N * b) ^ 2 + W) := ⟨_, rfl⟩
  have hM2 : M ^ 2 = (N * b) ^ 2 + W := by rw [hM]; exact Real.sq_sqrt (by positivity)
  have hM0 : 0 < M := by rw [hM]; exact Real.sqrt_pos.mpr (by positivity)
  rw [← hM]
  have hΛ0 : 0 < Λ := lt_of_lt_of_le hN hΛ
  have key : w0 * M ≤ Λ * N * (M - N * b) * K := by
    have hprod : (M - N * b) * (M + N * b) = W := by linear_combination hM2
    have hprod0 : w0 * (K + b) = W := by rw [hw]; linear_combination hK2
    have hd0 : 0 < M - N * b := by
      have : 0 < M + N * b := by positivity
      by_contra hneg
      have := mul_nonpos_of_nonpos_of_nonneg (not_lt.mp hneg) this.le
      linarith
    rcases le_total N 1 with hN1 | hN1
    · -- a smaller pole
      have i1 : M ≤ K := by
        refine (sq_le_sq₀ hM0.le hK0.le).mp ?_
        rw [hM2, hK2]
        have : N * b ≤ b := mul_le_of_le_one_left hb0.le hN1
        have := pow_le_pow_left₀ (by positivity) this 2
        linarith
      have i2 : w0 ≤ M - N * b := by
        have j1 : M + N * b ≤ K + b := add_le_add i1 (mul_le_of_le_one_left hb0.le hN1)
        have j2 : w0 * (M + N * b) ≤ (M - N * b) * (M + N * b) := by
          rw [hprod, ← hprod0]; exact mul_le_mul_of_nonneg_left j1 h0.le
        exact le_of_mul_le_mul_right j2 (by positivity)
      calc w0 * M ≤ (M - N * b) * K := mul_le_mul i2 i1 hM0.le hd0.le
        _ ≤ Λ * N * ((M - N * b) * K) := le_mul_of_one_le_left (by positivity) hΛ1
        _ = _ := by ring
    · have i1 : M ≤ N * K := by
        refine (sq_le_sq₀ hM0.le (by positivity)).mp ?_
        rw [hM2, mul_pow, mul_pow, hK2]
        nlinarith [one_le_pow₀ hN1 (n := 2)]
      have i2 : w0 ≤ N * (M - N * b) := by
        have j1 : M + N * b ≤ N * (K + b) := by linarith
        have j2 : w0 * (M + N * b) ≤ N * (M - N * b) * (M + N * b) := by
          rw [mul_assoc, hprod, ← hprod0]
          calc _ ≤ w0 * (N * (K + b)) := mul_le_mul_of_nonneg_left j1 h0.le
            _ = _ := by ring
        exact le_of_mul_le_mul_right j2 (by positivity)
      calc w0 * M ≤ N * (M - N * b) * (N * K) := mul_le_mul i2 i1 hM0.le (by positivity)
        _ ≤ N * (M - N * b) * (Λ * K) := by gcongr
        _ = _ := by ring
  rw [← mul_div_assoc, div_le_div_iff₀ (by positivity) (by positivity)]
  have := mul_le_mul_of_nonneg_left key (by positivity : 0 ≤ b * (16 + W))
  calc _ = b * (16 + W) * (w0 * M) := by ring
    _ ≤ _ := this
    _ = _ := by ring

/-- The sizes for prototype poles of other sizes than one. -/
theorem scaled_sizes {w0 w1 N Λ M : ℝ} (h0 : 0 < w0) (h01 : w0 < w1) (hN : 0 < N) (hΛ : N ≤ Λ) (hΛ1 : 1 ≤ Λ * N)
    (hΛ2 : 1 ≤ Λ) (hM : M = √((N * ((w1 - w0) / 2)) ^ 2 + w0 * w1)) :
    0 < M ∧ w0 * w1 ≤ M ^ 2 ∧ N * ((w1 - w0) / 2) ≤ M ∧ M ≤ Λ * ((w0 + w1) / 2) ∧
    N * ((w0 + w1) / 2) ≤ Λ * M ∧
    ∀ δ, 0 ≤ δ → δ * (w0 + w1) ≤ w1 - w0 → δ * M ≤ Λ * (N * ((w1 - w0) / 2)) := by
  obtain ⟨b, hb⟩ : ∃ b, b = (w1 - w0) / 2 := ⟨_, rfl⟩
  obtain ⟨W, hW⟩ : ∃ W, W = w0 * w1 := ⟨_, rfl⟩
  obtain ⟨K, hK⟩ : ∃ K, K = (w0 + w1) / 2 := ⟨_, rfl⟩
  have hb0 : 0 < b := by rw [hb]; linarith
  have hK0 : 0 < K := by rw [hK]; linarith
  have hW0 : 0 < W := by rw [hW]; exact mul_pos h0 (h0.trans h01)
  have hK2 : K ^ 2 = b ^ 2 + W := by rw [hK, hb, hW]; ring
  rw [← hb, ← hW] at hM
  rw [← hb, ← hW, ← hK]
  have hM2 : M ^ 2 = (N * b) ^ 2 + W := by rw [hM]; exact Real.sq_sqrt (by positivity)
  have hM0 : 0 < M := by rw [hM]; exact Real.sqrt_pos.mpr (by positivity)
  have hΛ0 : 0 < Λ := by linarith
  have b1 : M ^ 2 ≤ (Λ * K) ^ 2 := by
    rw [hM2, mul_pow, mul_pow, hK2]
    have i1 : N ^ 2 * b ^ 2 ≤ Λ ^ 2 * b ^ 2 := by gcongr
    have i2 := le_mul_of_one_le_left hW0.le (one_le_pow₀ hΛ2 (n := 2))
    linarith
  have b2 : (N * K) ^ 2 ≤ (Λ * M) ^ 2 := by
    rw [mul_pow, mul_pow, hM2, hK2, mul_pow]
    have i1 := le_mul_of_one_le_left (by positivity : 0 ≤ N ^ 2 * b ^ 2) (one_le_pow₀ hΛ2 (n := 2))
    have i2 : N ^ 2 * W ≤ Λ ^ 2 * W := by gcongr
    linarith
  have b3 : (N * b) ^ 2 ≤ M ^ 2 := by rw [hM2]; linarith
  refine ⟨hM0, by rw [hM2]; linarith [sq_nonneg (N * b)], (sq_le_sq₀ (by positivity) hM0.le).mp b3,
    (sq_le_sq₀ hM0.le (by positivity)).mp b1, (sq_le_sq₀ (by positivity) (by positivity)).mp b2, fun δ hδ hd => ?_⟩
  have hdK : δ * K ≤ b := by rw [hK, hb]; linarith
  have i1 : M ≤ Λ * N * K := by
    refine (sq_le_sq₀ hM0.le (by positivity)).mp ?_
    rw [hM2, mul_pow N, mul_pow (Λ * N), mul_pow Λ, hK2]
    have h1 : 1 ≤ (Λ * N) ^ 2 := one_le_pow₀ hΛ1
    rw [mul_pow] at h1
    have i1 := le_mul_of_one_le_left hW0.le h1
    have i2 := le_mul_of_one_le_left (by positivity : 0 ≤ N ^ 2 * b ^ 2) (one_le_pow₀ hΛ2 (n := 2))
    linarith
  calc δ * M ≤ δ * (Λ * N * K) := mul_le_mul_of_nonneg_left i1 hδ
    _ = Λ * N * (δ * K) := by ring
    _ ≤ Λ * N * b := by gcongr
    _ = _ := by ring

/-- The computed prototype pole times half of the bandwidth. -/
theorem scaled_bp_err {b b' H M N : ℝ} {ζ ζ' : ℂ} (S : Small r h σ) (hr : r.Nearest) (hhH : h ≤ H)
    (hH : H ≤ 1 / 1024) (hσ : σ ≤ M) (hb0 : 0 < b) (hN : 0 < N) (hζ : ‖ζ‖ = N) (hbM : N * b ≤ M)
    (eζ : ‖ζ' - ζ‖ ≤ 16 * H * N) (eb : N * |b' - b| ≤ 12 * H * M) :
    ‖flMul r ζ' (b' : ℂ) - b * ζ‖ ≤ 42 * H * M := by
  have h0 := S.h_nonneg
  have hM0 : 0 < M := lt_of_lt_of_le S.pos hσ
  have hHM : H * M ≤ 1 / 1024 * M := mul_le_mul_of_nonneg_right hH hM0.le
  have hhM : h * M ≤ H * M := mul_le_mul_of_nonneg_right hhH hM0.le
  have hHN : H * N ≤ 1 / 1024 * N := mul_le_mul_of_nonneg_right hH hN.le
  have hb' : N * |b'| ≤ 1.02 * M := by
    have := abs_add_le (b' - b) b
    rw [sub_add_cancel, abs_of_pos hb0] at this
    have := mul_le_mul_of_nonneg_left this hN.le
    linarith
  have hζ' : ‖ζ'‖ ≤ 1.02 * N := by
    have := norm_add_le (ζ' - ζ) ζ
    rw [sub_add_cancel, hζ] at this
    linarith
  have hB : ‖ζ'‖ * |b'| ≤ 1.05 * M := by
    have := mul_le_mul_of_nonneg_right hζ' (abs_nonneg b')
    linarith
  have k1 := S.flMul_real hr hB (by linarith [S.pos])
  have k2 : ‖ζ' * (b' : ℂ) - b * ζ‖ ≤ 16.4 * (H * M) + 12 * (H * M) := by
    have e1 : ζ' * (b' : ℂ) - b * ζ = (ζ' - ζ) * (b' : ℂ) + ((b' - b : ℝ) : ℂ) * ζ := by push_cast; ring
    rw [e1]
    refine (norm_add_le _ _).trans ?_
    rw [norm_mul, norm_mul, hζ, Complex.norm_real, Complex.norm_real, Real.norm_eq_abs, Real.norm_eq_abs]
    have i1 := mul_le_mul_of_nonneg_right eζ (abs_nonneg b')
    have i2 := mul_le_mul_of_nonneg_left hb' (by linarith : 0 ≤ 16 * H)
    have : 0 ≤ H * M := by linarith [mul_nonneg h0 hM0.le]
    linarith
  have k3 := norm_add_le (flMul r ζ' (b' : ℂ) - ζ' * b') (ζ' * b' - b * ζ)
  rw [sub_add_sub_cancel] at k3
  have : 0 ≤ h * M := by positivity
  linarith

/-- Half of the bandwidth divided by the computed prototype pole. -/
theorem scaled_bs_err {b b' H M N : ℝ} {ζ ζ' : ℂ} (S : Small r h σ) (hr : r.Nearest) (hhH : h ≤ H)
    (hH : H ≤ 1 / 1024) (hσ : σ ≤ 0.9 * M) (hb0 : 0 < b) (hN : 0 < N) (hσ1 : σ ≤ 0.9 * N ^ 2)
    (hσ2 : σ ≤ 0.9 * M * N ^ 2) (hζ : ‖ζ‖ = N) (hbM : N⁻¹ * b ≤ M)
    (eζ : ‖ζ' - ζ‖ ≤ 16 * H * N) (eb : N⁻¹ * |b' - b| ≤ 12 * H * M) :
    ‖flMul r (flDiv r ⟨0, b'⟩ ζ') (-Complex.I) - b / ζ‖ ≤ 42 * H * M := by
  have h0 := S.h_nonneg
  have hM0 : 0 < M := by linarith [S.pos]
  have hHM : H * M ≤ 1 / 1024 * M := mul_le_mul_of_nonneg_right hH hM0.le
  have hhM : h * M ≤ H * M := mul_le_mul_of_nonneg_right hhH hM0.le
  have hHN : H * N ≤ 1 / 1024 * N := mul_le_mul_of_nonneg_right hH hN.le
  have hhM0 : 0 ≤ h * M := by positivity
  have hN' : 0 < N⁻¹ := by positivity
  have hb1 : b ≤ M * N := by
    have := mul_le_mul_of_nonneg_right hbM hN.le
    rwa [mul_right_comm, inv_mul_cancel₀ hN.ne', one_mul] at this
  have eb1 : |b' - b| ≤ 12 * H * M * N := by
    have := mul_le_mul_of_nonneg_right eb hN.le
    rwa [mul_right_comm, inv_mul_cancel₀ hN.ne', one_mul] at this
  have hHMN : H * M * N ≤ 1 / 1024 * M * N := mul_le_mul_of_nonneg_right hHM hN.le
  have hMN : 0 < M * N := by positivity
  have hb' : |b'| ≤ 1.02 * (M * N) := by
    have := abs_add_le (b' - b) b
    rw [sub_add_cancel, abs_of_pos hb0] at this
    linarith
  have z1 : ‖ζ'‖ ≤ 1.02 * N := by
    have := norm_add_le (ζ' - ζ) ζ
    rw [sub_add_cancel, hζ] at this
    linarith
  have z3 : 0.98 * N ≤ ‖ζ'‖ := by
    have := norm_sub_norm_le ζ ζ'
    rw [hζ, norm_sub_rev] at this
    linarith
  have z0 : 0 < ‖ζ'‖ := by linarith
  have hζ0 : ζ ≠ 0 := by rw [← norm_pos_iff, hζ]; exact hN
  have hζ0' : ζ' ≠ 0 := by rwa [← norm_pos_iff]
  have eI : (⟨0, b'⟩ : ℂ) = (b' : ℂ) * Complex.I := by apply Complex.ext <;> simp
  have nI : ‖(⟨0, b'⟩ : ℂ)‖ = |b'| := by
    rw [eI, norm_mul, Complex.norm_I, mul_one, Complex.norm_real, Real.norm_eq_abs]
  have hB : ‖(⟨0, b'⟩ : ℂ)‖ * ‖ζ'‖ ≤ 1.02 * (M * N) * ‖ζ'‖ := by
    rw [nI]; exact mul_le_mul_of_nonneg_right hb' z0.le
  have e1 : 1.02 * (M * N) * ‖ζ'‖ / ‖ζ'‖ ^ 2 = 1.02 * (M * N) / ‖ζ'‖ := by field_simp
  have e2 : 1.02 * (M * N) / ‖ζ'‖ ≤ 1.05 * M := by
    rw [div_le_iff₀ z0]
    have := mul_le_mul_of_nonneg_left z3 (by positivity : 0 ≤ 1.05 * M)
    linarith
  have z4 : 0.9 * N ^ 2 ≤ ‖ζ'‖ ^ 2 := by
    have := pow_le_pow_left₀ (by positivity) z3 2
    have : (0.98 * N) ^ 2 = 0.9604 * N ^ 2 := by ring
    have := sq_nonneg N
    linarith
  have k1 := S.flDiv (by linarith) hr (hσ1.trans z4) hB (by
      have := mul_le_mul_of_nonneg_left z3 (by positivity : 0 ≤ 1.02 * (M * N))
      have e : 1.02 * (M * N) * (0.98 * N) = 0.9996 * (M * N ^ 2) := by ring
      have : 0 ≤ M * N ^ 2 := by positivity
      linarith) (by
    rw [e1, le_div_iff₀ z0]
    have := mul_le_mul hσ z1 z0.le (by positivity)
    linarith)
  rw [e1] at k1
  have k1' : ‖flDiv r ⟨0, b'⟩ ζ' - ⟨0, b'⟩ / ζ'‖ ≤ 11.6 * (h * M) := by
    have := mul_le_mul_of_nonneg_left e2 h0
    linarith
  obtain ⟨x, hx⟩ : ∃ x, x = flDiv r ⟨0, b'⟩ ζ' := ⟨_, rfl⟩
  have rx : r.rnd x.re = x.re ∧ r.rnd x.im = x.im := by
    rw [hx]; exact ⟨hr.idem _, hr.idem _⟩
  rw [← hx] at k1' ⊢
  rw [flMul_neg_I hr rx.1 rx.2]
  have k2 : ‖(b' : ℂ) / ζ' - b / ζ‖ ≤ 12.3 * (H * M) + 16.4 * (H * M) := by
    have e3 : (b' : ℂ) / ζ' - b / ζ = (((b' - b : ℝ) : ℂ) * ζ - b * (ζ' - ζ)) / (ζ' * ζ) := by
      push_cast; field_simp; ring
    rw [e3, norm_div, norm_mul ζ', hζ, div_le_iff₀ (by positivity)]
    refine (norm_sub_le _ _).trans ?_
    rw [norm_mul, norm_mul, hζ, Complex.norm_real, Complex.norm_real, Real.norm_eq_abs, Real.norm_of_nonneg hb0.le]
    have i1 := mul_le_mul hb1 eζ (norm_nonneg _) hMN.le
    have i0 := mul_le_mul_of_nonneg_right eb1 hN.le
    have i2 : (12.3 * (H * M) + 16.4 * (H * M)) * (0.98 * N * N) ≤ (12.3 * (H * M) + 16.4 * (H * M)) * (‖ζ'‖ * N) := by
      refine mul_le_mul_of_nonneg_left (mul_le_mul_of_nonneg_right z3 hN.le) (by linarith)
    have i3 : 0 ≤ H * M * N * N := by
      have : 0 ≤ H * M := by linarith
      positivity
    linarith
  have e4 : x * -Complex.I - b / ζ = (x - ⟨0, b'⟩ / ζ') * -Complex.I + ((b' : ℂ) / ζ' - b / ζ) := by
    have e5 : (b' : ℂ) * Complex.I / ζ' * -Complex.I = -(Complex.I * Complex.I) * (b' / ζ') := by ring
    rw [eI, sub_mul, e5, Complex.I_mul_I]
    ring
  rw [e4]
  refine (norm_add_le _ _).trans ?_
  rw [norm_mul, norm_neg, Complex.norm_I, mul_one]
  linarith

set_option maxHeartbeats 800000 in
/-- The computed roots. -/
theorem scaled_root_err {H M W W' κ : ℝ} {q q' x' : ℂ} (S : Small r h σ) (hr : r.Nearest) (hm : m.Accurate r h)
    (hp : m.AccuratePolar r h) (hhH : h ≤ H) (hH1 : H ≤ 1 / 1024) (hH : 300 * H ≤ κ ^ 2) (hH2 : 1000 * H ≤ κ)
    (hκ : 0 < κ) (hκ1 : κ ≤ 1) (hq : q ≠ 0) (hW : 0 < W) (hM : M = √(‖q‖ ^ 2 + W)) (hσ1 : σ ≤ 1) (hσM : σ ≤ M)
    (hσW : σ ≤ W) (hσκ : σ ≤ κ ^ 2 * M ^ 2 / 2) (eq : ‖q' - q‖ ≤ 42 * H * M) (eW : |W' - W| ≤ 51 * H * W)
    (hside : (q.im = 0 ∧ q'.im = 0 ∧ κ ^ 2 * M ^ 2 ≤ |‖q‖ ^ 2 - W|) ∨
      (κ ^ 2 * ‖q‖ ≤ |q.im| ∧ 150 * H * M ^ 2 < 2 * (|q.re| * |q.im|)))
    (hx' : x' = flSqrt r m ⟨r.rnd ((flMul r q' q').re - W'), r.rnd ((flMul r q' q').im - 0)⟩) (up : Bool) :
    ‖(if up then (⟨r.rnd (q'.re + x'.re), r.rnd (q'.im + x'.im)⟩ : ℂ)
      else ⟨r.rnd (q'.re - x'.re), r.rnd (q'.im - x'.im)⟩) - signed up q (csqrt (q ^ 2 - (W : ℂ)))‖ ≤
        216 * H * M / κ ∧
    (q.im = 0 → q'.im = 0 → κ ^ 2 * M ^ 2 ≤ |‖q‖ ^ 2 - W| → W ≤ ‖q‖ ^ 2 → x'.im = 0) := by
  have h0 := S.h_nonneg
  have hn : 0 < ‖q‖ := norm_pos_iff.mpr hq
  obtain ⟨d1, d2, d3, d4⟩ := scaled_disc hq hW hM
  have hM2 : M ^ 2 = ‖q‖ ^ 2 + W := by rw [hM]; exact Real.sq_sqrt (by positivity)
  have hM0 : 0 < M := by rw [hM]; exact Real.sqrt_pos.mpr (by positivity)
  have hWM : W ≤ M ^ 2 := by rw [hM2]; linarith [sq_nonneg ‖q‖]
  have nq : ‖q‖ ≤ M := (sq_le_sq₀ hn.le hM0.le).mp (by rw [hM2]; linarith)
  have ea := disc_err S hr hhH hH1 hM0 (hσW.trans hWM) nq eq hW hWM eW
  obtain ⟨a, ha⟩ : ∃ a, a = q ^ 2 - (W : ℂ) := ⟨_, rfl⟩
  obtain ⟨a', ha'⟩ : ∃ a' : ℂ, a' = ⟨r.rnd ((flMul r q' q').re - W'), r.rnd ((flMul r q' q').im - 0)⟩ := ⟨_, rfl⟩
  rw [← ha] at d1 d2 d3 d4
  rw [← ha, ← ha'] at ea
  rw [← ha'] at hx'
  rw [← ha]
  have hreal : q'.im = 0 → a'.im = 0 := by
    intro hi
    rw [ha']
    simp [flMul, hi, r.zero]
  have hB0 : 0 < M ^ 2 := by positivity
  have h7B : 300 * H * M ^ 2 ≤ κ ^ 2 * M ^ 2 := mul_le_mul_of_nonneg_right hH hB0.le
  have hκB : 0 < κ ^ 2 * M ^ 2 := by positivity
  have hlow : κ ^ 2 * M ^ 2 ≤ ‖a‖ := by
    rcases hside with ⟨i1, -, i3⟩ | ⟨i1, -⟩
    · rw [← d4 i1] at i3
      exact i3.trans (Complex.abs_re_le_norm a)
    · have := (mul_le_mul_of_nonneg_right i1 hB0.le).trans d2
      rw [mul_right_comm, mul_comm] at this
      exact le_of_mul_le_mul_left this hn
  have hsr : q.im = 0 → q'.im = 0 → κ ^ 2 * M ^ 2 ≤ |‖q‖ ^ 2 - W| → SameSide a a' := by
    intro i1 i2 i3
    refine sameSide_of ea (.inr ⟨?_, hreal i2, ?_⟩)
    · rw [d3, i1]; ring
    · rw [d4 i1]; linarith
  have hsd : SameSide a a' := by
    rcases hside with ⟨i1, i2, i3⟩ | ⟨-, i2⟩
    · exact hsr i1 i2 i3
    · refine sameSide_of ea (.inl ?_)
      rw [d3, abs_mul, abs_mul, abs_of_pos (by norm_num : (0 : ℝ) < 2)]
      exact i2
  obtain ⟨r1, r2⟩ := band_root_err S hhH hm hp hH hH1 hκ hκ1 hM0 hσ1 hσM hσκ nq eq hlow d1 ea hsd
  rw [← hx'] at r1
  have nx : ‖x'‖ ≤ 1.2 * M := by
    have k1 := norm_add_le (x' - csqrt a) (csqrt a)
    rw [sub_add_cancel, csqrt_norm] at k1
    have k2 : √‖a‖ ≤ M := Real.sqrt_le_iff.mpr ⟨hM0.le, d1⟩
    have k3 : 170 * H * M / κ ≤ 0.18 * M := by
      rw [div_le_iff₀ hκ]
      have i2 := mul_le_mul_of_nonneg_right hH2 hM0.le
      nlinarith [mul_pos hκ hM0]
    linarith
  constructor
  · unfold signed
    cases up with
    | true => exact r2 x' (csqrt a) nx r1
    | false =>
      have := r2 (-x') (-csqrt a) (by rwa [norm_neg]) (by
        rw [show -x' - -csqrt a = -(x' - csqrt a) by ring, norm_neg]; exact r1)
      rw [Complex.neg_re, Complex.neg_im, ← sub_eq_add_neg, ← sub_eq_add_neg, ← sub_eq_add_neg] at this
      exact this
  · intro i1 i2 i3 hge
    have hap : 0 < a.re := by
      rw [← d4 i1] at i3
      rw [abs_of_nonneg (by rw [d4 i1]; linarith)] at i3
      linarith
    have ha'p : 0 < a'.re := by
      rcases hsr i1 i2 i3 with k | k | ⟨-, -, k⟩
      · have := hreal i2; linarith [k.2]
      · have := hreal i2; linarith [k.2]
      · rcases k with k | k
        · exact k.2
        · linarith [k.1]
    rw [hx']
    unfold flSqrt
    rw [if_pos (hreal i2), if_pos ha'p.le]
    exact hreal i2

end SciRs.Rounded

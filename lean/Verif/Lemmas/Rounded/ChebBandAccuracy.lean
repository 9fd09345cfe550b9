import Verif.Lemmas.Rounded.ChebBandPoles

/-! # All errors of the poles of Chebyshev I band-pass and band-stop designs together -/

namespace SciRs.Rounded

open SciRs.Spec SciRs.Design

variable {r : Rounding} {m : Libm} {h : ℝ}

/-- The request in terms of the size of the errors. -/
theorem chebBand_facts {n : ℕ} {rp e0 e1 κ Λ : ℝ} {stop : Bool} (R : ChebBandRequest n rp e0 e1 κ Λ h stop)
    (h0 : 0 ≤ h) {H : ℝ} (hH : H = 4 * (n * rippleCond rp ^ 2 * Λ * h) / (1 - e1)) :
    1 ≤ Λ ∧ h ≤ h / (1 - e1) ∧ Λ * (h / (1 - e1)) ≤ H ∧ h / (1 - e1) ≤ H ∧ h ≤ H ∧ H ≤ 1 / 1024 ∧ 300 * H ≤ κ ^ 2 ∧
    1000 * H ≤ κ ∧ h ≤ (1 - e1) / 1024 ∧ 64 * (n * (rippleCond rp ^ 2 * h)) ≤ 16 * H ∧
    rippleCond rp ^ 2 * h ≤ 1 / 4096 ∧ 4000 * (H * Λ) ≤ κ * (1 - e1) ∧
    100 * (n ^ 2 * Λ ^ 4 * H) ≤ (e1 - e0) ^ 2 ∧ h ≤ H * Λ / (κ * (1 - e1)) := by
  obtain ⟨-, k1, -⟩ := ripple_facts R.ripple
  have hpos := R.pos
  have hlt := R.lt
  have hone := R.one
  have hκ := R.kappa
  have hκ1 := R.kappa_half
  have hn1 : (1 : ℝ) ≤ n := by exact_mod_cast Nat.one_le_iff_ne_zero.mpr R.order
  have hΛ : 1 ≤ Λ := (Real.one_le_cosh _).trans R.size
  have hp := R.prec
  have hs := R.side
  obtain ⟨E, hE⟩ : ∃ E, E = 1 - e1 := ⟨_, rfl⟩
  have hE0 : 0 < E := by linarith
  have hE1 : E ≤ 1 := by linarith
  rw [← hE] at hH hp hs ⊢
  obtain ⟨c, hc⟩ : ∃ c, c = rippleCond rp := ⟨_, rfl⟩
  rw [← hc] at hH hp hs k1 ⊢
  have hHE : H * E = 4 * (n * c ^ 2 * Λ * h) := by rw [hH]; field_simp
  have hc2 : 1 ≤ c ^ 2 := one_le_pow₀ k1
  have hnc : 1 ≤ n * c ^ 2 := one_le_mul_of_one_le_of_one_le hn1 hc2
  have hH0 : 0 ≤ H := by rw [hH]; positivity
  have g1 : h ≤ h / E := by rw [le_div_iff₀ hE0]; exact mul_le_of_le_one_right h0 hE1
  have g2 : Λ * (h / E) ≤ H := by
    rw [hH, ← mul_div_assoc]
    refine div_le_div_of_nonneg_right ?_ hE0.le
    have : Λ * h ≤ n * c ^ 2 * (Λ * h) := le_mul_of_one_le_left (by positivity) hnc
    have : 0 ≤ Λ * h := by positivity
    linarith
  have g3 : h / E ≤ H := (le_mul_of_one_le_left (by positivity) hΛ).trans g2
  have g4 : 4000 * (H * Λ) ≤ κ ^ 2 * E := by
    refine le_of_mul_le_mul_right ?_ hE0
    calc 4000 * (H * Λ) * E = 4000 * Λ * (H * E) := by ring
      _ = 16000 * (n * c ^ 2 * Λ ^ 2 * h) := by rw [hHE]; ring
      _ ≤ _ := hp
      _ = _ := by ring
  have hκ2 : κ ^ 2 ≤ κ / 2 := by nlinarith
  have g5 : κ ^ 2 * E ≤ κ ^ 2 := mul_le_of_le_one_right (sq_nonneg _) hE1
  have g6 : H ≤ H * Λ := le_mul_of_one_le_right hH0 hΛ
  have g7 : κ ^ 2 * E ≤ κ / 2 * E := mul_le_mul_of_nonneg_right hκ2 hE0.le
  have g8 : κ / 2 * E ≤ 1 / 4 * E := mul_le_mul_of_nonneg_right (by linarith) hE0.le
  have g9 : 64 * (n * (c ^ 2 * h)) ≤ 16 * H := by
    have i1 : n * (c ^ 2 * h) ≤ Λ * (n * (c ^ 2 * h)) := le_mul_of_one_le_left (by positivity) hΛ
    have i2 : H * E ≤ H := mul_le_of_le_one_right hH0 hE1
    rw [hHE] at i2
    linarith
  have g10 : c ^ 2 * h ≤ n * (c ^ 2 * h) := le_mul_of_one_le_left (by positivity) hn1
  have hκE : 0 < κ * E := by positivity
  refine ⟨hΛ, g1, g2, g3, g1.trans g3, by linarith, by linarith, by linarith, ?_, g9, by linarith, by linarith, ?_, ?_⟩
  · have i1 : h ≤ H := g1.trans g3
    linarith
  · refine le_of_mul_le_mul_right ?_ hE0
    calc 100 * (n ^ 2 * Λ ^ 4 * H) * E = 100 * (n ^ 2 * Λ ^ 4) * (H * E) := by ring
      _ = 400 * (n ^ 3 * c ^ 2 * Λ ^ 5 * h) := by rw [hHE]; ring
      _ ≤ _ := hs
      _ = _ := by ring
  · rw [le_div_iff₀ hκE]
    have : κ * E ≤ 1 := by nlinarith
    have := mul_le_of_le_one_right h0 this
    linarith

/-- The smallest number of the design. -/
theorem chebBandFloor_le {n : ℕ} {rp e0 e1 κ Λ : ℝ} {stop : Bool} (R : ChebBandRequest n rp e0 e1 κ Λ h stop) :
    4 * chebBandFloor n rp e0 κ Λ ≤ 1 / rippleCond rp ∧ chebBandFloor n rp e0 κ Λ ≤ rippleFloor rp / n ∧
    chebBandFloor n rp e0 κ Λ ≤ κ ^ 2 * e0 ^ 2 / 4 ∧ Λ ^ 2 * chebBandFloor n rp e0 κ Λ ≤ κ ^ 2 * e0 ^ 2 / 4 ∧
    0 ≤ chebBandFloor n rp e0 κ Λ := by
  obtain ⟨-, k1, -, -, -, -, g0, gf, -⟩ := ripple_facts R.ripple
  have hn1 : (1 : ℝ) ≤ n := by exact_mod_cast Nat.one_le_iff_ne_zero.mpr R.order
  have hΛ : 1 ≤ Λ := (Real.one_le_cosh _).trans R.size
  have hκ := R.kappa
  have he := R.pos
  have hκ2 : κ ^ 2 ≤ 1 := pow_le_one₀ hκ.le (by linarith [R.kappa_half])
  have he2 : e0 ^ 2 ≤ 1 := pow_le_one₀ he.le (by linarith [R.lt, R.one])
  have hΛ2 : 1 ≤ Λ ^ 2 := one_le_pow₀ hΛ
  unfold chebBandFloor
  obtain ⟨c, hc⟩ : ∃ c, c = rippleCond rp := ⟨_, rfl⟩
  obtain ⟨F, hF⟩ : ∃ F, F = rippleFloor rp := ⟨_, rfl⟩
  rw [← hc] at k1 ⊢
  rw [← hF] at g0 gf ⊢
  have ha : κ ^ 2 * e0 ^ 2 ≤ 1 := mul_le_one₀ hκ2 (sq_nonneg _) he2
  have hb : κ ^ 2 * e0 ^ 2 * F ≤ 1 := mul_le_one₀ ha g0.le gf
  have hnΛ : 1 ≤ n * Λ ^ 2 := one_le_mul_of_one_le_of_one_le hn1 hΛ2
  have hcΛ : 1 ≤ c * Λ ^ 2 := one_le_mul_of_one_le_of_one_le k1 hΛ2
  have hnc : 1 ≤ n * c := one_le_mul_of_one_le_of_one_le hn1 k1
  have hc0 : 0 < c := by linarith
  have hn0 : (0 : ℝ) < n := by linarith
  have hΛ0 : 0 < Λ := by linarith
  refine ⟨?_, ?_, ?_, ?_, by positivity⟩
  · rw [← mul_div_assoc, div_le_div_iff₀ (by positivity) hc0]
    have := mul_le_mul_of_nonneg_right (hb.trans hnΛ) (by positivity : 0 ≤ 4 * c)
    linarith
  · rw [div_le_div_iff₀ (by positivity) hn0]
    have := mul_le_mul_of_nonneg_right (ha.trans hcΛ) (by positivity : 0 ≤ F * n)
    have : 0 ≤ F * n * (c * Λ ^ 2) := by positivity
    linarith
  · rw [div_le_div_iff₀ (by positivity) (by norm_num)]
    have i0 : 0 ≤ κ ^ 2 * e0 ^ 2 := by positivity
    have i1 : 1 ≤ n * c * Λ ^ 2 := one_le_mul_of_one_le_of_one_le hnc hΛ2
    have := mul_le_mul_of_nonneg_left (gf.trans i1) i0
    linarith
  · rw [← mul_div_assoc, div_le_div_iff₀ (by positivity) (by norm_num)]
    have i0 : 0 ≤ κ ^ 2 * e0 ^ 2 * Λ ^ 2 := by positivity
    have := mul_le_mul_of_nonneg_left (gf.trans hnc) i0
    linarith

theorem cshift_real (n : ℕ) (rp : ℝ) (band : Band) (v0 v1 : ℝ) :
    ((Arith.ofRounding r m).cshift n rp band v0 v1 0).im = 0 := by
  have hs : m.sin 0 = 0 := by
    have := m.sin_neg 0
    rw [neg_zero] at this
    linarith
  have h1 : (flCheb r m n rp 0).im = 0 := by
    simp [flCheb, flCAngle_zero, hs, r.zero]
  have e : (Arith.ofRounding r m).cshift n rp band v0 v1 0 = if band = .bandpass then
      flMul r (flCheb r m n rp 0) ((Arith.ofRounding r m).half v0 v1 : ℝ) else
      flMul r (flDiv r ⟨0, (Arith.ofRounding r m).half v0 v1⟩ (flCheb r m n rp 0)) (-Complex.I) := rfl
  rw [e]
  split
  · simp [flMul, h1, r.zero]
  · simp [flMul, flDiv, h1, r.zero]

theorem exCRoot_eq (n : ℕ) (rp : ℝ) (band : Band) (e0 e1 : ℝ) (j : ℤ) (up : Bool) :
    exCRoot n rp band e0 e1 j up ^ 2 - 2 * exCShift n rp band (exWarp e0) (exWarp e1) j *
      exCRoot n rp band e0 e1 j up + ((exWarp e0 * exWarp e1 : ℝ) : ℂ) = 0 := by
  have h := csqrt_sq (exCShift n rp band (exWarp e0) (exWarp e1) j ^ 2 - ((exWarp e0 * exWarp e1 : ℝ) : ℂ))
  unfold exCRoot signed
  cases up <;> simp only [Bool.false_eq_true, if_true, if_false] <;> linear_combination h

/-- The size and the direction of the exact centre of the roots. -/
theorem exCShift_parts {n : ℕ} {rp e0 e1 κ Λ : ℝ} {band : Band}
    (R : ChebBandRequest n rp e0 e1 κ Λ h (isStop band)) {j : ℤ} (hj : j ∈ stepRange (-(n : ℤ) + 1) n) {q : ℂ}
    (hq : q = exCShift n rp band (exWarp e0) (exWarp e1) j) {M : ℝ}
    (hM : M = √(‖q‖ ^ 2 + exWarp e0 * exWarp e1)) :
    q ≠ 0 ∧ ‖q‖ = ‖exCZeta n rp band j‖ * ((exWarp e1 - exWarp e0) / 2) ∧
    q.re ≤ -(1 / (n * Λ ^ 2) * ‖q‖) ∧ (j ≠ 0 → 1 / n * ‖q‖ ≤ |q.im|) ∧
    (j = 0 → q.im = 0 ∧ κ ^ 2 * M ^ 2 ≤ |‖q‖ ^ 2 - exWarp e0 * exWarp e1|) := by
  obtain ⟨z1, z2, z3, z4, z5, z6, z7, -⟩ := exCZeta_bounds R.order R.ripple R.size R.size_inv band hj
  obtain ⟨w0, w01, -, -, -⟩ := exWarp_gap R.pos R.lt R.one
  obtain ⟨b, hb⟩ : ∃ b, b = (exWarp e1 - exWarp e0) / 2 := ⟨_, rfl⟩
  have hb0 : 0 < b := by rw [hb]; linarith
  have hqz : q = (b : ℂ) * exCZeta n rp band j := by rw [hq, exCShift, hb]
  have nq : ‖q‖ = ‖exCZeta n rp band j‖ * b := by
    rw [hqz, norm_mul, Complex.norm_real, Real.norm_of_nonneg hb0.le, mul_comm]
  have hre : q.re = b * (exCZeta n rp band j).re := by rw [hqz, Complex.re_ofReal_mul]
  have him : q.im = b * (exCZeta n rp band j).im := by rw [hqz, Complex.im_ofReal_mul]
  rw [← hb]
  refine ⟨?_, nq, ?_, fun hj0 => ?_, fun hj0 => ?_⟩
  · rw [← norm_pos_iff, nq]; positivity
  · rw [hre, nq]
    have := mul_le_mul_of_nonneg_left z5 hb0.le
    linarith
  · rw [him, nq, abs_mul, abs_of_pos hb0]
    have := mul_le_mul_of_nonneg_left (z6 hj0) hb0.le
    linarith
  · obtain ⟨i1, i2⟩ := z7 hj0
    refine ⟨by rw [him, i1, mul_zero], ?_⟩
    have hW0 : 0 < exWarp e0 * exWarp e1 := mul_pos w0 (w0.trans w01)
    have hodd := R.odd (by subst hj0; exact mem_stepRange_odd hj)
    rw [hM, Real.sq_sqrt (by positivity), nq, i2, hb]
    exact hodd

set_option maxHeartbeats 1600000 in
/-- The computed poles are close to the exact ones, and real if those are. -/
theorem cheb_band_pole_err (hr : r.Nearest) (hm : m.Accurate r h) (hm2 : m.AccurateHyp r h) (hp : m.AccuratePolar r h)
    {n : ℕ} {rp e0 e1 κ Λ : ℝ} {band : Band} (R : ChebBandRequest n rp e0 e1 κ Λ h (isStop band))
    (S : Small r h (chebBandFloor n rp e0 κ Λ)) {f0 f1 : ℝ} (hf0 : |f0 - e0| ≤ h * e0)
    (hf1 : |f1 - e1| ≤ h * e1) {j : ℤ} (hj : j ∈ stepRange (-(n : ℤ) + 1) n) (up : Bool) :
    ‖(Arith.ofRounding r m).cpole n rp band f0 f1 j up - exBilin (exCRoot n rp band e0 e1 j up)‖ ≤
      1240 * (n * rippleCond rp ^ 2 * Λ ^ 2 * h / (κ * (1 - e1) ^ 2)) ∧
    (j = 0 → exWarp e0 * exWarp e1 ≤ ‖exCShift n rp band (exWarp e0) (exWarp e1) j‖ ^ 2 →
      ((Arith.ofRounding r m).cpole n rp band f0 f1 j up).im = 0) ∧
    ‖(Arith.ofRounding r m).croot n rp band ((Arith.ofRounding r m).warped f0) ((Arith.ofRounding r m).warped f1)
        (j, up) - exCRoot n rp band e0 e1 j up‖ ≤
      2204 * (n * rippleCond rp ^ 2 * Λ ^ 2 * h / (κ * (1 - e1) ^ 2)) := by
  have h0 := S.h_nonneg
  obtain ⟨H, hH⟩ : ∃ H, H = 4 * (n * rippleCond rp ^ 2 * Λ * h) / (1 - e1) := ⟨_, rfl⟩
  obtain ⟨c1, c2, c3, c4, c5, c6, c7, c8, c9, c10, c11, c12, c13, c14⟩ := chebBand_facts R h0 hH
  obtain ⟨s1, s2, s3, s4, s5⟩ := chebBandFloor_le R
  obtain ⟨σ, hσ⟩ : ∃ σ, σ = chebBandFloor n rp e0 κ Λ := ⟨_, rfl⟩
  rw [← hσ] at S s1 s2 s3 s4 s5
  have hpos := R.pos
  have hlt := R.lt
  have hone := R.one
  have hκ := R.kappa
  have hκ1 : κ ≤ 1 := by linarith [R.kappa_half]
  have hκ2 : κ ^ 2 ≤ 1 := pow_le_one₀ hκ.le hκ1
  have hn1 : (1 : ℝ) ≤ n := by exact_mod_cast Nat.one_le_iff_ne_zero.mpr R.order
  have he1 : e0 ≤ 1 := by linarith
  have he2 : e0 ^ 2 ≤ e0 := by rw [sq]; exact mul_le_of_le_one_left hpos.le he1
  have hke : κ ^ 2 * e0 ^ 2 ≤ e0 ^ 2 := mul_le_of_le_one_left (sq_nonneg e0) hκ2
  have hσe : σ ≤ e0 := by linarith
  have S0 := S.anti hσe
  have S1 := S0.anti hlt.le
  obtain ⟨w0, w06, ew0⟩ := warp_err S0 hr (hlt.trans hone) hf0 (by linarith) hm
  obtain ⟨w1, w16, ew1⟩ := warp_err S1 hr hone hf1 c9 hm
  obtain ⟨-, w01, wb, -, wd⟩ := exWarp_gap hpos hlt hone
  have hH0 : 0 ≤ H := h0.trans c5
  have h1e : 0 < 1 - e1 := by linarith
  obtain ⟨H0, hH0d⟩ : ∃ H0, H0 = h / (1 - e1) := ⟨_, rfl⟩
  have c6' : h / (1 - e0) ≤ H0 := by
    rw [hH0d]; exact div_le_div_of_nonneg_left h0 h1e (by linarith)
  rw [← hH0d] at c2 c3 c4 ew1
  have hH00 : 0 ≤ H0 := h0.trans c2
  have ew0' : |flWarp r m f0 - exWarp e0| ≤ 9.7 * H0 * exWarp e0 := by
    refine ew0.trans (mul_le_mul_of_nonneg_right ?_ w0.le)
    linarith
  -- the exact numbers
  obtain ⟨q, hq⟩ : ∃ q, q = exCShift n rp band (exWarp e0) (exWarp e1) j := ⟨_, rfl⟩
  obtain ⟨M, hM⟩ : ∃ M, M = √(‖q‖ ^ 2 + exWarp e0 * exWarp e1) := ⟨_, rfl⟩
  obtain ⟨q0, nq, qre, qim, qz⟩ := exCShift_parts R hj hq hM
  obtain ⟨z1, z2, z3, z4, z5, z6, z7, z8, z9, z10⟩ := exCZeta_bounds R.order R.ripple R.size R.size_inv band hj
  obtain ⟨N, hN⟩ : ∃ N, N = ‖exCZeta n rp band j‖ := ⟨_, rfl⟩
  rw [← hN] at nq z2 z3 z4 z5 z6 z7 z10
  have hM' := hM
  rw [nq] at hM'
  obtain ⟨t1, t2, t3, t4, t5, t6⟩ := scaled_sizes w0 w01 z2 z3 z4 z1 hM'
  have t6 := t6 (e1 - e0) (by linarith) wd
  have hre := (scaled_margin q0 (mul_pos w0 w1) hM (by rw [hq]; exact exCRoot_eq n rp band e0 e1 j up)
    (by positivity : (0 : ℝ) ≤ 1 / (n * Λ ^ 2)) qre).1
  have hWW : 36 * e0 ^ 2 ≤ exWarp e0 * exWarp e1 := by nlinarith
  have hM6 : 6 * e0 ≤ M := by
    refine (sq_le_sq₀ (by positivity) t1.le).mp ?_
    refine le_trans (le_of_eq (by ring)) (hWW.trans t2)
  have hσW : σ ≤ exWarp e0 * exWarp e1 := by linarith [sq_nonneg e0]
  have hσq : σ ≤ √(exWarp e0 * exWarp e1) := by
    refine Real.le_sqrt_of_sq_le ?_
    have : σ ^ 2 ≤ e0 ^ 2 := pow_le_pow_left₀ s5 hσe 2
    linarith [sq_nonneg e0]
  have hσκ : σ ≤ κ ^ 2 * M ^ 2 / 2 := by
    have i1 : e0 ^ 2 ≤ M ^ 2 := pow_le_pow_left₀ hpos.le (by linarith) 2
    have := mul_le_mul_of_nonneg_left i1 (sq_nonneg κ)
    linarith [mul_nonneg (sq_nonneg κ) (sq_nonneg e0)]
  -- the errors of the band
  have hHH : H0 ≤ 1 / 1024 := by linarith
  have eh := half_err S c2 hHH w0 w01 rfl (by linarith) ew0' ew1
  have ec := centre_err S c2 hHH w0 w01 hσW hσq ew0' ew1
  have ep := centre_sq_err S c2 hHH hm (mul_pos w0 w1) hσW ec
  obtain ⟨v0, hv0⟩ : ∃ v0, v0 = flWarp r m f0 := ⟨_, rfl⟩
  obtain ⟨v1, hv1⟩ : ∃ v1, v1 = flWarp r m f1 := ⟨_, rfl⟩
  rw [← hv0, ← hv1] at eh ep
  obtain ⟨W, hW⟩ : ∃ W, W = exWarp e0 * exWarp e1 := ⟨_, rfl⟩
  have hW0 : 0 < W := by rw [hW]; exact mul_pos w0 w1
  rw [← hW] at hM qz t2 hWW hσW ep
  obtain ⟨b, hb⟩ : ∃ b, b = (exWarp e1 - exWarp e0) / 2 := ⟨_, rfl⟩
  have hb0 : 0 < b := by rw [hb]; linarith
  rw [← hb] at nq t3 t6 eh
  obtain ⟨b', hb'⟩ : ∃ b', b' = r.rnd (r.rnd (v1 - v0) / 2) := ⟨_, rfl⟩
  rw [← hb'] at eh
  obtain ⟨W', hW'⟩ : ∃ W', W' = m.powi (r.rnd √(r.rnd (v0 * v1))) 2 := ⟨_, rfl⟩
  rw [← hW'] at ep
  have ep' : |W' - W| ≤ 51 * H * W := ep.trans (mul_le_mul_of_nonneg_right (by linarith) hW0.le)
  have ebN : N * |b' - b| ≤ 12 * H * M := by
    have i1 := mul_le_mul_of_nonneg_left eh z2.le
    have i2 := mul_le_mul_of_nonneg_left t5 (by linarith : 0 ≤ 12 * H0)
    have i3 := mul_le_mul_of_nonneg_right c3 t1.le
    linarith
  have eζ := cheb_err S hm hm2 R.order R.ripple s1 s2 c11 hj
  obtain ⟨L, hL⟩ : ∃ L, L = ‖exCheb n rp j‖ := ⟨_, rfl⟩
  rw [← hL] at eζ z8 z9 z10
  have eζ' : ‖flCheb r m n rp j - exCheb n rp j‖ ≤ 16 * H * L := eζ.trans (mul_le_mul_of_nonneg_right c10 z8.le)
  obtain ⟨q', hq'⟩ : ∃ q', q' = (Arith.ofRounding r m).cshift n rp band v0 v1 j := ⟨_, rfl⟩
  have es : ‖q' - q‖ ≤ 42 * H * M := by
    have e : q' = if band = .bandpass then
        flMul r (flCheb r m n rp j) ((r.rnd (r.rnd (v1 - v0) / 2) : ℝ) : ℂ) else
        flMul r (flDiv r ⟨0, r.rnd (r.rnd (v1 - v0) / 2)⟩ (flCheb r m n rp j)) (-Complex.I) := hq'
    rw [e, hq, exCShift, exCZeta, ← hb, ← hb']
    split
    · rename_i hbp
      have hNL : L = N := by rw [hL, hN, exCZeta, if_pos hbp]
      rw [hNL] at hL eζ'
      exact scaled_bp_err S hr c5 c6 (by linarith) hb0 z2 hL.symm t3 eζ' ebN
    · rename_i hbp
      have hNL : N = L⁻¹ := z10 hbp
      have hΛL : 1 ≤ Λ ^ 2 * L ^ 2 := by rw [← mul_pow]; exact one_le_pow₀ z9
      have hL2 : σ ≤ κ ^ 2 * e0 ^ 2 / 4 * L ^ 2 := by
        have i1 := mul_le_mul_of_nonneg_right s4 (sq_nonneg L)
        have i2 : σ ≤ Λ ^ 2 * σ * L ^ 2 := by
          have := le_mul_of_one_le_right s5 hΛL
          linarith
        exact i2.trans i1
      have hL3 : κ ^ 2 * e0 ^ 2 / 4 * L ^ 2 ≤ 0.9 * L ^ 2 := mul_le_mul_of_nonneg_right (by linarith) (sq_nonneg L)
      have hL4 : κ ^ 2 * e0 ^ 2 / 4 * L ^ 2 ≤ 0.9 * M * L ^ 2 := mul_le_mul_of_nonneg_right (by linarith) (sq_nonneg L)
      rw [hNL] at t3 ebN
      have := scaled_bs_err S hr c5 c6 (by linarith) hb0 z8 (hL2.trans hL3) (hL2.trans hL4) hL.symm t3 eζ' ebN
      rwa [div_eq_mul_inv] at this
  -- the square root
  have hside : (q.im = 0 ∧ q'.im = 0 ∧ κ ^ 2 * M ^ 2 ≤ |‖q‖ ^ 2 - W|) ∨
      (κ ^ 2 * ‖q‖ ≤ |q.im| ∧ 150 * H * M ^ 2 < 2 * (|q.re| * |q.im|)) := by
    by_cases hj0 : j = 0
    · refine .inl ⟨(qz hj0).1, ?_, (qz hj0).2⟩
      rw [hq', hj0]; exact cshift_real n rp band _ _
    · have i1 := qim hj0
      have hn0 := norm_nonneg q
      have hk : κ ^ 2 ≤ 1 / n := by
        have : κ ^ 2 ≤ κ := by rw [sq]; exact mul_le_of_le_one_left hκ.le hκ1
        exact this.trans R.kappa_inv
      refine .inr ⟨(mul_le_mul_of_nonneg_right hk hn0).trans i1, ?_⟩
      have i2 : 1 / (n * Λ ^ 2) * ‖q‖ ≤ |q.re| := by
        rw [← abs_neg]
        exact le_trans (by linarith) (le_abs_self _)
      have i3 := mul_le_mul i2 i1 (by positivity) (abs_nonneg _)
      have i4 : ((e1 - e0) * M) ^ 2 ≤ (Λ * ‖q‖) ^ 2 := by
        rw [nq]; exact pow_le_pow_left₀ (mul_nonneg (by linarith) t1.le) t6 2
      have hd0 : 0 < (e1 - e0) ^ 2 := pow_pos (by linarith) 2
      have hM20 : 0 < M ^ 2 := by positivity
      have i5 := mul_le_mul_of_nonneg_right c13 hM20.le
      have i6 : 1 / (n * Λ ^ 2) * ‖q‖ * (1 / n * ‖q‖) = (Λ * ‖q‖) ^ 2 / (n ^ 2 * Λ ^ 4) := by field_simp
      rw [i6, div_le_iff₀ (by positivity)] at i3
      have hnL : 0 < (n : ℝ) ^ 2 * Λ ^ 4 := by positivity
      refine lt_of_mul_lt_mul_right ?_ hnL.le
      have i7 : 0 < (e1 - e0) ^ 2 * M ^ 2 := mul_pos hd0 hM20
      rw [mul_pow] at i4
      have i8 : 150 * H * M ^ 2 * (n ^ 2 * Λ ^ 4) = 1.5 * (100 * (n ^ 2 * Λ ^ 4 * H) * M ^ 2) := by ring
      rw [i8, mul_assoc 2]
      linarith only [i3, i4, i5, i7]
  obtain ⟨x', hx'⟩ : ∃ x', x' = (Arith.ofRounding r m).cradius n rp band v0 v1 j := ⟨_, rfl⟩
  have hx'' : x' = flSqrt r m ⟨r.rnd ((flMul r q' q').re - W'), r.rnd ((flMul r q' q').im - 0)⟩ := by
    rw [hx', hq', hW']; rfl
  obtain ⟨r1, r2⟩ := scaled_root_err S hr hm hp c5 c6 c7 c8 hκ hκ1 q0 hW0 hM (by linarith) (by linarith) hσW hσκ es ep'
    hside hx'' up
  have hcp : (Arith.ofRounding r m).cpole n rp band f0 f1 j up = flBilinear r
      (if up then (⟨r.rnd (q'.re + x'.re), r.rnd (q'.im + x'.im)⟩ : ℂ)
        else ⟨r.rnd (q'.re - x'.re), r.rnd (q'.im - x'.im)⟩) := by
    rw [hq', hx', hv0, hv1]
    cases up <;> rfl
  have hroot : exCRoot n rp band e0 e1 j up = signed up q (csqrt (q ^ 2 - (W : ℂ))) := by
    rw [exCRoot, hq, hW]
  rw [hroot] at hre
  have hKb : H * M ≤ 2.55 * (H * Λ / (1 - e1)) := by
    have i1 : (exWarp e0 + exWarp e1) / 2 ≤ exWarp e1 := by linarith
    have i2 : M ≤ Λ * exWarp e1 := t4.trans (mul_le_mul_of_nonneg_left i1 (by linarith))
    rw [← mul_div_assoc, le_div_iff₀ h1e]
    have i3 := mul_le_mul_of_nonneg_left i2 hH0
    have i4 := mul_le_mul_of_nonneg_right i3 h1e.le
    have i5 := mul_le_mul_of_nonneg_left wb (by positivity : 0 ≤ H * Λ)
    linarith
  obtain ⟨P, hP⟩ : ∃ P, P = H * Λ / (κ * (1 - e1)) := ⟨_, rfl⟩
  have hP1 : 216 * H * M / κ ≤ 551 * P := by
    rw [div_le_iff₀ hκ]
    have e : P * κ = H * Λ / (1 - e1) := by rw [hP]; field_simp
    have : 0 ≤ H * Λ / (1 - e1) := by positivity
    linarith
  have hP2 : 4000 * P ≤ 1 := by
    rw [hP, ← mul_div_assoc, div_le_one (by positivity)]; exact c12
  rw [← hP] at c14
  refine ⟨?_, ?_, ?_⟩
  · rw [hcp, hroot]
    have k := bilinear_abs_err S (by linarith) hr (by linarith) hre r1 (by linarith)
    unfold exBilin
    have e : 1240 * (n * rippleCond rp ^ 2 * Λ ^ 2 * h / (κ * (1 - e1) ^ 2)) = 310 * P := by
      rw [hP, hH]; field_simp; ring
    rw [e]
    linarith
  · intro hj0 hge
    rw [← hq, ← hW] at hge
    obtain ⟨i1, i3⟩ := qz hj0
    have i2 : q'.im = 0 := by rw [hq', hj0]; exact cshift_real n rp band _ _
    have hx0 := r2 i1 i2 i3 hge
    rw [hcp]
    have e3 : (if up then (⟨r.rnd (q'.re + x'.re), r.rnd (q'.im + x'.im)⟩ : ℂ)
        else ⟨r.rnd (q'.re - x'.re), r.rnd (q'.im - x'.im)⟩).im = 0 := by
      cases up <;> simp [i2, hx0, r.zero]
    simp [flBilinear, flDiv, e3, r.zero]
  · have hcr : (Arith.ofRounding r m).croot n rp band ((Arith.ofRounding r m).warped f0)
        ((Arith.ofRounding r m).warped f1) (j, up) =
        (if up then (⟨r.rnd (q'.re + x'.re), r.rnd (q'.im + x'.im)⟩ : ℂ)
          else ⟨r.rnd (q'.re - x'.re), r.rnd (q'.im - x'.im)⟩) := by
      rw [hq', hx', hv0, hv1]
      cases up <;> rfl
    rw [hcr, hroot]
    have e : 2204 * (n * rippleCond rp ^ 2 * Λ ^ 2 * h / (κ * (1 - e1) ^ 2)) = 551 * P := by
      rw [hP, hH]; field_simp; ring
    rw [e]
    exact r1.trans hP1

/-- The exact poles keep their distance from the unit circle, and from the real axis unless they are real. -/
theorem cheb_band_margin {n : ℕ} {rp e0 e1 κ Λ : ℝ} {band : Band}
    (R : ChebBandRequest n rp e0 e1 κ Λ h (isStop band)) {j : ℤ} (hj : j ∈ stepRange (-(n : ℤ) + 1) n) (up : Bool)
    {X : ℝ} (hX : X = κ * (e0 * (1 - e1) * (e1 - e0)) / Λ ^ 3) :
    (exCRoot n rp band e0 e1 j up).re ≤ 0 ∧ ‖exBilin (exCRoot n rp band e0 e1 j up)‖ ≤ 1 - X ∧
    (j ≠ 0 ∨ ‖exCShift n rp band (exWarp e0) (exWarp e1) j‖ ^ 2 < exWarp e0 * exWarp e1 →
      X ≤ |(exBilin (exCRoot n rp band e0 e1 j up)).im|) := by
  obtain ⟨w0, w01, -, wg, -⟩ := exWarp_gap R.pos R.lt R.one
  have hκ := R.kappa
  have hn1 : (1 : ℝ) ≤ n := by exact_mod_cast Nat.one_le_iff_ne_zero.mpr R.order
  obtain ⟨q, hq⟩ : ∃ q, q = exCShift n rp band (exWarp e0) (exWarp e1) j := ⟨_, rfl⟩
  obtain ⟨M, hM⟩ : ∃ M, M = √(‖q‖ ^ 2 + exWarp e0 * exWarp e1) := ⟨_, rfl⟩
  obtain ⟨q0, nq, qre, qim, qz⟩ := exCShift_parts R hj hq hM
  obtain ⟨z1, z2, z3, z4, -⟩ := exCZeta_bounds R.order R.ripple R.size R.size_inv band hj
  have hs : exCRoot n rp band e0 e1 j up ^ 2 - 2 * q * exCRoot n rp band e0 e1 j up +
      ((exWarp e0 * exWarp e1 : ℝ) : ℂ) = 0 := by rw [hq]; exact exCRoot_eq n rp band e0 e1 j up
  have hW0 : 0 < exWarp e0 * exWarp e1 := mul_pos w0 (w0.trans w01)
  have hΛ0 : 0 < Λ := by linarith
  obtain ⟨m1, m2, m3, m4⟩ := scaled_margin q0 hW0 hM hs (by positivity : (0 : ℝ) ≤ 1 / (n * Λ ^ 2)) qre
  have hg := scaledGap_le w0 w01 z2 z3 z4
  rw [← nq] at hg
  obtain ⟨G, hG⟩ : ∃ G, G = scaledGap ‖q‖ (exWarp e0 * exWarp e1) := ⟨_, rfl⟩
  rw [← hG] at m2 m3 m4 hg
  obtain ⟨E, hE⟩ : ∃ E, E = e0 * (1 - e1) * (e1 - e0) := ⟨_, rfl⟩
  have hE0 : 0 < E := by
    rw [hE]; exact mul_pos (mul_pos R.pos (by linarith [R.one])) (by linarith [R.lt])
  rw [← hE] at wg hX
  have hEG : E ≤ 4 * (Λ * G) := by linarith
  have hΛ2 : 1 ≤ Λ ^ 2 := one_le_pow₀ z1
  have hn0 : (0 : ℝ) < n := by linarith
  have hX1 : X ≤ 4 * (1 / (n * Λ ^ 2)) * G := by
    rw [hX, div_le_iff₀ (by positivity)]
    have i1 : κ * E ≤ 1 / n * (4 * (Λ * G)) := mul_le_mul R.kappa_inv hEG hE0.le (by positivity)
    refine i1.trans (le_of_eq ?_)
    field_simp
  have hX2 : X ≤ 4 * κ * G := by
    rw [hX, div_le_iff₀ (by positivity)]
    have i1 : κ * E ≤ κ * (4 * (Λ * G)) := mul_le_mul_of_nonneg_left hEG hκ.le
    have i2 : 0 ≤ κ * (4 * (Λ * G)) := le_trans (by positivity) i1
    have i3 := le_mul_of_one_le_right i2 hΛ2
    refine (i1.trans i3).trans (le_of_eq (by ring))
  have hX3 : X ≤ 4 * (1 / n) * G := by
    refine hX2.trans ?_
    have hG0 : 0 ≤ G := by
      by_contra hneg
      have := mul_neg_of_pos_of_neg hΛ0 (not_le.mp hneg)
      linarith
    have := mul_le_mul_of_nonneg_right R.kappa_inv hG0
    linarith
  refine ⟨m1, by linarith, fun hc => ?_⟩
  by_cases hj0 : j = 0
  · have hc := hc.resolve_left (by simpa using hj0)
    rw [← hq] at hc
    obtain ⟨i1, i2⟩ := qz hj0
    refine hX2.trans (m4 κ hκ i1 ?_)
    obtain ⟨-, -, d3, d4⟩ := scaled_disc q0 hW0 hM
    have d4 := d4 i1
    rw [i1, mul_zero, mul_zero] at d3
    obtain ⟨a, ha⟩ : ∃ a, a = q ^ 2 - ((exWarp e0 * exWarp e1 : ℝ) : ℂ) := ⟨_, rfl⟩
    rw [← ha] at d3 d4
    have ea : a = (a.re : ℂ) := by apply Complex.ext <;> simp [d3]
    have hneg : a.re < 0 := by rw [d4]; linarith
    have hx : csqrt a = ⟨0, √(-a.re)⟩ := by
      rw [ea, csqrt_neg (by simpa using hneg)]; simp
    have hsi : (exCRoot n rp band e0 e1 j up).im ^ 2 = -a.re := by
      unfold exCRoot signed
      rw [← hq, ← ha, hx]
      cases up <;> simp [i1, Real.sq_sqrt (by linarith : 0 ≤ -a.re)]
    rw [hsi, mul_pow]
    rw [← d4, abs_of_neg hneg] at i2
    exact i2
  · exact hX3.trans (m3 _ (by positivity) (qim hj0))

end SciRs.Rounded

import Verif.Spec.BandRequest
import Verif.Lemmas.Rounded.BandPoles

/-! # All errors of the poles of Butterworth band-pass and band-stop designs together -/

namespace SciRs.Rounded

open SciRs.Spec SciRs.Design

variable {r : Rounding} {m : Libm} {h : ℝ}

/-- The number under the square root: its size. -/
theorem disc_size {w0 w1 : ℝ} (h0 : 0 < w0) (h01 : w0 < w1) {ζ : ℂ} (hζ : ‖ζ‖ = 1) :
    ‖(((w1 - w0) / 2 : ℝ) * ζ) ^ 2 - ((w0 * w1 : ℝ) : ℂ)‖ ≤ ((w0 + w1) / 2) ^ 2 ∧
    |ζ.im| * ((w0 + w1) / 2) ^ 2 ≤ ‖(((w1 - w0) / 2 : ℝ) * ζ) ^ 2 - ((w0 * w1 : ℝ) : ℂ)‖ ∧
    ((((w1 - w0) / 2 : ℝ) * ζ) ^ 2 - ((w0 * w1 : ℝ) : ℂ)).im = 2 * ((w1 - w0) / 2) ^ 2 * (ζ.re * ζ.im) ∧
    (ζ.im = 0 → ((((w1 - w0) / 2 : ℝ) * ζ) ^ 2 - ((w0 * w1 : ℝ) : ℂ)).re = (w0 ^ 2 - 6 * w0 * w1 + w1 ^ 2) / 4) := by
  have hW : 0 < w0 * w1 := mul_pos h0 (h0.trans h01)
  have hz : ζ.re * ζ.re + ζ.im * ζ.im = 1 := by
    rw [← Complex.normSq_apply, ← Complex.sq_norm, hζ]; norm_num
  have er : ((((w1 - w0) / 2 : ℝ) * ζ) ^ 2 - ((w0 * w1 : ℝ) : ℂ)).re =
      ((w1 - w0) / 2) ^ 2 * (ζ.re * ζ.re - ζ.im * ζ.im) - w0 * w1 := by
    rw [sq, Complex.sub_re, Complex.ofReal_re, Complex.mul_re, Complex.re_ofReal_mul, Complex.im_ofReal_mul]
    ring
  have ei : ((((w1 - w0) / 2 : ℝ) * ζ) ^ 2 - ((w0 * w1 : ℝ) : ℂ)).im =
      2 * ((w1 - w0) / 2) ^ 2 * (ζ.re * ζ.im) := by
    rw [sq, Complex.sub_im, Complex.ofReal_im, Complex.mul_im, Complex.re_ofReal_mul, Complex.im_ofReal_mul]
    ring
  refine ⟨?_, ?_, ei, fun hi => ?_⟩
  · refine (norm_sub_le _ _).trans ?_
    rw [norm_pow, norm_mul, hζ, mul_one, Complex.norm_real, Complex.norm_real, Real.norm_of_nonneg hW.le,
      Real.norm_of_nonneg (by linarith)]
    exact le_of_eq (by ring)
  · refine (sq_le_sq₀ (by positivity) (norm_nonneg _)).mp ?_
    rw [Complex.sq_norm, Complex.normSq_apply, er, ei, mul_pow, sq_abs]
    obtain ⟨b, hb⟩ : ∃ b, b = ((w1 - w0) / 2) ^ 2 := ⟨_, rfl⟩
    obtain ⟨W, hWd⟩ : ∃ W, W = w0 * w1 := ⟨_, rfl⟩
    have hM : ((w0 + w1) / 2) ^ 2 = b + W := by rw [hb, hWd]; ring
    rw [hM, ← hb, ← hWd]
    obtain ⟨c, hc⟩ : ∃ c, c = ζ.re * ζ.re := ⟨_, rfl⟩
    obtain ⟨d, hd⟩ : ∃ d, d = ζ.im * ζ.im := ⟨_, rfl⟩
    have e1 : (ζ.im) ^ 2 = d := by rw [hd]; ring
    have e2 : 2 * b * (ζ.re * ζ.im) * (2 * b * (ζ.re * ζ.im)) = 4 * b ^ 2 * (c * d) := by rw [hc, hd]; ring
    rw [e1, e2, ← hc, ← hd]
    rw [← hc, ← hd] at hz
    have hcd : c = 1 - d := by linarith
    have hd1 : 0 ≤ c := by rw [hc]; exact mul_self_nonneg _
    rw [hcd] at hd1 ⊢
    nlinarith [mul_nonneg hd1 (sq_nonneg (b - W))]
  · rw [er, hi]
    rw [hi] at hz
    have : ζ.re * ζ.re = 1 := by linarith
    rw [this]; ring

/-- The number under the square root keeps its side of the cut. -/
theorem sameSide_of {a a' : ℂ} {δ : ℝ} (he : ‖a' - a‖ ≤ δ) (hs : δ < |a.im| ∨ (a.im = 0 ∧ a'.im = 0 ∧ δ < |a.re|)) :
    SameSide a a' := by
  have hi := (Complex.abs_im_le_norm _).trans he
  have hr := (Complex.abs_re_le_norm _).trans he
  rw [Complex.sub_im] at hi
  rw [Complex.sub_re] at hr
  obtain ⟨i1, i2⟩ := abs_le.mp hi
  obtain ⟨r1, r2⟩ := abs_le.mp hr
  rcases hs with hs | ⟨h1, h2, hs⟩
  · rcases lt_abs.mp hs with k | k
    · exact .inl ⟨by linarith [abs_nonneg (a'.im - a.im)], by linarith⟩
    · exact .inr (.inl ⟨by linarith [abs_nonneg (a'.im - a.im)], by linarith⟩)
  · rcases lt_abs.mp hs with k | k
    · exact .inr (.inr ⟨h1, h2, .inl ⟨by linarith [abs_nonneg (a'.re - a.re)], by linarith⟩⟩)
    · exact .inr (.inr ⟨h1, h2, .inr ⟨by linarith [abs_nonneg (a'.re - a.re)], by linarith⟩⟩)

theorem mem_stepRange_odd {n : ℕ} (h : (0 : ℤ) ∈ stepRange (-(n : ℤ) + 1) n) : n % 2 = 1 := by
  unfold stepRange at h
  simp only [List.mem_map, List.mem_range] at h
  obtain ⟨i, hi, h⟩ := h
  omega

/-- The request in terms of the warped edges. -/
theorem band_facts {n : ℕ} {e0 e1 κ : ℝ} (R : BandRequest n e0 e1 κ h) (h0 : 0 ≤ h) :
    κ ≤ 1 ∧ h / (1 - e1) ≤ 1 / 1024 ∧ h ≤ h / (1 - e1) ∧ h ≤ (1 - e1) / 1024 ∧ h ≤ (1 - e0) / 1024 ∧
    h / (1 - e0) ≤ h / (1 - e1) ∧ 300 * (h / (1 - e1)) ≤ κ ^ 2 ∧
    216 * (h / (1 - e1)) * ((exWarp e0 + exWarp e1) / 2) / κ ≤ 0.14 ∧
    216 * (h / (1 - e1)) * ((exWarp e0 + exWarp e1) / 2) / κ ≤ 551 * (h / ((1 - e1) ^ 2 * κ)) ∧
    h ≤ h / ((1 - e1) ^ 2 * κ) ∧
    150 * (h / (1 - e1)) * ((exWarp e0 + exWarp e1) / 2) ^ 2 < ((exWarp e1 - exWarp e0) / 2) ^ 2 * (1 / n) := by
  have hpos := R.pos
  have hlt := R.lt
  have hone := R.one
  have hκ := R.kappa
  have hn1 : (1 : ℝ) ≤ n := by exact_mod_cast Nat.one_le_iff_ne_zero.mpr R.order
  have hκ2 : κ ^ 2 ≤ 1 := by
    refine R.kappa_sq.trans ?_
    rw [div_le_one (by linarith)]; exact hn1
  have hκ1 : κ ≤ 1 := by nlinarith
  obtain ⟨w0, w1, w2, -, w3⟩ := exWarp_gap R.pos R.lt R.one
  obtain ⟨E, hE⟩ : ∃ E, E = 1 - e1 := ⟨_, rfl⟩
  obtain ⟨d, hd⟩ : ∃ d, d = e1 - e0 := ⟨_, rfl⟩
  have hE0 : 0 < E := by linarith
  have hE1 : E ≤ 1 := by linarith
  have hd0 : 0 < d := by linarith
  have hd1 : d ≤ 1 := by linarith
  have hp := R.prec
  rw [← hE, ← hd] at hp
  rw [← hE] at w2 ⊢
  rw [← hd] at w3
  have hdE : d ≤ 1 := hd1
  have q1 : (κ * d * E) ^ 2 ≤ κ ^ 2 * d ^ 2 * E ^ 2 := le_of_eq (by ring)
  have d2 : d ^ 2 ≤ 1 := by nlinarith
  have E2 : E ^ 2 ≤ E := by nlinarith
  have k2 : 0 ≤ κ ^ 2 := by positivity
  obtain ⟨H, hH⟩ : ∃ H, H = h / E := ⟨_, rfl⟩
  have hHE : H * E = h := by rw [hH]; field_simp
  have hH0 : 0 ≤ H := by rw [hH]; positivity
  -- 4000 H ≤ κ² d² E
  have f1 : 4000 * H ≤ κ ^ 2 * d ^ 2 * E := by
    have : 4000 * H * E ≤ κ ^ 2 * d ^ 2 * E * E := by
      have e : κ ^ 2 * d ^ 2 * E * E = (κ * d * E) ^ 2 := by ring
      rw [e]; linarith
    exact le_of_mul_le_mul_right this hE0
  have f2 : κ ^ 2 * d ^ 2 ≤ κ ^ 2 := mul_le_of_le_one_right k2 d2
  have f3 : κ ^ 2 * d ^ 2 * E ≤ κ ^ 2 * E := mul_le_mul_of_nonneg_right f2 hE0.le
  have f4 : κ ^ 2 * E ≤ κ ^ 2 := mul_le_of_le_one_right k2 hE1
  have f5 : h ≤ H := by rw [← hHE]; exact mul_le_of_le_one_right hH0 hE1
  have f6 : 4000 * H ≤ κ ^ 2 * d ^ 2 := f1.trans (mul_le_of_le_one_right (mul_nonneg k2 (sq_nonneg d)) hE1)
  have f7 : κ ^ 2 * E ≤ E := mul_le_of_le_one_left hE0.le hκ2
  obtain ⟨M, hM⟩ : ∃ M, M = (exWarp e0 + exWarp e1) / 2 := ⟨_, rfl⟩
  have hM0 : 0 < M := by rw [hM]; linarith
  have hME : M * E ≤ 2.55 := by
    have : M ≤ exWarp e1 := by rw [hM]; linarith
    nlinarith
  have hEe0 : E ≤ 1 - e0 := by linarith
  rw [← hH, ← hM]
  have g8 : 216 * H * M / κ ≤ 0.14 := by
    rw [div_le_iff₀ hκ]
    have i1 : 4000 * H * M ≤ κ ^ 2 * (E * M) := by
      have := mul_le_mul_of_nonneg_right (f1.trans f3) hM0.le
      linarith
    have i2 : κ ^ 2 * (E * M) ≤ κ * 2.55 := by
      have j1 : κ ^ 2 ≤ κ := by rw [sq]; exact mul_le_of_le_one_left hκ.le hκ1
      have j2 : κ ^ 2 * (E * M) ≤ κ ^ 2 * 2.55 := mul_le_mul_of_nonneg_left (by linarith) k2
      linarith
    have i3 : 4000 * H * M ≤ κ * 2.55 := i1.trans i2
    linarith
  have g9 : 216 * H * M / κ ≤ 551 * (h / (E ^ 2 * κ)) := by
    have e : 551 * (h / (E ^ 2 * κ)) = 551 * (H / E) / κ := by rw [hH]; field_simp
    rw [e]
    refine div_le_div_of_nonneg_right ?_ hκ.le
    have : H * M ≤ 2.55 * (H / E) := by
      rw [← mul_div_assoc, le_div_iff₀ hE0]
      have := mul_le_mul_of_nonneg_left hME hH0
      linarith
    linarith [div_nonneg hH0 hE0.le]
  have g10 : h ≤ h / (E ^ 2 * κ) := by
    rw [le_div_iff₀ (by positivity)]
    have : E ^ 2 * κ ≤ 1 := mul_le_one₀ (E2.trans hE1) hκ.le hκ1
    exact mul_le_of_le_one_right h0 this
  refine ⟨hκ1, ?_, f5, ?_, ?_, ?_, ?_, g8, g9, g10, ?_⟩
  · linarith
  · linarith
  · linarith
  · rw [hH]; exact div_le_div_of_nonneg_left h0 hE0 hEe0
  · linarith
  · obtain ⟨b, hb⟩ : ∃ b, b = (exWarp e1 - exWarp e0) / 2 := ⟨_, rfl⟩
    have i1 : d * M ≤ b := by rw [hM, hb]; linarith
    have i2 : d ^ 2 * M ^ 2 ≤ b ^ 2 := by rw [← mul_pow]; exact pow_le_pow_left₀ (by positivity) i1 2
    have i3 : 4000 * H ≤ (1 / n) * d ^ 2 := f6.trans (by gcongr; exact R.kappa_sq)
    have i4 := mul_le_mul_of_nonneg_right i3 (sq_nonneg M)
    have i5 := mul_le_mul_of_nonneg_left i2 (by positivity : (0 : ℝ) ≤ 1 / n)
    have i6 : 0 < (1 : ℝ) / n * d ^ 2 * M ^ 2 := by positivity
    rw [← hb]
    have i7 := mul_nonneg hH0 (sq_nonneg M)
    linarith

/-- What is left of a computed half. -/
theorem shift_real (n : ℕ) (band : Band) (v0 v1 : ℝ) : ((Arith.ofRounding r m).shift n band v0 v1 0).im = 0 := by
  have hs : m.sin 0 = 0 := by
    have := m.sin_neg 0
    rw [neg_zero] at this
    linarith
  have h1 : (flProto r m n 0).im = 0 := by
    simp [flProto, flAngle_zero, hs, r.zero]
  have e : (Arith.ofRounding r m).shift n band v0 v1 0 = if band = .bandpass then
      flMul r (flProto r m n 0) ((Arith.ofRounding r m).half v0 v1 : ℝ) else
      flMul r (flDiv r ⟨0, (Arith.ofRounding r m).half v0 v1⟩ (flProto r m n 0)) (-Complex.I) := rfl
  rw [e]
  split
  · simp [flMul, h1, r.zero]
  · simp [flMul, flDiv, h1, r.zero]

set_option maxHeartbeats 800000 in
/-- The errors of the centre and of the number under the square root. -/
theorem shift_err (hr : r.Nearest) (hm : m.Accurate r h) {n : ℕ} {e0 e1 κ : ℝ} (R : BandRequest n e0 e1 κ h)
    (S : Small r h (κ ^ 2 * e0 ^ 2 / 2)) {f0 f1 : ℝ} (hf0 : |f0 - e0| ≤ h * e0) (hf1 : |f1 - e1| ≤ h * e1)
    {band : Band} {j : ℤ} (hj : j ∈ stepRange (-(n : ℤ) + 1) n) :
    ‖(Arith.ofRounding r m).shift n band (flWarp r m f0) (flWarp r m f1) j -
        exShift n band (exWarp e0) (exWarp e1) j‖ ≤ 42 * (h / (1 - e1)) * ((exWarp e0 + exWarp e1) / 2) ∧
    ∃ a' : ℂ, (Arith.ofRounding r m).radius n band (flWarp r m f0) (flWarp r m f1) j = flSqrt r m a' ∧
      ‖a' - (exShift n band (exWarp e0) (exWarp e1) j ^ 2 - ((exWarp e0 * exWarp e1 : ℝ) : ℂ))‖ ≤
        150 * (h / (1 - e1)) * ((exWarp e0 + exWarp e1) / 2) ^ 2 ∧
      (j = 0 → a'.im = 0) := by
  have h0 := S.h_nonneg
  obtain ⟨c1, c2, c3, c4, c5, c6, c7, c8, -, -, c11⟩ := band_facts R h0
  have hpos := R.pos
  have hlt := R.lt
  have hone := R.one
  have hκ := R.kappa
  have hκ2 : κ ^ 2 ≤ 1 := by nlinarith
  have he2 : e0 ^ 2 ≤ e0 := by nlinarith
  have hσe : κ ^ 2 * e0 ^ 2 / 2 ≤ e0 := by nlinarith [sq_nonneg e0]
  have S0 := S.anti hσe
  have S1 := S0.anti hlt.le
  obtain ⟨w0, w06, ew0⟩ := warp_err S0 hr (hlt.trans hone) hf0 c5 hm
  obtain ⟨w1, w16, ew1⟩ := warp_err S1 hr hone hf1 c4 hm
  obtain ⟨-, w01, -, -, -⟩ := exWarp_gap hpos hlt hone
  obtain ⟨H, hH⟩ : ∃ H, H = h / (1 - e1) := ⟨_, rfl⟩
  rw [← hH] at c2 c3 c6 c7 c8 c11 ew1 ⊢
  have hH0 : 0 ≤ H := h0.trans c3
  have ew0 : |flWarp r m f0 - exWarp e0| ≤ 9.7 * H * exWarp e0 := by
    refine ew0.trans (mul_le_mul_of_nonneg_right ?_ w0.le)
    linarith
  obtain ⟨v0, hv0⟩ : ∃ v0, v0 = flWarp r m f0 := ⟨_, rfl⟩
  obtain ⟨v1, hv1⟩ : ∃ v1, v1 = flWarp r m f1 := ⟨_, rfl⟩
  obtain ⟨W0, hW0⟩ : ∃ W0, W0 = exWarp e0 := ⟨_, rfl⟩
  obtain ⟨W1, hW1⟩ : ∃ W1, W1 = exWarp e1 := ⟨_, rfl⟩
  rw [← hv0, ← hW0] at ew0
  rw [← hv1, ← hW1] at ew1
  rw [← hW0] at w0 w06
  rw [← hW1] at w1 w16
  rw [← hv0, ← hv1, ← hW0, ← hW1]
  rw [← hW0, ← hW1] at w01 c8 c11
  obtain ⟨M, hM⟩ : ∃ M, M = (W0 + W1) / 2 := ⟨_, rfl⟩
  have hM0 : 0 < M := by rw [hM]; linarith
  have hMe : 6 * e0 ≤ M := by rw [hM]; linarith
  have hWW : 36 * e0 ^ 2 ≤ W0 * W1 := by nlinarith
  have hWWp : 0 < W0 * W1 := mul_pos w0 w1
  have hWM : W0 * W1 ≤ M ^ 2 := by rw [hM]; nlinarith [sq_nonneg (W0 - W1)]
  have hσW : κ ^ 2 * e0 ^ 2 / 2 ≤ W0 * W1 := by nlinarith [sq_nonneg e0]
  have hσq : κ ^ 2 * e0 ^ 2 / 2 ≤ √(W0 * W1) := by
    refine Real.le_sqrt_of_sq_le ?_
    have : (κ ^ 2 * e0 ^ 2 / 2) ^ 2 ≤ e0 ^ 2 := pow_le_pow_left₀ (by positivity) hσe 2
    nlinarith [sq_nonneg e0]
  have eh := half_err S c3 c2 w0 w01 hM (by linarith) ew0 ew1
  have ec := centre_err S c3 c2 w0 w01 hσW hσq ew0 ew1
  have ep := centre_sq_err S c3 c2 hm hWWp hσW ec
  obtain ⟨j1, j2⟩ := mem_stepRange_sym hj
  have ja : |(j : ℝ)| ≤ n := by
    rw [← Int.cast_abs]
    have : |j| ≤ (n : ℤ) := by rcases abs_cases j with h | h <;> omega
    exact_mod_cast this
  have hb2 : (W1 - W0) / 2 ≤ M := by rw [hM]; linarith
  have eζ := proto_err S (by linarith : κ ^ 2 * e0 ^ 2 / 2 ≤ 1) (by linarith) hm (Nat.one_le_iff_ne_zero.mpr R.order) ja
  have es : ‖(Arith.ofRounding r m).shift n band v0 v1 j - exShift n band W0 W1 j‖ ≤ 42 * H * M := by
    have e : (Arith.ofRounding r m).shift n band v0 v1 j = if band = .bandpass then
        flMul r (flProto r m n j) ((r.rnd (r.rnd (v1 - v0) / 2) : ℝ) : ℂ) else
        flMul r (flDiv r ⟨0, r.rnd (r.rnd (v1 - v0) / 2)⟩ (flProto r m n j)) (-Complex.I) := rfl
    rw [e, exShift, exZeta]
    split
    · exact bp_err S hr c3 c2 (by linarith) (by linarith) hb2 (exProto_norm n j) eζ eh
    · have hσ9 : κ ^ 2 * e0 ^ 2 / 2 ≤ 0.9 := by
        have := mul_le_of_le_one_left (sq_nonneg e0) hκ2
        linarith
      have := bs_err S hσ9 hr c3 c2 (by linarith) (by linarith) hb2 (exProto_norm n j) eζ eh
      rwa [div_eq_mul_inv] at this
  rw [← hM]
  refine ⟨es, _, rfl, ?_, ?_⟩
  · have hζ := (exZeta_parts (n := n) band j).1
    have nq : ‖exShift n band W0 W1 j‖ ≤ M := by
      rw [exShift, norm_mul, hζ, mul_one, Complex.norm_real, Real.norm_of_nonneg (by linarith)]
      exact hb2
    exact disc_err S hr c3 c2 hM0 (hσW.trans hWM) nq es hWWp hWM ep
  · rintro rfl
    have := shift_real (r := r) (m := m) n band v0 v1
    change r.rnd ((flMul r ((Arith.ofRounding r m).shift n band v0 v1 0)
      ((Arith.ofRounding r m).shift n band v0 v1 0)).im - 0) = 0
    simp [flMul, this, r.zero]

theorem le_two_mul_of_circle {c x y : ℝ} (hc : 0 < c) (hx : c ≤ x) (hy : c ≤ y) (h : x * x + y * y = 1) :
    c ≤ x * y * 2 := by
  rcases le_total x y with hxy | hxy
  · have : 1 / 2 ≤ y := by nlinarith
    nlinarith
  · have : 1 / 2 ≤ x := by nlinarith
    nlinarith

theorem size_small {κ e M : ℝ} (h0 : 0 ≤ κ ^ 2) (h1 : κ ^ 2 ≤ 1) (he : 0 < e) (he1 : e ≤ 1) (hM : 6 * e ≤ M) :
    κ ^ 2 * e ^ 2 / 2 ≤ 0.9 ∧ κ ^ 2 * e ^ 2 / 2 ≤ M ∧ κ ^ 2 * e ^ 2 / 2 ≤ κ ^ 2 * M ^ 2 / 2 := by
  have k1 : κ ^ 2 * e ^ 2 ≤ e ^ 2 := mul_le_of_le_one_left (sq_nonneg e) h1
  have k2 : e ^ 2 ≤ e := by rw [sq]; exact mul_le_of_le_one_left he.le he1
  have k3 : e ^ 2 ≤ M ^ 2 := pow_le_pow_left₀ he.le (by linarith) 2
  have k4 := mul_le_mul_of_nonneg_left k3 h0
  refine ⟨by linarith, by linarith, by linarith⟩

/-- A root that is added or subtracted. -/
noncomputable def signed (up : Bool) (q x : ℂ) : ℂ := if up then q + x else q - x

/-- The computed pole. -/
noncomputable def flBandPole (r : Rounding) (m : Libm) (n : ℕ) (band : Band) (f0 f1 : ℝ) (j : ℤ) (up : Bool) : ℂ :=
  let A := Arith.ofRounding r m
  let q := A.shift n band (flWarp r m f0) (flWarp r m f1) j
  let x := A.radius n band (flWarp r m f0) (flWarp r m f1) j
  A.bilin (if up then A.cadd q x else A.csub q x)

/-- The computed analog pole. -/
noncomputable def flBandRoot (r : Rounding) (m : Libm) (n : ℕ) (band : Band) (f0 f1 : ℝ) (j : ℤ) (up : Bool) : ℂ :=
  let A := Arith.ofRounding r m
  let q := A.shift n band (flWarp r m f0) (flWarp r m f1) j
  let x := A.radius n band (flWarp r m f0) (flWarp r m f1) j
  if up then A.cadd q x else A.csub q x

/-- The exact analog pole. -/
noncomputable def exBandRoot (n : ℕ) (band : Band) (e0 e1 : ℝ) (j : ℤ) (up : Bool) : ℂ :=
  signed up (exShift n band (exWarp e0) (exWarp e1) j) (exRadius n band (exWarp e0) (exWarp e1) j)

theorem exBandRoot_eq (n : ℕ) (band : Band) (e0 e1 : ℝ) (j : ℤ) (up : Bool) :
    exBandRoot n band e0 e1 j up ^ 2 - 2 * (((exWarp e1 - exWarp e0) / 2 : ℝ) * exZeta n band j) *
      exBandRoot n band e0 e1 j up + (exWarp e0 * exWarp e1 : ℝ) = 0 := by
  have h := csqrt_sq (exShift n band (exWarp e0) (exWarp e1) j ^ 2 - (exWarp e0 * exWarp e1 : ℝ))
  rw [← exRadius] at h
  have e : (((exWarp e1 - exWarp e0) / 2 : ℝ) * exZeta n band j) = exShift n band (exWarp e0) (exWarp e1) j := rfl
  rw [e]
  unfold exBandRoot signed
  cases up <;> simp only [Bool.false_eq_true, if_true, if_false] <;> linear_combination h

/-- The exact poles keep their distance from the unit circle, and from the real axis unless they are real. -/
theorem band_exact_margin {n : ℕ} {e0 e1 κ : ℝ} (R : BandRequest n e0 e1 κ h) (hκn : κ ≤ 1 / n) (band : Band) {j : ℤ}
    (hj : j ∈ stepRange (-(n : ℤ) + 1) n) (up : Bool) :
    (exBandRoot n band e0 e1 j up).re ≤ 0 ∧
    ‖exBilin (exBandRoot n band e0 e1 j up)‖ ≤ 1 - κ * (e0 * (1 - e1) * (e1 - e0)) ∧
    (j ≠ 0 ∨ ((exShift n band (exWarp e0) (exWarp e1) j ^ 2 - ((exWarp e0 * exWarp e1 : ℝ) : ℂ))).re < 0 →
      κ * (e0 * (1 - e1) * (e1 - e0)) ≤ |(exBilin (exBandRoot n band e0 e1 j up)).im|) := by
  obtain ⟨w0, w01, -, w3, -⟩ := exWarp_gap R.pos R.lt R.one
  obtain ⟨z1, z2, z3⟩ := exZeta_bounds R.order band hj
  have hζ := (exZeta_parts (n := n) band j).1
  have hn0 : (0 : ℝ) < n := by exact_mod_cast Nat.pos_of_ne_zero R.order
  have hs := exBandRoot_eq n band e0 e1 j up
  obtain ⟨m1, m2, m3⟩ := band_margin w0 w01 hζ hs (by positivity : (0 : ℝ) ≤ 1 / n) z1
  have hg : 0 ≤ bandGap (exWarp e0) (exWarp e1) :=
    div_nonneg (mul_nonneg (by linarith) w0.le) (mul_nonneg (by linarith) (by nlinarith))
  have hX : κ * (e0 * (1 - e1) * (e1 - e0)) ≤ 4 * κ * bandGap (exWarp e0) (exWarp e1) := by
    have := mul_le_mul_of_nonneg_left w3 R.kappa.le
    linarith
  have hX2 : 4 * κ * bandGap (exWarp e0) (exWarp e1) ≤ 4 * (1 / n) * bandGap (exWarp e0) (exWarp e1) := by gcongr
  refine ⟨m1, by unfold exBilin; linarith, fun hc => ?_⟩
  by_cases hj0 : j = 0
  · have hc := hc.resolve_left (by simpa using hj0)
    have hi := z3 hj0
    have hp4 : 0 < κ * ((exWarp e0 + exWarp e1) / 2) := mul_pos R.kappa (by linarith)
    obtain ⟨d1, d2, d3, d4⟩ := disc_size w0 w01 hζ
    have d4 := d4 hi
    have e : (((exWarp e1 - exWarp e0) / 2 : ℝ) * exZeta n band j) = exShift n band (exWarp e0) (exWarp e1) j := rfl
    rw [hi, mul_zero, mul_zero, e] at d3
    rw [e] at d4
    obtain ⟨a, ha⟩ : ∃ a, a = exShift n band (exWarp e0) (exWarp e1) j ^ 2 - ((exWarp e0 * exWarp e1 : ℝ) : ℂ) := ⟨_, rfl⟩
    rw [← ha] at d3 d4 hc
    have ea : a = (a.re : ℂ) := by apply Complex.ext <;> simp [d3]
    have hx : exRadius n band (exWarp e0) (exWarp e1) j = ⟨0, √(-a.re)⟩ := by
      rw [exRadius, ← ha, ea, csqrt_neg (by simpa using hc)]; simp
    have hsi : (exBandRoot n band e0 e1 j up).im ^ 2 = -a.re := by
      have hq : (exShift n band (exWarp e0) (exWarp e1) j).im = 0 := by
        rw [exShift, Complex.im_ofReal_mul, hi, mul_zero]
      unfold exBandRoot signed
      rw [hx]
      cases up <;> simp [hq, Real.sq_sqrt (by linarith : 0 ≤ -a.re)]
    have hodd : κ ^ 2 * (exWarp e0 + exWarp e1) ^ 2 ≤
        |exWarp e0 ^ 2 - 6 * exWarp e0 * exWarp e1 + exWarp e1 ^ 2| := R.odd (by subst hj0; exact mem_stepRange_odd hj)
    have k := band_margin_real w0 w01 R.kappa hζ hs hi (by linarith [z1, (by positivity : (0 : ℝ) ≤ 1 / n)]) (by
      rw [hsi]
      have e2 : -a.re = |exWarp e0 ^ 2 - 6 * exWarp e0 * exWarp e1 + exWarp e1 ^ 2| / 4 := by
        rw [abs_of_neg (by linarith), d4]; ring
      rw [e2]
      have : (κ * ((exWarp e0 + exWarp e1) / 2)) ^ 2 = κ ^ 2 * (exWarp e0 + exWarp e1) ^ 2 / 4 := by ring
      rw [this]
      linarith)
    unfold exBilin
    exact hX.trans k
  · exact (hX.trans hX2).trans (m3 _ (by positivity) (z2 hj0))

set_option maxHeartbeats 800000 in
/-- The computed poles, analog and digital, are close to the exact ones, and real if those are. -/
theorem band_root_pole_err (hr : r.Nearest) (hm : m.Accurate r h) (hp : m.AccuratePolar r h) {n : ℕ} {e0 e1 κ : ℝ}
    (R : BandRequest n e0 e1 κ h) (S : Small r h (κ ^ 2 * e0 ^ 2 / 2)) {f0 f1 : ℝ} (hf0 : |f0 - e0| ≤ h * e0)
    (hf1 : |f1 - e1| ≤ h * e1) {band : Band} {j : ℤ} (hj : j ∈ stepRange (-(n : ℤ) + 1) n) (up : Bool) :
    ‖flBandPole r m n band f0 f1 j up - exBilin (exBandRoot n band e0 e1 j up)‖ ≤ 310 * (h / ((1 - e1) ^ 2 * κ)) ∧
    (j = 0 → 0 ≤ ((exShift n band (exWarp e0) (exWarp e1) j ^ 2 - ((exWarp e0 * exWarp e1 : ℝ) : ℂ))).re →
      (flBandPole r m n band f0 f1 j up).im = 0) ∧
    ‖flBandRoot r m n band f0 f1 j up - exBandRoot n band e0 e1 j up‖ ≤ 551 * (h / ((1 - e1) ^ 2 * κ)) := by
  have h0 := S.h_nonneg
  obtain ⟨c1, c2, c3, c4, c5, c6, c7, c8, c9, c10, c11⟩ := band_facts R h0
  obtain ⟨es, a', hx', ea, hreal⟩ := shift_err (band := band) hr hm R S hf0 hf1 hj
  obtain ⟨w0, w01, -, -, -⟩ := exWarp_gap R.pos R.lt R.one
  obtain ⟨z1, z2, z3⟩ := exZeta_bounds R.order band hj
  have hζ := (exZeta_parts (n := n) band j).1
  have hn0 : (0 : ℝ) < n := by exact_mod_cast Nat.pos_of_ne_zero R.order
  have hκ := R.kappa
  have hκ2 : κ ^ 2 ≤ 1 := pow_le_one₀ hκ.le c1
  have hpos := R.pos
  obtain ⟨d1, d2, d3, d4⟩ := disc_size w0 w01 hζ
  have e : (((exWarp e1 - exWarp e0) / 2 : ℝ) * exZeta n band j) = exShift n band (exWarp e0) (exWarp e1) j := rfl
  rw [e] at d1 d2 d3 d4
  obtain ⟨H, hH⟩ : ∃ H, H = h / (1 - e1) := ⟨_, rfl⟩
  obtain ⟨M, hM⟩ : ∃ M, M = (exWarp e0 + exWarp e1) / 2 := ⟨_, rfl⟩
  rw [← hH] at c2 c3 c6 c7 c8 c9 c11 es ea
  rw [← hM] at c8 c9 c11 es ea d1 d2
  have hM0 : 0 < M := by rw [hM]; linarith
  have hre : (exBandRoot n band e0 e1 j up).re ≤ 0 :=
    (band_margin w0 w01 hζ (exBandRoot_eq n band e0 e1 j up) (by positivity : (0 : ℝ) ≤ 1 / n) z1).1
  have hM6 : 6 * e0 ≤ M := by
    have h6 : ∀ x : ℝ, 0 < x → x < 1 → 6 * x ≤ exWarp x := by
      intro x x0 x1
      have hpi3 := Real.pi_gt_three
      have := Real.le_tan (x := Real.pi * x / 2) (by positivity) (by nlinarith)
      rw [exWarp]
      nlinarith
    have i1 := h6 e0 R.pos (R.lt.trans R.one)
    rw [hM]
    linarith
  obtain ⟨sz1, sz2, sz3⟩ := size_small (sq_nonneg κ) hκ2 hpos (R.lt.trans R.one).le hM6
  have nq : ‖exShift n band (exWarp e0) (exWarp e1) j‖ ≤ M := by
    rw [exShift, norm_mul, hζ, mul_one, Complex.norm_real, Real.norm_of_nonneg (by linarith), hM]
    linarith
  obtain ⟨a, ha⟩ : ∃ a, a = exShift n band (exWarp e0) (exWarp e1) j ^ 2 - ((exWarp e0 * exWarp e1 : ℝ) : ℂ) := ⟨_, rfl⟩
  have hxr : exRadius n band (exWarp e0) (exWarp e1) j = csqrt a := by rw [exRadius, ha]
  rw [← ha] at d1 d2 d3 d4 ea
  -- the size of the number under the root, and its side
  have hB0 : 0 < M ^ 2 := by positivity
  have hodd : j = 0 → κ ^ 2 * M ^ 2 ≤ |a.re| := by
    intro hj0
    have k : κ ^ 2 * (exWarp e0 + exWarp e1) ^ 2 ≤
        |exWarp e0 ^ 2 - 6 * exWarp e0 * exWarp e1 + exWarp e1 ^ 2| := R.odd (by subst hj0; exact mem_stepRange_odd hj)
    rw [d4 (z3 hj0), abs_div, abs_of_pos (by norm_num : (0 : ℝ) < 4), hM]
    have : κ ^ 2 * ((exWarp e0 + exWarp e1) / 2) ^ 2 = κ ^ 2 * (exWarp e0 + exWarp e1) ^ 2 / 4 := by ring
    rw [this]
    linarith
  have hlow : κ ^ 2 * M ^ 2 ≤ ‖a‖ := by
    by_cases hj0 : j = 0
    · exact (hodd hj0).trans (Complex.abs_re_le_norm a)
    · refine le_trans (mul_le_mul_of_nonneg_right (R.kappa_sq.trans (z2 hj0)) hB0.le) d2
  have h7B : 300 * H * M ^ 2 ≤ κ ^ 2 * M ^ 2 := mul_le_mul_of_nonneg_right c7 hB0.le
  have hκB : 0 < κ ^ 2 * M ^ 2 := by positivity
  have hside : SameSide a a' := by
    refine sameSide_of ea ?_
    by_cases hj0 : j = 0
    · refine .inr ⟨?_, hreal hj0, ?_⟩
      · rw [d3, z3 hj0]; ring
      · have := hodd hj0
        linarith
    · left
      refine lt_of_lt_of_le c11 ?_
      rw [d3, abs_mul, abs_of_nonneg (by positivity : 0 ≤ 2 * ((exWarp e1 - exWarp e0) / 2) ^ 2), mul_assoc,
        mul_comm 2, mul_assoc]
      refine mul_le_mul_of_nonneg_left ?_ (sq_nonneg _)
      rw [abs_mul]
      have k1 : 1 / (n : ℝ) ≤ |(exZeta n band j).re| := by
        rw [abs_of_nonpos (by linarith [(by positivity : (0 : ℝ) ≤ 1 / n)])]; linarith
      have k2 := z2 hj0
      have k3 : (exZeta n band j).re * (exZeta n band j).re + (exZeta n band j).im * (exZeta n band j).im = 1 := by
        rw [← Complex.normSq_apply, ← Complex.sq_norm, hζ]; norm_num
      rw [← abs_mul_abs_self, ← abs_mul_abs_self (exZeta n band j).im] at k3
      obtain ⟨x, hx⟩ : ∃ x, x = |(exZeta n band j).re| := ⟨_, rfl⟩
      obtain ⟨y, hy⟩ : ∃ y, y = |(exZeta n band j).im| := ⟨_, rfl⟩
      rw [← hx, ← hy] at k3 ⊢
      rw [← hx] at k1
      rw [← hy] at k2
      obtain ⟨c, hc⟩ : ∃ c : ℝ, c = 1 / n := ⟨_, rfl⟩
      have hc0 : 0 < c := by rw [hc]; positivity
      rw [← hc] at k1 k2 ⊢
      exact le_two_mul_of_circle hc0 k1 k2 k3
  obtain ⟨r1, r2⟩ := band_root_err S c3 hm hp c7 c2 hκ c1 hM0 (by linarith) sz2 sz3 nq es hlow d1 ea hside
  rw [← hx'] at r1
  obtain ⟨q, hq⟩ : ∃ q, q = exShift n band (exWarp e0) (exWarp e1) j := ⟨_, rfl⟩
  obtain ⟨q', hq'⟩ : ∃ q', q' = (Arith.ofRounding r m).shift n band (flWarp r m f0) (flWarp r m f1) j := ⟨_, rfl⟩
  obtain ⟨x', hxd⟩ : ∃ x', x' = (Arith.ofRounding r m).radius n band (flWarp r m f0) (flWarp r m f1) j := ⟨_, rfl⟩
  rw [← hxd] at r1 hx'
  rw [← hq'] at r2
  have nx : ‖x'‖ ≤ 1.2 * M := by
    have k1 := norm_add_le (x' - csqrt a) (csqrt a)
    rw [sub_add_cancel, csqrt_norm] at k1
    have k2 : √‖a‖ ≤ M := Real.sqrt_le_iff.mpr ⟨hM0.le, d1⟩
    have k3 : 170 * H * M / κ ≤ 0.18 * M := by
      rw [div_le_iff₀ hκ]
      have i1 : 4000 * H ≤ κ := by
        have hpr := R.prec
        have j1 : H * (1 - e1) = h := by
          rw [hH]; exact div_mul_cancel₀ _ (by linarith [R.one])
        have j2 : (κ * (e1 - e0) * (1 - e1)) ^ 2 = κ ^ 2 * (e1 - e0) ^ 2 * (1 - e1) * (1 - e1) := by ring
        have j3 : 4000 * H ≤ κ ^ 2 * (e1 - e0) ^ 2 * (1 - e1) := by
          refine le_of_mul_le_mul_right ?_ (by linarith [R.one] : 0 < 1 - e1)
          rw [← j2]
          linarith
        have j4 : (e1 - e0) ^ 2 ≤ 1 := pow_le_one₀ (by linarith [R.lt]) (by linarith [R.one])
        have j5 : κ ^ 2 * (e1 - e0) ^ 2 ≤ κ ^ 2 := mul_le_of_le_one_right (sq_nonneg _) j4
        have j6 : κ ^ 2 * (e1 - e0) ^ 2 * (1 - e1) ≤ κ ^ 2 * (e1 - e0) ^ 2 :=
          mul_le_of_le_one_right (by positivity) (by linarith [R.lt])
        have j7 : κ ^ 2 ≤ κ := by rw [sq]; exact mul_le_of_le_one_left hκ.le c1
        linarith
      have i2 := mul_le_mul_of_nonneg_right i1 hM0.le
      nlinarith [mul_pos hκ hM0]
    linarith
  have hpole : ‖(if up then (Arith.ofRounding r m).cadd q' x' else (Arith.ofRounding r m).csub q' x') -
      exBandRoot n band e0 e1 j up‖ ≤ 216 * H * M / κ := by
    unfold exBandRoot signed
    rw [hxr]
    cases up with
    | true => exact r2 x' (csqrt a) nx r1
    | false =>
      have := r2 (-x') (-csqrt a) (by rwa [norm_neg]) (by
        rw [show -x' - -csqrt a = -(x' - csqrt a) by ring, norm_neg]; exact r1)
      rw [Complex.neg_re, Complex.neg_im, ← sub_eq_add_neg, ← sub_eq_add_neg, ← sub_eq_add_neg] at this
      exact this
  refine ⟨?_, ?_, ?_⟩
  · have k := bilinear_abs_err S (by linarith) hr (by linarith) hre hpole c8
    have e2 : flBandPole r m n band f0 f1 j up = flBilinear r
        (if up then (Arith.ofRounding r m).cadd q' x' else (Arith.ofRounding r m).csub q' x') := by
      rw [hq', hxd]; rfl
    rw [e2]
    unfold exBilin
    have := mul_nonneg h0 hpos.le
    have h5 : 0 ≤ h / ((1 - e1) ^ 2 * κ) := by positivity
    linarith
  · intro hj0 hge
    have hq0 : q'.im = 0 := by rw [hq', hj0]; exact shift_real n band _ _
    have hap : 0 < a.re := by
      rw [← ha] at hge
      have := hodd hj0
      rw [abs_of_nonneg hge] at this
      linarith
    have ha'p : 0 < a'.re := by
      rcases hside with k | k | ⟨-, -, k⟩
      · have := hreal hj0; linarith [k.2]
      · have := hreal hj0; linarith [k.2]
      · rcases k with k | k
        · exact k.2
        · linarith [k.1]
    have hx0 : x'.im = 0 := by
      rw [hx']
      unfold flSqrt
      rw [if_pos (hreal hj0), if_pos ha'p.le]
      exact hreal hj0
    have e2 : flBandPole r m n band f0 f1 j up = flBilinear r
        (if up then (Arith.ofRounding r m).cadd q' x' else (Arith.ofRounding r m).csub q' x') := by
      rw [hq', hxd]; rfl
    have e3 : (if up then (Arith.ofRounding r m).cadd q' x' else (Arith.ofRounding r m).csub q' x').im = 0 := by
      cases up
      · change r.rnd (q'.im - x'.im) = 0
        rw [hq0, hx0, sub_zero, r.zero]
      · change r.rnd (q'.im + x'.im) = 0
        rw [hq0, hx0, add_zero, r.zero]
    rw [e2]
    simp [flBilinear, flDiv, e3, r.zero]
  · have e2 : flBandRoot r m n band f0 f1 j up =
        if up then (Arith.ofRounding r m).cadd q' x' else (Arith.ofRounding r m).csub q' x' := by
      rw [hq', hxd]; rfl
    rw [e2]
    exact hpole.trans c9

/-- The computed poles are close to the exact ones, and real if those are. -/
theorem band_pole_err (hr : r.Nearest) (hm : m.Accurate r h) (hp : m.AccuratePolar r h) {n : ℕ} {e0 e1 κ : ℝ}
    (R : BandRequest n e0 e1 κ h) (S : Small r h (κ ^ 2 * e0 ^ 2 / 2)) {f0 f1 : ℝ} (hf0 : |f0 - e0| ≤ h * e0)
    (hf1 : |f1 - e1| ≤ h * e1) {band : Band} {j : ℤ} (hj : j ∈ stepRange (-(n : ℤ) + 1) n) (up : Bool) :
    ‖flBandPole r m n band f0 f1 j up - exBilin (exBandRoot n band e0 e1 j up)‖ ≤ 310 * (h / ((1 - e1) ^ 2 * κ)) ∧
    (j = 0 → 0 ≤ ((exShift n band (exWarp e0) (exWarp e1) j ^ 2 - ((exWarp e0 * exWarp e1 : ℝ) : ℂ))).re →
      (flBandPole r m n band f0 f1 j up).im = 0) :=
  let k := band_root_pole_err hr hm hp R S hf0 hf1 hj up
  ⟨k.1, k.2.1⟩

end SciRs.Rounded

import Verif.Lemmas.Rounded.PoleError
import Verif.Lemmas.Design.Formats

/-! # The poles of Butterworth low-pass and high-pass designs in floating point -/

namespace SciRs.Rounded

open SciRs.Spec SciRs.Design

/-- The poles of the digital filter, in any arithmetic. -/
theorem butter_poles {A : Arith} {n : ℕ} {wn : List ℝ} {rp rs : Option ℝ} {band : Band} {fs : Option ℝ} {g : Zpk}
    {e : ℝ} (he : edges A wn fs = [e]) (hb : band = .lowpass ∨ band = .highpass)
    (h : design A n wn rp rs band .butterworth false fs = .ok g) :
    g.p = (stepRange (-(n : ℤ) + 1) n).map (fun j =>
      let w := A.mul (A.mul 2 2) (A.tan (A.div (A.mul A.pi e) 2))
      let ζ := -A.cexp ⟨0, A.div (A.mul A.pi (A.ofInt j)) (A.ofInt (2 * n))⟩
      let p := if band = .lowpass then A.cmul ζ (w : ℂ) else A.cdiv (w : ℂ) ζ
      A.cdiv (A.cadd (A.mul 2 2 : ℝ) p) (A.csub (A.mul 2 2 : ℝ) p)) := by
  unfold design at h
  simp only [bind_eq_ok] at h
  obtain ⟨w, hw, f, hf, v, hv, f', hf', h⟩ := h
  rw [validate_eq_ok] at hw
  obtain ⟨rfl, -⟩ := hw
  unfold warp at hv
  rw [if_pos rfl, he] at hv
  obtain ⟨u, -, hv⟩ := bind_eq_ok.mp hv
  have hv2 : v = [A.mul (A.mul 2 2) (A.tan (A.div (A.mul A.pi e) 2))] := by
    simpa [pure, Except.pure] using hv.symm
  subst hv2
  cases hf
  unfold discretise bilinear at h
  rw [if_pos rfl] at h
  obtain ⟨d, -, h⟩ := bind_eq_ok.mp h
  cases h
  rcases hb with rfl | rfl
  · simp only [bandTransform, lp2lp] at hf'
    obtain ⟨d', -, hf'⟩ := bind_eq_ok.mp hf'
    cases hf'
    simp [buttap, Function.comp_def]
  · simp only [bandTransform, lp2hp] at hf'
    obtain ⟨d', -, hf'⟩ := bind_eq_ok.mp hf'
    cases hf'
    simp [buttap, Function.comp_def]

/-- The exact pole of the analog filter. -/
noncomputable def exAnalog (n : ℕ) (band : Band) (e : ℝ) (j : ℤ) : ℂ :=
  if band = .lowpass then exWarp e * exProto n j else exWarp e / exProto n j

/-- The computed pole of the analog filter. -/
noncomputable def flAnalog (r : Rounding) (m : Libm) (n : ℕ) (band : Band) (e : ℝ) (j : ℤ) : ℂ :=
  if band = .lowpass then flMul r (flProto r m n j) (flWarp r m e : ℂ)
  else flDiv r (flWarp r m e : ℂ) (flProto r m n j)

theorem butter_poles_fl {r : Rounding} {m : Libm} {n : ℕ} {wn : List ℝ} {rp rs : Option ℝ} {band : Band}
    {fs : Option ℝ} {g : Zpk} {e : ℝ} (he : edges (.ofRounding r m) wn fs = [e])
    (hb : band = .lowpass ∨ band = .highpass)
    (h : design (.ofRounding r m) n wn rp rs band .butterworth false fs = .ok g) :
    g.p = (stepRange (-(n : ℤ) + 1) n).map (fun j => flBilinear r (flAnalog r m n band e j)) := by
  rw [butter_poles he hb h]
  rfl

theorem butter_poles_ex {eps : ℝ} {n : ℕ} {wn : List ℝ} {rp rs : Option ℝ} {band : Band}
    {fs : Option ℝ} {g : Zpk} {e : ℝ} (he : Spec.edges wn fs = [e])
    (hb : band = .lowpass ∨ band = .highpass)
    (h : design (.exact eps) n wn rp rs band .butterworth false fs = .ok g) :
    g.p = (stepRange (-(n : ℤ) + 1) n).map (fun j =>
      (4 + exAnalog n band e j) / (4 - exAnalog n band e j)) := by
  have he' : edges (.exact eps) wn fs = [e] := by
    rw [← he]
    cases fs <;> rfl
  rw [butter_poles he' hb h]
  refine List.map_congr_left (fun j _ => ?_)
  have e4 : (((2 * 2 : ℝ)) : ℂ) = 4 := by push_cast; norm_num
  have ew : (((2 * 2 * Real.tan (Real.pi * e / 2) : ℝ)) : ℂ) = (exWarp e : ℂ) := by
    rw [exWarp]; push_cast; ring
  have eζ : -Complex.exp (⟨0, Real.pi * ((j : ℤ) : ℝ) / ((2 * n : ℤ) : ℝ)⟩ : ℂ) = exProto n j := by
    rw [exProto]; push_cast; rfl
  have key : (if band = .lowpass then -Complex.exp (⟨0, Real.pi * ((j : ℤ) : ℝ) / ((2 * n : ℤ) : ℝ)⟩ : ℂ) *
        (((2 * 2 * Real.tan (Real.pi * e / 2) : ℝ)) : ℂ)
      else (((2 * 2 * Real.tan (Real.pi * e / 2) : ℝ)) : ℂ) /
        -Complex.exp (⟨0, Real.pi * ((j : ℤ) : ℝ) / ((2 * n : ℤ) : ℝ)⟩ : ℂ)) = exAnalog n band e j := by
    rw [ew, eζ, exAnalog]
    split
    · rw [mul_comm]
    · rfl
  rw [← key, ← e4]
  rfl

theorem exAnalog_parts {n : ℕ} (band : Band) (e : ℝ) (j : ℤ) :
    (exAnalog n band e j).re = -(exWarp e * Real.cos (Real.pi * j / (2 * n))) ∧
    |(exAnalog n band e j).im| = |exWarp e| * |Real.sin (Real.pi * j / (2 * n))| ∧
    ‖exAnalog n band e j‖ = |exWarp e| := by
  obtain ⟨h1, h2⟩ := exProto_parts n j
  have h3 := exProto_norm n j
  unfold exAnalog
  split
  · refine ⟨?_, ?_, ?_⟩
    · rw [Complex.re_ofReal_mul, h1]; ring
    · rw [Complex.im_ofReal_mul, h2, abs_mul, abs_neg]
    · rw [norm_mul, h3, Complex.norm_real, mul_one, Real.norm_eq_abs]
  · have h4 : Complex.normSq (exProto n j) = 1 := by rw [← Complex.sq_norm, h3]; norm_num
    refine ⟨?_, ?_, ?_⟩
    · rw [Complex.div_re, h4, h1]; simp
    · rw [Complex.div_im, h4, h2]; simp [abs_mul]
    · rw [norm_div, h3, Complex.norm_real, div_one, Real.norm_eq_abs]

/-- Where the pre-warped edge lies. -/
theorem exWarp_ratio {e : ℝ} (h0 : 0 < e) (h1 : e < 1) :
    e * (1 - e) / 4 ≤ 4 * exWarp e / (4 + exWarp e) ^ 2 := by
  have hpi := Real.pi_pos
  have hpi2 := Real.two_le_pi
  have hx0 : 0 < Real.pi * e / 2 := by positivity
  have hx2 : Real.pi * e / 2 < Real.pi / 2 := by nlinarith
  have t1 := Real.le_tan hx0.le hx2
  have t2 := Real.le_tan (x := Real.pi / 2 - Real.pi * e / 2) (by linarith) (by linarith)
  rw [Real.tan_pi_div_two_sub] at t2
  unfold exWarp
  obtain ⟨T, hT⟩ : ∃ T, T = Real.tan (Real.pi * e / 2) := ⟨_, rfl⟩
  rw [← hT] at t1 t2 ⊢
  have hT0 : 0 < T := lt_of_lt_of_le hx0 t1
  have a1 : e ≤ T := by nlinarith
  have a2 : (1 - e) * T ≤ 1 := by
    have : 1 - e ≤ T⁻¹ := by nlinarith
    calc (1 - e) * T ≤ T⁻¹ * T := mul_le_mul_of_nonneg_right this hT0.le
      _ = 1 := inv_mul_cancel₀ hT0.ne'
  rw [le_div_iff₀ (by positivity)]
  have : (4 + 4 * T) ^ 2 = 16 * (1 + T) ^ 2 := by ring
  rw [this]
  -- 4 e (1 - e) (1 + T)² ≤ 16 T
  have b1 : 0 < 1 - e := by linarith
  rcases le_total T 1 with hT1 | hT1
  · have c1 : e * (1 - e) ≤ T := by nlinarith
    have c2 : (1 + T) ^ 2 ≤ 4 := by nlinarith
    nlinarith [mul_nonneg h0.le b1.le, mul_le_mul c1 c2 (by positivity) hT0.le]
  · have c1 : e * ((1 - e) * T) ≤ 1 := by nlinarith
    have c2 : (1 + T) ^ 2 ≤ 4 * T ^ 2 := by nlinarith
    have c3 : e * (1 - e) * (1 + T) ^ 2 ≤ e * (1 - e) * (4 * T ^ 2) :=
      mul_le_mul_of_nonneg_left c2 (mul_nonneg h0.le b1.le)
    nlinarith

/-- The exact poles keep their distance from the unit circle and from the real axis. -/
theorem exact_margin {n : ℕ} (hn : n ≠ 0) (band : Band) {e : ℝ} (h0 : 0 < e) (h1 : e < 1) {j : ℤ}
    (hj : j ∈ stepRange (-(n : ℤ) + 1) n) :
    (exAnalog n band e j).re ≤ 0 ∧
    ‖(4 + exAnalog n band e j) / (4 - exAnalog n band e j)‖ ≤ 1 - e * (1 - e) / (2 * n) ∧
    (j ≠ 0 → e * (1 - e) / (2 * n) ≤ |((4 + exAnalog n band e j) / (4 - exAnalog n band e j)).im|) := by
  obtain ⟨p1, p2, p3⟩ := exAnalog_parts (n := n) band e j
  obtain ⟨P, hP⟩ : ∃ P, P = exAnalog n band e j := ⟨_, rfl⟩
  rw [← hP] at p1 p2 p3 ⊢
  have hn0 : (0 : ℝ) < n := by exact_mod_cast Nat.pos_of_ne_zero hn
  have hpi := Real.pi_pos
  have hw0 : 0 < exWarp e := by
    rw [exWarp]
    have : 0 < Real.tan (Real.pi * e / 2) := Real.tan_pos_of_pos_of_lt_pi_div_two (by positivity) (by nlinarith)
    linarith
  have hR := exWarp_ratio h0 h1
  obtain ⟨w, hw⟩ : ∃ w, w = exWarp e := ⟨_, rfl⟩
  rw [← hw] at p1 p2 p3 hw0 hR
  obtain ⟨j1, j2⟩ := mem_stepRange_sym hj
  have ja : |(j : ℝ)| + 1 ≤ n := by
    rw [← Int.cast_abs]
    have : |j| + 1 ≤ (n : ℤ) := by rcases abs_cases j with h | h <;> omega
    exact_mod_cast this
  obtain ⟨x, hx⟩ : ∃ x, x = Real.pi * j / (2 * n) := ⟨_, rfl⟩
  rw [← hx] at p1 p2
  have hxa : 2 / Real.pi * |x| = |(j : ℝ)| / n := by
    rw [hx, abs_div, abs_mul, abs_of_pos hpi, abs_of_pos (by positivity : (0 : ℝ) < 2 * n)]
    field_simp
  have hx2 : |x| ≤ Real.pi / 2 := by
    rw [hx, abs_div, abs_mul, abs_of_pos hpi, abs_of_pos (by positivity : (0 : ℝ) < 2 * n), div_le_iff₀ (by positivity)]
    nlinarith
  have c1 : 1 / n ≤ Real.cos x := by
    have := Real.one_sub_mul_le_cos (abs_nonneg x) hx2
    rw [hxa, Real.cos_abs] at this
    refine le_trans ?_ this
    rw [div_le_iff₀ hn0, sub_mul, div_mul_cancel₀ _ hn0.ne']
    linarith
  have c2 : j ≠ 0 → 1 / n ≤ |Real.sin x| := by
    intro hj0
    have := Real.mul_abs_le_abs_sin hx2
    rw [hxa] at this
    refine le_trans (div_le_div_of_nonneg_right ?_ hn0.le) this
    rw [← Int.cast_abs]; exact_mod_cast Int.one_le_abs hj0
  have c0 : 0 ≤ Real.cos x := le_trans (by positivity) c1
  have hre : P.re ≤ 0 := by rw [p1]; have := mul_nonneg hw0.le c0; linarith
  rw [abs_of_pos hw0] at p2 p3
  obtain ⟨D, hD⟩ : ∃ D, D = ‖4 - P‖ ^ 2 := ⟨_, rfl⟩
  have hD1 : D ≤ (4 + w) ^ 2 := by
    rw [hD]
    have := norm_sub_le (4 : ℂ) P
    rw [p3] at this
    have h4 : ‖(4 : ℂ)‖ = 4 := by simp
    rw [h4] at this
    exact pow_le_pow_left₀ (norm_nonneg _) this 2
  have hDe : D = (4 - P.re) * (4 - P.re) + P.im * P.im := by
    rw [hD, Complex.sq_norm, Complex.normSq_apply]; simp
  have hD0 : 0 < D := by rw [hDe]; nlinarith
  have key : ∀ c : ℝ, 1 / (n : ℝ) ≤ c → e * (1 - e) / n ≤ 16 * w * c / D := by
    intro c hc
    have hc0 : 0 < c := lt_of_lt_of_le (by positivity) hc
    have s1 : 16 * w * c / (4 + w) ^ 2 ≤ 16 * w * c / D := by gcongr
    refine le_trans ?_ s1
    have s2 : 16 * w * c / (4 + w) ^ 2 = 4 * (4 * w / (4 + w) ^ 2) * c := by ring
    rw [s2]
    have s3 : 4 * (e * (1 - e) / 4) * (1 / n) ≤ 4 * (4 * w / (4 + w) ^ 2) * c := by gcongr
    refine le_trans (le_of_eq ?_) s3
    ring
  refine ⟨hre, ?_, fun hj0 => ?_⟩
  · have hsq : ‖(4 + P) / (4 - P)‖ ^ 2 = 1 - 16 * w * Real.cos x / D := by
      rw [norm_div, div_pow, ← hD, eq_sub_iff_add_eq, ← add_div, div_eq_one_iff_eq hD0.ne', hDe, Complex.sq_norm,
        Complex.normSq_apply]
      simp
      rw [p1]
      ring
    have k := key _ c1
    have hN := norm_nonneg ((4 + P) / (4 - P))
    obtain ⟨N, hN'⟩ : ∃ N, N = ‖(4 + P) / (4 - P)‖ := ⟨_, rfl⟩
    rw [← hN'] at hsq hN ⊢
    have e2 : e * (1 - e) / (2 * n) = e * (1 - e) / n / 2 := by ring
    rw [e2]
    have : 0 ≤ e * (1 - e) / n := div_nonneg (mul_nonneg h0.le (by linarith)) hn0.le
    nlinarith [sq_nonneg (N - 1)]
  · have him : ((4 + P) / (4 - P)).im = 8 * P.im / D := by
      have : Complex.normSq (4 - P) = D := by rw [hD, Complex.sq_norm]
      rw [Complex.div_im, this]
      simp
      ring
    rw [him, abs_div, abs_of_pos hD0, abs_mul, p2, abs_of_pos (by norm_num : (0 : ℝ) < 8)]
    have k := key _ (c2 hj0)
    have e2 : e * (1 - e) / (2 * n) = e * (1 - e) / n / 2 := by ring
    have e3 : 8 * (w * |Real.sin x|) / D = 16 * w * |Real.sin x| / D / 2 := by ring
    rw [e2, e3]
    linarith

variable {r : Rounding} {m : Libm} {h : ℝ}

/-- All errors together. -/
theorem pole_err {e e' : ℝ} (S : Small r h e) (hr : r.Nearest) (he : e < 1) (hee : |e' - e| ≤ h * e)
    (hh : h ≤ (1 - e) / 1024) (hm : m.Accurate r h) {n : ℕ} (hn : n ≠ 0) {band : Band} {j : ℤ}
    (hj : j ∈ stepRange (-(n : ℤ) + 1) n) :
    ‖flBilinear r (flAnalog r m n band e' j) - (4 + exAnalog n band e j) / (4 - exAnalog n band e j)‖ ≤
      55 * (h / (1 - e)) := by
  have he0 := S.pos
  have h0 := S.h_nonneg
  have h1e : 0 < 1 - e := by linarith
  obtain ⟨H, hH⟩ : ∃ H, H = h / (1 - e) := ⟨_, rfl⟩
  have hHh : H * (1 - e) = h := by rw [hH]; field_simp
  have hH0 : 0 ≤ H := by rw [hH]; positivity
  have hHs : H ≤ 1 / 1024 := by rw [hH, div_le_iff₀ h1e]; linarith
  have hhH : h ≤ H := by nlinarith
  obtain ⟨j1, j2⟩ := mem_stepRange_sym hj
  have ja : |(j : ℝ)| ≤ n := by
    rw [← Int.cast_abs]
    have : |j| ≤ (n : ℤ) := by rcases abs_cases j with h | h <;> omega
    exact_mod_cast this
  have eζ := proto_err S he.le (by linarith) hm (Nat.one_le_iff_ne_zero.mpr hn) ja
  obtain ⟨w0, w1, ew⟩ := warp_err S hr he hee hh hm
  rw [← hH] at ew ⊢
  obtain ⟨hre, -⟩ := exact_margin hn band he0 he hj
  obtain ⟨-, -, p3⟩ := exAnalog_parts (n := n) band e j
  refine bilinear_err S he hr hhH hHs hre ?_
  rw [p3, abs_of_pos w0]
  unfold flAnalog exAnalog
  split
  · exact lp_err S hr (by linarith) hhH hHs w0 w1 (exProto_norm n j) eζ ew
  · exact hp_err S he hr hh hhH hHs w0 w1 (exProto_norm n j) eζ ew

/-- The middle pole of an odd order is real. -/
theorem flBilinear_real (n : ℕ) (band : Band) (e' : ℝ) : (flBilinear r (flAnalog r m n band e' 0)).im = 0 := by
  have hs : m.sin 0 = 0 := by
    have := m.sin_neg 0
    rw [neg_zero] at this
    linarith
  have h1 : (flProto r m n 0).im = 0 := by
    simp [flProto, flAngle_zero, hs, r.zero]
  have h2 : (flAnalog r m n band e' 0).im = 0 := by
    unfold flAnalog
    split
    · simp [flMul, h1, r.zero]
    · simp [flDiv, h1, r.zero]
  simp [flBilinear, flDiv, h2, r.zero]

end SciRs.Rounded

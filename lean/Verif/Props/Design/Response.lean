import Verif.Props.Design.Iirfilter

/-!
# C56, C57, C63, C64, C65: the frequency response of the designed digital filters

`W` (or `A` and `B`) is the edge as a fraction of the Nyquist frequency, `w` the frequency in radians per
sample: the edge is at `w = π W`.
-/

namespace SciRs.Props

open SciRs.Design SciRs.Spec Complex Polynomial

section

variable (eps : ℝ) (s : Sorts)

/-! ### Butterworth low-pass -/

theorem butter_single {N : ℕ} (hN : N ≠ 0) {band : Band} (hb : band = .lowpass ∨ band = .highpass) {wn W : ℝ}
    {fs : Option ℝ} {btype : Option Band} (hbt : btype.getD .lowpass = band) {analog : Option Bool}
    (ha : analog.getD false = false) (hW : edges [wn] fs = [W]) (h0 : 0 < W) (h1 : W < 1) :
    ∃ d, butter eps s N [wn] btype analog (some .zpk) fs = .ok (.zpk d) ∧
      Digital (buttap N) band [4 * Real.tan (Real.pi * W / 2)] d := by
  obtain ⟨d, hd, hD⟩ := design_digital (N := N) (valid_single hb hW h0 h1 (by simp) (by simp) (.inl rfl))
    (show prototype N .butterworth none none = .ok (buttap N) from rfl) (proto_butter hN band)
  refine ⟨d, ?_, by rw [hW] at hD; exact hD⟩
  rw [butter_eq, hbt, ha, hd]
  rfl

theorem butter_pair {N : ℕ} (hN : N ≠ 0) {band : Band} (hb : band = .bandpass ∨ band = .bandstop) {a b A B : ℝ}
    {fs : Option ℝ} {analog : Option Bool} (ha : analog.getD false = false) (hW : edges [a, b] fs = [A, B])
    (h0 : 0 < A) (hAB : A < B) (h1 : B < 1) :
    ∃ d, butter eps s N [a, b] (some band) analog (some .zpk) fs = .ok (.zpk d) ∧
      Digital (buttap N) band [4 * Real.tan (Real.pi * A / 2), 4 * Real.tan (Real.pi * B / 2)] d := by
  obtain ⟨d, hd, hD⟩ := design_digital (N := N) (valid_pair hb hW h0 hAB h1 (by simp) (by simp) (.inl rfl))
    (show prototype N .butterworth none none = .ok (buttap N) from rfl) (proto_butter hN band)
  refine ⟨d, ?_, by rw [hW] at hD; exact hD⟩
  rw [butter_eq, ha, Option.getD_some, hd]
  rfl

theorem buttap_lengths {N : ℕ} (hN : N ≠ 0) : (buttap N).z.length < (buttap N).p.length := by
  rw [(C45_poles N hN).1, (C45_poles N hN).2.1]
  exact Nat.pos_of_ne_zero hN

/-- **C56.**  The digital Butterworth low-pass filter of order `N ≥ 1` with edge `W` has
`|H(e^{iw})|² = 1 / (1 + (tan(w/2) / tan(πW/2))^(2N))` for every `w` in `(-π, π)`, the value `1` at DC and
`0` at the Nyquist frequency, and is defined on the whole circle. -/
theorem C56_response (N : ℕ) (hN : N ≠ 0) (wn W : ℝ) (fs : Option ℝ) (btype : Option Band)
    (hbt : btype = none ∨ btype = some .lowpass) (analog : Option Bool) (ha : analog = none ∨ analog = some false)
    (hW : edges [wn] fs = [W]) (h0 : 0 < W) (h1 : W < 1) :
    ∃ d, butter eps s N [wn] btype analog (some .zpk) fs = .ok (.zpk d) ∧
      (∀ x : ℂ, 1 ≤ ‖x‖ → d.Regular x) ∧
      (∀ w : ℝ, |w| < Real.pi → ‖d.eval (exp (I * w))‖ ^ 2 =
        1 / (1 + (Real.tan (w / 2) / Real.tan (Real.pi * W / 2)) ^ (2 * N))) ∧
      d.eval 1 = 1 ∧ d.eval (-1) = 0 := by
  have ha' : analog.getD false = false := by rcases ha with rfl | rfl <;> rfl
  have hb' : btype.getD .lowpass = .lowpass := by rcases hbt with rfl | rfl <;> rfl
  obtain ⟨d, hd, hD⟩ := butter_single eps s hN (.inl rfl) hb' ha' hW h0 h1
  have hT := tan_pos_of h0 h1
  refine ⟨d, hd, fun x hx => regular_of_disc hD.disc hx, fun w hw => ?_, ?_, hD.nyquist (.inl rfl) (buttap_lengths hN)⟩
  · rw [hD.lowpass hT.ne' hw, (C45_response N hN _).2]
  · rw [hD.lowpass_one, (C45_dc N).2]

/-- **C56**: the power at the edge is one half, and the gain does not increase with the frequency. -/
theorem C56_half_power_monotone (N : ℕ) (hN : N ≠ 0) (wn W : ℝ) (fs : Option ℝ)
    (hW : edges [wn] fs = [W]) (h0 : 0 < W) (h1 : W < 1) :
    ∃ d, butter eps s N [wn] none none (some .zpk) fs = .ok (.zpk d) ∧
      ‖d.eval (exp (I * ((Real.pi * W : ℝ) : ℂ)))‖ ^ 2 = 1 / 2 ∧
      ∀ v w : ℝ, 0 ≤ v → v ≤ w → w < Real.pi → ‖d.eval (exp (I * w))‖ ≤ ‖d.eval (exp (I * v))‖ := by
  obtain ⟨d, hd, -, hr, -⟩ := C56_response eps s N hN wn W fs none (.inl rfl) none (.inl rfl) hW h0 h1
  have hT := tan_pos_of h0 h1
  have hpi := Real.pi_pos
  refine ⟨d, hd, ?_, fun v w hv hvw hw => ?_⟩
  · rw [hr _ (by rw [abs_of_pos (by positivity)]; nlinarith), div_self hT.ne', one_pow]
    norm_num
  · rw [← sq_le_sq₀ (norm_nonneg _) (norm_nonneg _), hr v (by rw [abs_of_nonneg hv]; linarith),
      hr w (by rw [abs_of_nonneg (by linarith)]; exact hw)]
    have hmono : Real.tan (v / 2) ≤ Real.tan (w / 2) := by
      rcases hvw.eq_or_lt with h | h
      · rw [h]
      · exact (Real.tan_lt_tan_of_nonneg_of_lt_pi_div_two (by linarith) (by linarith) (by linarith)).le
    have htv : 0 ≤ Real.tan (v / 2) := Real.tan_nonneg_of_nonneg_of_le_pi_div_two (by linarith) (by linarith)
    have hp := pow_le_pow_left₀ (div_nonneg htv hT.le) (div_le_div_of_nonneg_right hmono hT.le) (2 * N)
    have hp0 := pow_nonneg (div_nonneg htv hT.le) (2 * N)
    exact one_div_le_one_div_of_le (by linarith) (by linarith)

/-- A concrete case of C56: a filter of order 4 with edge at half the Nyquist frequency passes a quarter
of the sampling rate with half the power. -/
example : ∃ d, butter eps s 4 [1 / 2] none none (some .zpk) none = .ok (.zpk d) ∧
    ‖d.eval (exp (I * ((Real.pi / 2 : ℝ) : ℂ)))‖ ^ 2 = 1 / 2 := by
  obtain ⟨d, hd, h, -⟩ := C56_half_power_monotone eps s 4 (by norm_num) (1 / 2) (1 / 2) none rfl (by norm_num) (by norm_num)
  refine ⟨d, hd, ?_⟩
  rw [show Real.pi / 2 = Real.pi * (1 / 2) by ring, h]

/-! ### Butterworth high-pass -/

/-- **C57.**  The digital Butterworth high-pass filter of order `N ≥ 1` with edge `W` has
`|H(e^{iw})|² = 1 / (1 + (tan(πW/2) / tan(w/2))^(2N))` for every `w ≠ 0` in `(-π, π)`, the value `0` at DC and
`1` at the Nyquist frequency, and half the power at the edge. -/
theorem C57_response (N : ℕ) (hN : N ≠ 0) (wn W : ℝ) (fs : Option ℝ) (analog : Option Bool)
    (ha : analog = none ∨ analog = some false) (hW : edges [wn] fs = [W]) (h0 : 0 < W) (h1 : W < 1) :
    ∃ d, butter eps s N [wn] (some .highpass) analog (some .zpk) fs = .ok (.zpk d) ∧
      (∀ x : ℂ, 1 ≤ ‖x‖ → d.Regular x) ∧
      (∀ w : ℝ, 0 < |w| → |w| < Real.pi → ‖d.eval (exp (I * w))‖ ^ 2 =
        1 / (1 + (Real.tan (Real.pi * W / 2) / Real.tan (w / 2)) ^ (2 * N))) ∧
      d.eval 1 = 0 ∧ d.eval (-1) = 1 ∧ ‖d.eval (exp (I * ((Real.pi * W : ℝ) : ℂ)))‖ ^ 2 = 1 / 2 := by
  have ha' : analog.getD false = false := by rcases ha with rfl | rfl <;> rfl
  obtain ⟨d, hd, hD⟩ := butter_single eps s hN (.inr rfl) (show (some Band.highpass).getD .lowpass = .highpass from rfl)
    ha' hW h0 h1
  have hT := tan_pos_of h0 h1
  have hpi := Real.pi_pos
  have hr : ∀ w : ℝ, 0 < |w| → |w| < Real.pi → ‖d.eval (exp (I * w))‖ ^ 2 =
        1 / (1 + (Real.tan (Real.pi * W / 2) / Real.tan (w / 2)) ^ (2 * N)) := by
    intro w hw0 hw
    rw [hD.highpass hw (tan_half_ne_zero hw0 hw), (C45_response N hN _).2, Even.neg_pow (even_two_mul N)]
  refine ⟨d, hd, fun x hx => regular_of_disc hD.disc hx, hr, hD.dc (.inl rfl) (buttap_lengths hN), ?_, ?_⟩
  · rw [hD.high (.inl rfl), (C45_dc N).2]
  · have hpos : 0 < Real.pi * W := by positivity
    rw [hr _ (by rw [abs_of_pos hpos]; exact hpos) (by rw [abs_of_pos hpos]; nlinarith), div_self hT.ne', one_pow]
    norm_num

/-! ### Butterworth band-pass and band-stop -/

/-- **C64.**  The digital Butterworth band-pass filter with edges `A < B` has
`|H(e^{iw})|² = 1 / (1 + ((t² - αβ) / (t (β - α)))^(2N))` with `t = tan(w/2)`, `α = tan(πA/2)`,
`β = tan(πB/2)`, the value `0` at DC and at the Nyquist frequency, and half the power at both edges. -/
theorem C64_bandpass_response (N : ℕ) (hN : N ≠ 0) (a b A B : ℝ) (fs : Option ℝ) (analog : Option Bool)
    (ha : analog = none ∨ analog = some false) (hW : edges [a, b] fs = [A, B]) (h0 : 0 < A) (hAB : A < B)
    (h1 : B < 1) :
    ∃ d, butter eps s N [a, b] (some .bandpass) analog (some .zpk) fs = .ok (.zpk d) ∧
      (∀ x : ℂ, 1 ≤ ‖x‖ → d.Regular x) ∧
      (∀ w : ℝ, 0 < |w| → |w| < Real.pi → ‖d.eval (exp (I * w))‖ ^ 2 =
        1 / (1 + ((Real.tan (w / 2) ^ 2 - Real.tan (Real.pi * A / 2) * Real.tan (Real.pi * B / 2)) /
          (Real.tan (w / 2) * (Real.tan (Real.pi * B / 2) - Real.tan (Real.pi * A / 2)))) ^ (2 * N))) ∧
      d.eval 1 = 0 ∧ d.eval (-1) = 0 ∧
      ‖d.eval (exp (I * ((Real.pi * A : ℝ) : ℂ)))‖ ^ 2 = 1 / 2 ∧
      ‖d.eval (exp (I * ((Real.pi * B : ℝ) : ℂ)))‖ ^ 2 = 1 / 2 := by
  have ha' : analog.getD false = false := by rcases ha with rfl | rfl <;> rfl
  obtain ⟨d, hd, hD⟩ := butter_pair eps s hN (.inl rfl) ha' hW h0 hAB h1
  have hTA := tan_pos_of h0 (by linarith)
  have hTB := tan_pos_of (by linarith) h1
  have hTT := tan_lt_of h0 hAB h1
  have hpi := Real.pi_pos
  have hr : ∀ w : ℝ, 0 < |w| → |w| < Real.pi → ‖d.eval (exp (I * w))‖ ^ 2 =
        1 / (1 + ((Real.tan (w / 2) ^ 2 - Real.tan (Real.pi * A / 2) * Real.tan (Real.pi * B / 2)) /
          (Real.tan (w / 2) * (Real.tan (Real.pi * B / 2) - Real.tan (Real.pi * A / 2)))) ^ (2 * N)) := by
    intro w hw0 hw
    rw [hD.bandpass hw hTT (tan_half_ne_zero hw0 hw), (C45_response N hN _).2]
  refine ⟨d, hd, fun x hx => regular_of_disc hD.disc hx, hr, hD.dc (.inr rfl) (buttap_lengths hN),
    hD.nyquist (.inr rfl) (buttap_lengths hN), ?_, ?_⟩
  · have hpos : 0 < Real.pi * A := by positivity
    rw [hr _ (by rw [abs_of_pos hpos]; exact hpos) (by rw [abs_of_pos hpos]; nlinarith)]
    generalize Real.tan (Real.pi * A / 2) = α at *
    generalize Real.tan (Real.pi * B / 2) = β at *
    rw [show (α ^ 2 - α * β) / (α * (β - α)) = -1 by
      rw [div_eq_iff (mul_ne_zero hTA.ne' (sub_pos.mpr hTT).ne')]; ring, Even.neg_one_pow (even_two_mul N)]
    norm_num
  · have hB0 : 0 < B := by linarith
    have hpos : 0 < Real.pi * B := by positivity
    rw [hr _ (by rw [abs_of_pos hpos]; exact hpos) (by rw [abs_of_pos hpos]; nlinarith)]
    generalize Real.tan (Real.pi * A / 2) = α at *
    generalize Real.tan (Real.pi * B / 2) = β at *
    rw [show (β ^ 2 - α * β) / (β * (β - α)) = 1 by
      rw [div_eq_iff (mul_ne_zero hTB.ne' (sub_pos.mpr hTT).ne')]; ring, one_pow]
    norm_num

/-- **C65.**  The digital Butterworth band-stop filter with edges `A < B` has
`|H(e^{iw})|² = 1 / (1 + (t (β - α) / (αβ - t²))^(2N))` wherever `t² ≠ αβ`, the value `0` where `t² = αβ`
(the centre of the stop band), the value `1` at DC and at the Nyquist frequency, and half the power at
both edges. -/
theorem C65_bandstop_response (N : ℕ) (hN : N ≠ 0) (a b A B : ℝ) (fs : Option ℝ) (analog : Option Bool)
    (ha : analog = none ∨ analog = some false) (hW : edges [a, b] fs = [A, B]) (h0 : 0 < A) (hAB : A < B)
    (h1 : B < 1) :
    ∃ d, butter eps s N [a, b] (some .bandstop) analog (some .zpk) fs = .ok (.zpk d) ∧
      (∀ x : ℂ, 1 ≤ ‖x‖ → d.Regular x) ∧
      (∀ w : ℝ, |w| < Real.pi → Real.tan (w / 2) ^ 2 ≠ Real.tan (Real.pi * A / 2) * Real.tan (Real.pi * B / 2) →
        ‖d.eval (exp (I * w))‖ ^ 2 =
          1 / (1 + (Real.tan (w / 2) * (Real.tan (Real.pi * B / 2) - Real.tan (Real.pi * A / 2)) /
            (Real.tan (Real.pi * A / 2) * Real.tan (Real.pi * B / 2) - Real.tan (w / 2) ^ 2)) ^ (2 * N))) ∧
      (∀ w : ℝ, |w| < Real.pi → Real.tan (w / 2) ^ 2 = Real.tan (Real.pi * A / 2) * Real.tan (Real.pi * B / 2) →
        d.eval (exp (I * w)) = 0) ∧
      d.eval 1 = 1 ∧ d.eval (-1) = 1 ∧
      ‖d.eval (exp (I * ((Real.pi * A : ℝ) : ℂ)))‖ ^ 2 = 1 / 2 ∧
      ‖d.eval (exp (I * ((Real.pi * B : ℝ) : ℂ)))‖ ^ 2 = 1 / 2 := by
  have ha' : analog.getD false = false := by rcases ha with rfl | rfl <;> rfl
  obtain ⟨d, hd, hD⟩ := butter_pair eps s hN (.inr rfl) ha' hW h0 hAB h1
  have hTA := tan_pos_of h0 (by linarith)
  have hTB := tan_pos_of (by linarith) h1
  have hTT := tan_lt_of h0 hAB h1
  have hpi := Real.pi_pos
  have hr : ∀ w : ℝ, |w| < Real.pi →
      Real.tan (w / 2) ^ 2 ≠ Real.tan (Real.pi * A / 2) * Real.tan (Real.pi * B / 2) →
        ‖d.eval (exp (I * w))‖ ^ 2 =
          1 / (1 + (Real.tan (w / 2) * (Real.tan (Real.pi * B / 2) - Real.tan (Real.pi * A / 2)) /
            (Real.tan (Real.pi * A / 2) * Real.tan (Real.pi * B / 2) - Real.tan (w / 2) ^ 2)) ^ (2 * N)) := by
    intro w hw ht
    rw [hD.bandstop hw ht, (C45_response N hN _).2]
  have hne : (buttap N).p ≠ [] := by
    intro h
    have := buttap_lengths hN
    rw [h] at this
    simp at this
  refine ⟨d, hd, fun x hx => regular_of_disc hD.disc hx, hr, fun w hw ht => hD.stop_centre hne hw ht, ?_, ?_, ?_, ?_⟩
  · rw [hD.bandstop_one hTA hTB, (C45_dc N).2]
  · rw [hD.high (.inr rfl), (C45_dc N).2]
  · have hpos : 0 < Real.pi * A := by positivity
    rw [hr _ (by rw [abs_of_pos hpos]; nlinarith)
      (by intro h; nlinarith)]
    generalize Real.tan (Real.pi * A / 2) = α at *
    generalize Real.tan (Real.pi * B / 2) = β at *
    have : α * β - α ^ 2 ≠ 0 := by
      rw [show α * β - α ^ 2 = α * (β - α) by ring]
      exact mul_ne_zero hTA.ne' (sub_pos.mpr hTT).ne'
    rw [show α * (β - α) / (α * β - α ^ 2) = 1 by rw [div_eq_iff this]; ring, one_pow]
    norm_num
  · have hB0 : 0 < B := by linarith
    have hpos : 0 < Real.pi * B := by positivity
    rw [hr _ (by rw [abs_of_pos hpos]; nlinarith)
      (by intro h; nlinarith)]
    generalize Real.tan (Real.pi * A / 2) = α at *
    generalize Real.tan (Real.pi * B / 2) = β at *
    have : α * β - β ^ 2 ≠ 0 := by
      rw [show α * β - β ^ 2 = -(β * (β - α)) by ring]
      exact neg_ne_zero.mpr (mul_ne_zero hTB.ne' (sub_pos.mpr hTT).ne')
    rw [show β * (β - α) / (α * β - β ^ 2) = -1 by rw [div_eq_iff this]; ring, Even.neg_one_pow (even_two_mul N)]
    norm_num

/-- A concrete case of C64 and C65: edges 10 Hz and 50 Hz at 1666 samples per second. -/
example : (∃ d, butter eps s 4 [10, 50] (some .bandpass) none (some .zpk) (some 1666) = .ok (.zpk d) ∧ d.eval 1 = 0) ∧
    (∃ d, butter eps s 4 [10, 50] (some .bandstop) none (some .zpk) (some 1666) = .ok (.zpk d) ∧ d.eval 1 = 1) := by
  refine ⟨?_, ?_⟩
  · obtain ⟨d, h1, -, -, h2, -⟩ := C64_bandpass_response eps s 4 (by norm_num) 10 50 (2 * 10 / 1666) (2 * 50 / 1666)
      (some 1666) none (.inl rfl) rfl (by norm_num) (by norm_num) (by norm_num)
    exact ⟨d, h1, h2⟩
  · obtain ⟨d, h1, -, -, -, h2, -⟩ := C65_bandstop_response eps s 4 (by norm_num) 10 50 (2 * 10 / 1666) (2 * 50 / 1666)
      (some 1666) none (.inl rfl) rfl (by norm_num) (by norm_num) (by norm_num)
    exact ⟨d, h1, h2⟩

/-! ### Chebyshev I -/

theorem T_neg_sq (N : ℕ) (x : ℝ) : ((Chebyshev.T ℝ N).eval (-x)) ^ 2 = ((Chebyshev.T ℝ N).eval x) ^ 2 := by
  rw [Chebyshev.T_eval_neg]
  rcases Int.even_or_odd (N : ℤ) with h | h
  · rw [Int.negOnePow_even _ h]; simp
  · rw [Int.negOnePow_odd _ h]; simp

theorem cheby1_single {N : ℕ} (hN : N ≠ 0) {rp : ℝ} (hrp : 0 < rp) {band : Band}
    (hb : band = .lowpass ∨ band = .highpass) {wn W : ℝ} {fs : Option ℝ} {analog : Option Bool}
    (ha : analog.getD false = false) (hW : edges [wn] fs = [W]) (h0 : 0 < W) (h1 : W < 1) :
    ∃ d, cheby1 eps s N rp [wn] (some band) analog (some .zpk) fs = .ok (.zpk d) ∧
      Digital (cheb1ap N rp) band [4 * Real.tan (Real.pi * W / 2)] d := by
  obtain ⟨d, hd, hD⟩ := design_digital (N := N) (rp := some rp) (rs := none) (ftype := .chebyshevI)
    (valid_single hb hW h0 h1 (fun r hr => by cases hr; exact hrp.le) (by simp) (.inr (.inl ⟨rfl, rfl⟩)))
    (show prototype N .chebyshevI (some rp) none = .ok (cheb1ap N rp) from rfl) (proto_cheby1 hN hrp band)
  refine ⟨d, ?_, by rw [hW] at hD; exact hD⟩
  rw [cheby1_eq, Option.getD_some, ha, hd]
  rfl

theorem cheby1_pair {N : ℕ} (hN : N ≠ 0) {rp : ℝ} (hrp : 0 < rp) {band : Band}
    (hb : band = .bandpass ∨ band = .bandstop) {a b A B : ℝ} {fs : Option ℝ} {analog : Option Bool}
    (ha : analog.getD false = false) (hW : edges [a, b] fs = [A, B]) (h0 : 0 < A) (hAB : A < B) (h1 : B < 1) :
    ∃ d, cheby1 eps s N rp [a, b] (some band) analog (some .zpk) fs = .ok (.zpk d) ∧
      Digital (cheb1ap N rp) band [4 * Real.tan (Real.pi * A / 2), 4 * Real.tan (Real.pi * B / 2)] d := by
  obtain ⟨d, hd, hD⟩ := design_digital (N := N) (rp := some rp) (rs := none) (ftype := .chebyshevI)
    (valid_pair hb hW h0 hAB h1 (fun r hr => by cases hr; exact hrp.le) (by simp) (.inr (.inl ⟨rfl, rfl⟩)))
    (show prototype N .chebyshevI (some rp) none = .ok (cheb1ap N rp) from rfl) (proto_cheby1 hN hrp band)
  refine ⟨d, ?_, by rw [hW] at hD; exact hD⟩
  rw [cheby1_eq, Option.getD_some, ha, hd]
  rfl

/-- **C63.**  The digital Chebyshev I low-pass and high-pass filters have the Chebyshev response at the
frequencies `tan(w/2) / tan(πW/2)` and `tan(πW/2) / tan(w/2)`. -/
theorem C63_lowpass_highpass (N : ℕ) (hN : N ≠ 0) (rp : ℝ) (hrp : 0 < rp) (wn W : ℝ) (fs : Option ℝ)
    (analog : Option Bool) (ha : analog = none ∨ analog = some false) (hW : edges [wn] fs = [W]) (h0 : 0 < W)
    (h1 : W < 1) :
    (∃ d, cheby1 eps s N rp [wn] (some .lowpass) analog (some .zpk) fs = .ok (.zpk d) ∧
      (∀ x : ℂ, 1 ≤ ‖x‖ → d.Regular x) ∧
      (∀ w : ℝ, |w| < Real.pi → ‖d.eval (exp (I * w))‖ ^ 2 =
        cheb1Power N rp (Real.tan (w / 2) / Real.tan (Real.pi * W / 2))) ∧ d.eval (-1) = 0) ∧
    (∃ d, cheby1 eps s N rp [wn] (some .highpass) analog (some .zpk) fs = .ok (.zpk d) ∧
      (∀ x : ℂ, 1 ≤ ‖x‖ → d.Regular x) ∧
      (∀ w : ℝ, 0 < |w| → |w| < Real.pi → ‖d.eval (exp (I * w))‖ ^ 2 =
        cheb1Power N rp (Real.tan (Real.pi * W / 2) / Real.tan (w / 2))) ∧ d.eval 1 = 0) := by
  have ha' : analog.getD false = false := by rcases ha with rfl | rfl <;> rfl
  have hT := tan_pos_of h0 h1
  have hl : (cheb1ap N rp).z.length < (cheb1ap N rp).p.length := by
    rw [(C46_poles N hN rp hrp).1, (C46_poles N hN rp hrp).2.1]; exact Nat.pos_of_ne_zero hN
  refine ⟨?_, ?_⟩
  · obtain ⟨d, hd, hD⟩ := cheby1_single eps s hN hrp (.inl rfl) ha' hW h0 h1
    refine ⟨d, hd, fun x hx => regular_of_disc hD.disc hx, fun w hw => ?_, hD.nyquist (.inl rfl) hl⟩
    rw [hD.lowpass hT.ne' hw, (C46_response N hN rp hrp _).2, cheb1Power]
  · obtain ⟨d, hd, hD⟩ := cheby1_single eps s hN hrp (.inr rfl) ha' hW h0 h1
    refine ⟨d, hd, fun x hx => regular_of_disc hD.disc hx, fun w hw0 hw => ?_, hD.dc (.inl rfl) hl⟩
    rw [hD.highpass hw (tan_half_ne_zero hw0 hw), (C46_response N hN rp hrp _).2, cheb1Power, T_neg_sq]

/-- **C63** for the band filters. -/
theorem C63_bandpass_bandstop (N : ℕ) (hN : N ≠ 0) (rp : ℝ) (hrp : 0 < rp) (a b A B : ℝ) (fs : Option ℝ)
    (analog : Option Bool) (ha : analog = none ∨ analog = some false) (hW : edges [a, b] fs = [A, B]) (h0 : 0 < A)
    (hAB : A < B) (h1 : B < 1) :
    (∃ d, cheby1 eps s N rp [a, b] (some .bandpass) analog (some .zpk) fs = .ok (.zpk d) ∧
      (∀ x : ℂ, 1 ≤ ‖x‖ → d.Regular x) ∧
      (∀ w : ℝ, 0 < |w| → |w| < Real.pi → ‖d.eval (exp (I * w))‖ ^ 2 =
        cheb1Power N rp ((Real.tan (w / 2) ^ 2 - Real.tan (Real.pi * A / 2) * Real.tan (Real.pi * B / 2)) /
          (Real.tan (w / 2) * (Real.tan (Real.pi * B / 2) - Real.tan (Real.pi * A / 2))))) ∧
      d.eval 1 = 0 ∧ d.eval (-1) = 0) ∧
    (∃ d, cheby1 eps s N rp [a, b] (some .bandstop) analog (some .zpk) fs = .ok (.zpk d) ∧
      (∀ x : ℂ, 1 ≤ ‖x‖ → d.Regular x) ∧
      (∀ w : ℝ, |w| < Real.pi → Real.tan (w / 2) ^ 2 ≠ Real.tan (Real.pi * A / 2) * Real.tan (Real.pi * B / 2) →
        ‖d.eval (exp (I * w))‖ ^ 2 =
          cheb1Power N rp (Real.tan (w / 2) * (Real.tan (Real.pi * B / 2) - Real.tan (Real.pi * A / 2)) /
            (Real.tan (Real.pi * A / 2) * Real.tan (Real.pi * B / 2) - Real.tan (w / 2) ^ 2))) ∧
      (∀ w : ℝ, |w| < Real.pi → Real.tan (w / 2) ^ 2 = Real.tan (Real.pi * A / 2) * Real.tan (Real.pi * B / 2) →
        d.eval (exp (I * w)) = 0)) := by
  have ha' : analog.getD false = false := by rcases ha with rfl | rfl <;> rfl
  have hTT := tan_lt_of h0 hAB h1
  have hl : (cheb1ap N rp).z.length < (cheb1ap N rp).p.length := by
    rw [(C46_poles N hN rp hrp).1, (C46_poles N hN rp hrp).2.1]; exact Nat.pos_of_ne_zero hN
  have hne : (cheb1ap N rp).p ≠ [] := by
    intro h
    rw [h] at hl
    simp at hl
  refine ⟨?_, ?_⟩
  · obtain ⟨d, hd, hD⟩ := cheby1_pair eps s hN hrp (.inl rfl) ha' hW h0 hAB h1
    refine ⟨d, hd, fun x hx => regular_of_disc hD.disc hx, fun w hw0 hw => ?_, hD.dc (.inr rfl) hl, hD.nyquist (.inr rfl) hl⟩
    rw [hD.bandpass hw hTT (tan_half_ne_zero hw0 hw), (C46_response N hN rp hrp _).2, cheb1Power]
  · obtain ⟨d, hd, hD⟩ := cheby1_pair eps s hN hrp (.inr rfl) ha' hW h0 hAB h1
    refine ⟨d, hd, fun x hx => regular_of_disc hD.disc hx, fun w hw ht => ?_, fun w hw ht => hD.stop_centre hne hw ht⟩
    rw [hD.bandstop hw ht, (C46_response N hN rp hrp _).2, cheb1Power]

/-- A concrete case of C63: with 10 dB of ripple the power at the edge of a low-pass filter is `1/10`. -/
example : ∃ d, cheby1 eps s 2 10 [1 / 2] (some .lowpass) none (some .zpk) none = .ok (.zpk d) ∧
    ‖d.eval (exp (I * ((Real.pi / 2 : ℝ) : ℂ)))‖ ^ 2 = 1 / 10 := by
  obtain ⟨⟨d, hd, -, h, -⟩, -⟩ := C63_lowpass_highpass eps s 2 two_ne_zero 10 (by norm_num) (1 / 2) (1 / 2) none none
    (.inl rfl) rfl (by norm_num) (by norm_num)
  refine ⟨d, hd, ?_⟩
  have hpi := Real.pi_pos
  rw [h _ (by rw [abs_of_pos (by positivity)]; linarith), cheb1Power]
  have hT := tan_pos_of (W := 1 / 2) (by norm_num) (by norm_num)
  rw [show Real.pi / 2 / 2 = Real.pi * (1 / 2) / 2 by ring, div_self hT.ne']
  have : (Chebyshev.T ℝ ((2 : ℕ) : ℤ)).eval 1 = 1 := Chebyshev.T_eval_one ℝ _
  rw [this]
  norm_num

end

end SciRs.Props

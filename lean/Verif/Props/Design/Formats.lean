import Verif.Props.Design.Response
import Verif.Lemmas.Design.Formats
import Verif.Props.Sosfiltfilt

/-! # C55, C58, C59, C60, C66: stability, formats and use of the designed filters -/

namespace SciRs.Props

open SciRs.Design SciRs.Spec Complex Polynomial

section

variable (eps : ℝ) (s : Sorts)

/-! ### C58 -/

/-- **C58.**  Whatever the family, the band, the order and the (valid) edges: the poles of a digital design
lie strictly inside the unit circle, those of an analog design strictly in the left half plane. -/
theorem C58_stable (N : ℕ) (wn : List ℝ) (rp rs : Option ℝ) (btype : Option Band) (ftype : Option FType)
    (analog : Option Bool) (fs : Option ℝ)
    (hv : ValidRequest wn rp rs (btype.getD .bandpass) (ftype.getD .butterworth) (analog.getD false) fs)
    (hr : PositiveRipple (ftype.getD .butterworth) rp rs) :
    ∃ d, iirfilter eps s N wn rp rs btype ftype analog (some .zpk) fs = .ok (.zpk d) ∧
      (analog.getD false = false → ∀ p ∈ d.p, ‖p‖ < 1) ∧ (analog.getD false = true → ∀ p ∈ d.p, p.re < 0) := by
  obtain ⟨d, hd, h⟩ := design_stable (N := N) hv hr
  refine ⟨d, ?_, h⟩
  rw [iirfilter_eq, hd]
  rfl

/-- **C58** for the Butterworth entry point. -/
theorem C58_butter (N : ℕ) (wn : List ℝ) (btype : Option Band) (fs : Option ℝ)
    (hv : ValidRequest wn none none (btype.getD .lowpass) .butterworth false fs) :
    ∃ d, butter eps s N wn btype none (some .zpk) fs = .ok (.zpk d) ∧ ∀ p ∈ d.p, ‖p‖ < 1 := by
  obtain ⟨d, h1, h2, -⟩ := C58_stable eps s N wn none none (some (btype.getD .lowpass)) (some .butterworth)
    (some false) fs hv ⟨by simp, by simp⟩
  exact ⟨d, h1, h2 rfl⟩

/-- A concrete case of C58. -/
example : ∃ d, butter eps s 4 [10, 50] (some .bandpass) none (some .zpk) (some 1666) = .ok (.zpk d) ∧
    ∀ p ∈ d.p, ‖p‖ < 1 :=
  C58_butter eps s 4 [10, 50] (some .bandpass) (some 1666)
    (valid_pair (.inl rfl) rfl (by norm_num) (by norm_num) (by norm_num) (by simp) (by simp) (.inl rfl))

/-! ### C55: what is left of Chebyshev II -/

/-- **C55** (partial: the entry point `cheby2_dyn` itself always panics).  Through `iirfilter_dyn`, given any
ripple although none is used, the digital Chebyshev II low-pass filter is designed and has power
`T_N(1/v)² / (T_N(1/v)² + ε²)` at `v = tan(w/2) / tan(πW/2)`, with `ε² = 10^(rs/10) - 1`, and `1` at DC; its
stop band begins at the edge and is attenuated by at least `rs` decibels. -/
theorem C55_lowpass_partial (N : ℕ) (hN : N ≠ 0) (rp rs : ℝ) (hrp : 0 ≤ rp) (hrs : 0 < rs) (wn W : ℝ) (fs : Option ℝ)
    (hW : edges [wn] fs = [W]) (h0 : 0 < W) (h1 : W < 1) :
    ∃ d, iirfilter eps s N [wn] (some rp) (some rs) (some .lowpass) (some .chebyshevII) none (some .zpk) fs =
        .ok (.zpk d) ∧
      (∀ x : ℂ, 1 ≤ ‖x‖ → d.Regular x) ∧ d.eval 1 = 1 ∧
      (∀ w : ℝ, 0 < |w| → |w| < Real.pi → ‖d.eval (exp (I * w))‖ ^ 2 =
        ((Chebyshev.T ℝ N).eval (Real.tan (Real.pi * W / 2) / Real.tan (w / 2))) ^ 2 /
          (((Chebyshev.T ℝ N).eval (Real.tan (Real.pi * W / 2) / Real.tan (w / 2))) ^ 2 +
            ((10 : ℝ) ^ (rs / 10) - 1))) ∧
      (∀ w : ℝ, Real.pi * W ≤ w → w < Real.pi → ‖d.eval (exp (I * w))‖ ^ 2 ≤ (10 : ℝ) ^ (-rs / 10)) := by
  have hv : ValidRequest [wn] (some rp) (some rs) .lowpass .chebyshevII false fs :=
    valid_single (.inl rfl) hW h0 h1 (fun r hr => by cases hr; exact hrp) (fun r hr => by cases hr; exact hrs.le)
      (.inr (.inr ⟨rfl, rfl, rfl⟩))
  obtain ⟨f, d, hf, hd, hD, -⟩ := design_sound (N := N) hv ⟨by simp, fun _ r hr => by cases hr; exact hrs⟩
    (fun _ => .inl rfl)
  obtain rfl : cheb2ap N rs = f := Except.ok.inj hf
  rw [hW] at hD
  have hT := tan_pos_of h0 h1
  have hpi := Real.pi_pos
  refine ⟨d, ?_, fun x hx => regular_of_disc hD.disc hx, ?_, fun w hw0 hw => ?_, fun w hw hwpi => ?_⟩
  · rw [iirfilter_eq]
    simp only [Option.getD_some, Option.getD_none]
    rw [hd]
    rfl
  · rw [hD.lowpass_one]; exact (C47_response N hN rs hrs).1.2
  · have ht := tan_half_ne_zero hw0 hw
    rw [hD.lowpass hT.ne' hw, ((C47_response N hN rs hrs).2 _ (div_ne_zero ht hT.ne')).2, one_div_div]
  · have hw0 : 0 < Real.pi * W := by positivity
    rw [hD.lowpass hT.ne' (by rw [abs_of_pos (by linarith)]; exact hwpi)]
    apply C47_attenuation N hN rs hrs
    have : Real.tan (Real.pi * W / 2) ≤ Real.tan (w / 2) := by
      rcases hw.eq_or_lt with h | h
      · rw [h]
      · exact (Real.tan_lt_tan_of_nonneg_of_lt_pi_div_two (by linarith) (by linarith) (by linarith)).le
    rw [abs_of_pos (div_pos (by linarith) hT), le_div_iff₀ hT]
    linarith

/-! ### C59 -/

/-- **C59**, zero-pole-gain and coefficient formats: for a valid digital request of any family and band
both describe the same transfer function.  (Chebyshev II high-pass and band-stop filters are not the right ones,
see C103, but their formats agree as well, except for the requests excluded by `ZerosFinite`.) -/
theorem C59_zpk_ba (N : ℕ) (wn : List ℝ) (rp rs : Option ℝ) (btype : Option Band) (ftype : Option FType)
    (analog : Option Bool) (ha : analog = none ∨ analog = some false) (fs : Option ℝ)
    (hv : ValidRequest wn rp rs (btype.getD .bandpass) (ftype.getD .butterworth) false fs)
    (hr : PositiveRipple (ftype.getD .butterworth) rp rs)
    (_hfin : ftype.getD .butterworth = .chebyshevII → ZerosFinite N (btype.getD .bandpass) (edges wn fs)) :
    ∃ d t, iirfilter eps s N wn rp rs btype ftype analog (some .zpk) fs = .ok (.zpk d) ∧
      iirfilter eps s N wn rp rs btype ftype analog (some .ba) fs = .ok (.ba t) ∧
      ∀ x : ℂ, x ≠ 0 → (coeffVal t.a x ≠ 0 ↔ d.Regular x) ∧ coeffVal t.b x / coeffVal t.a x = d.eval x := by
  have ha' : analog.getD false = false := by rcases ha with rfl | rfl <;> rfl
  obtain ⟨-, -, d, -, -, -, hd, -, -, -, -, hzc, hpc, -, hlen, -, hl⟩ := design_real (N := N) hv hr
  obtain ⟨t, ht, h⟩ := C49_zpk2tf_partial (2 * N) d hzc hpc hlen hl
  refine ⟨d, t, ?_, ?_, h⟩
  · rw [iirfilter_eq, ha', hd]; rfl
  · rw [iirfilter_eq, ha', hd, ok_bind]
    simp only [convert, Option.getD_some, ht, ok_bind]
    rfl

/-- **C59**, second-order sections: if the zeros and poles of the design are real or further from the real
axis than the tolerance of `cplxreal_dyn`, the sections describe the same transfer function, and every
section is stable, normalised and at rest. -/
theorem C59_zpk_sos (heps : 0 ≤ eps) (hs : s.Correct) (N : ℕ) (wn : List ℝ) (rp rs : Option ℝ) (btype : Option Band)
    (ftype : Option FType) (analog : Option Bool) (ha : analog = none ∨ analog = some false) (fs : Option ℝ)
    (hv : ValidRequest wn rp rs (btype.getD .bandpass) (ftype.getD .butterworth) false fs)
    (hr : PositiveRipple (ftype.getD .butterworth) rp rs)
    (_hfin : ftype.getD .butterworth = .chebyshevII → ZerosFinite N (btype.getD .bandpass) (edges wn fs)) :
    ∃ d, iirfilter eps s N wn rp rs btype ftype analog (some .zpk) fs = .ok (.zpk d) ∧
      (Separated (eps * 100) d.z → Separated (eps * 100) d.p →
        ∃ l, iirfilter eps s N wn rp rs btype ftype analog (some .sos) fs = .ok (.sos l) ∧
          l.length = max 1 ((d.p.length + 1) / 2) ∧
          (∀ c ∈ l, c.a0 = 1 ∧ c.zi0 = 0 ∧ c.zi1 = 0 ∧
            ∀ x : ℂ, coeffVal [c.a0, c.a1, c.a2] x = 0 → ‖x‖ < 1) ∧
          ∀ x : ℂ, x ≠ 0 → (sosDen l x ≠ 0 ↔ d.Regular x) ∧ sosNum l x / sosDen l x = d.eval x) := by
  have ha' : analog.getD false = false := by rcases ha with rfl | rfl <;> rfl
  obtain ⟨-, -, d, -, -, -, hd, -, -, -, -, hzc, hpc, hdisc, hlen, -, -⟩ := design_real (N := N) hv hr
  refine ⟨d, ?_, fun hz hp => ?_⟩
  · rw [iirfilter_eq, ha', hd]; rfl
  · have hg : GoodRoots eps d := ⟨heps, hzc, hpc, hz, hp⟩
    obtain ⟨l, hl1, hl2, hl3, hl4⟩ := C51_sections hs N d hg (.inl rfl) (.inr rfl)
    obtain ⟨l', hl', h5⟩ := C51_transfer hs N d hg (.inl rfl) (.inr rfl) hlen
    obtain rfl : l' = l := Except.ok.inj (hl'.symm.trans hl1)
    refine ⟨l', ?_, ?_, fun c hc => ⟨(hl3 c hc).1, (hl3 c hc).2.1, (hl3 c hc).2.2, fun x hx => ?_⟩, h5⟩
    · rw [iirfilter_eq, ha', hd, ok_bind]
      simp only [convert, Option.getD_some, hl1, ok_bind]
      rfl
    · rw [hl2, hlen, max_self]
    · by_contra hn
      have hn1 : 1 ≤ ‖x‖ := not_lt.mp hn
      have hx0 : x ≠ 0 := by rintro rfl; simp at hn
      have h0 : sosDen l' x = 0 := by
        unfold sosDen
        rw [List.prod_eq_zero_iff]
        exact List.mem_map.mpr ⟨c, hc, hx⟩
      exact (h5 x hx0).1.mpr (regular_of_disc hdisc hn1) h0

/-- **C59** for Butterworth low-pass and high-pass filters: the sections are designed, and agree with the
other formats, whenever `100 eps |cos(πW)| < sin(πW) sin(π/(2N))`: with `eps = 2^-52` this fails only for
extreme edges or orders. -/
theorem C59_butter_sections (heps : 0 ≤ eps) (hs : s.Correct) (N : ℕ) (hN : N ≠ 0) (band : Band)
    (hb : band = .lowpass ∨ band = .highpass) (wn W : ℝ) (fs : Option ℝ) (hW : edges [wn] fs = [W]) (h0 : 0 < W)
    (h1 : W < 1)
    (htol : eps * 100 * |Real.cos (Real.pi * W)| < Real.sin (Real.pi * W) * Real.sin (Real.pi / (2 * N))) :
    ∃ d t l, butter eps s N [wn] (some band) none (some .zpk) fs = .ok (.zpk d) ∧
      butter eps s N [wn] (some band) none (some .ba) fs = .ok (.ba t) ∧
      butter eps s N [wn] (some band) none (some .sos) fs = .ok (.sos l) ∧
      l.length = (N + 1) / 2 ∧
      (∀ c ∈ l, c.a0 = 1 ∧ c.zi0 = 0 ∧ c.zi1 = 0 ∧ ∀ x : ℂ, coeffVal [c.a0, c.a1, c.a2] x = 0 → ‖x‖ < 1) ∧
      ∀ x : ℂ, x ≠ 0 → (coeffVal t.a x ≠ 0 ↔ d.Regular x) ∧ coeffVal t.b x / coeffVal t.a x = d.eval x ∧
        (sosDen l x ≠ 0 ↔ d.Regular x) ∧ sosNum l x / sosDen l x = d.eval x := by
  have hv : ValidRequest [wn] none none band .butterworth false fs :=
    valid_single hb hW h0 h1 (by simp) (by simp) (.inl rfl)
  have hr : PositiveRipple .butterworth none none := ⟨by simp, by simp⟩
  obtain ⟨f, d, hf, hd, hD, hl⟩ := design_sound (N := N) hv hr (by simp)
  obtain ⟨hz, hp⟩ := low_high_separated hN hb hW h0 h1 htol hd
  obtain ⟨d1, t, h3, h4, h5⟩ := C59_zpk_ba eps s N [wn] none none (some band) (some .butterworth) (some false)
    (.inr rfl) fs hv hr (by simp)
  obtain ⟨d2, h6, h7⟩ := C59_zpk_sos eps s heps hs N [wn] none none (some band) (some .butterworth) (some false)
    (.inr rfl) fs hv hr (by simp)
  have e : iirfilter eps s N [wn] none none (some band) (some .butterworth) (some false) (some .zpk) fs = .ok (.zpk d) := by
    rw [iirfilter_eq]
    simp only [Option.getD_some]
    rw [hd]; rfl
  rw [e] at h3 h6
  cases h3
  cases h6
  obtain ⟨l, hl1, hl2, hl3, hl4⟩ := h7 hz hp
  refine ⟨d, t, l, e, h4, hl1, ?_, hl3, fun x hx => ⟨(h5 x hx).1, (h5 x hx).2, (hl4 x hx).1, (hl4 x hx).2⟩⟩
  have hpl : d.p.length = N := by
    obtain rfl : buttap N = f := Except.ok.inj hf
    rw [hD.plen, if_pos hb, one_mul, (C45_poles N hN).2.1]
  rw [hl2, hpl]
  omega

/-- A concrete case of C59: order 4, edge at half the Nyquist frequency, any tolerance. -/
example (heps : 0 ≤ eps) (hs : s.Correct) :
    ∃ d l, butter eps s 4 [1 / 2] (some .lowpass) none (some .zpk) none = .ok (.zpk d) ∧
      butter eps s 4 [1 / 2] (some .lowpass) none (some .sos) none = .ok (.sos l) ∧ l.length = 2 ∧
      sosNum l 2 / sosDen l 2 = d.eval 2 := by
  have hpi := Real.pi_pos
  obtain ⟨d, t, l, h1, -, h2, h3, -, h4⟩ := C59_butter_sections eps s heps hs 4 (by norm_num) .lowpass (.inl rfl) (1 / 2)
    (1 / 2) none rfl (by norm_num) (by norm_num) (by
      rw [show Real.pi * (1 / 2) = Real.pi / 2 by ring, Real.cos_pi_div_two, Real.sin_pi_div_two, abs_zero, mul_zero,
        one_mul]
      exact Real.sin_pos_of_pos_of_lt_pi (by positivity) (by push_cast; linarith))
  exact ⟨d, l, h1, h2, h3, (h4 2 two_ne_zero).2.2.2⟩

/-! ### C60 -/

theorem totalGain_eq (l : List (Sos ℝ)) : ((totalGain l : ℝ) : ℂ) = sosNum l 1 / sosDen l 1 := by
  unfold totalGain sosNum sosDen
  induction l with
  | nil => simp
  | cons c l ih =>
    simp only [List.map_cons, List.prod_cons, ofReal_mul, ih, coeffVal_three, dcGain]
    push_cast
    simp only [one_pow, mul_one]
    rw [div_mul_div_comm]

theorem normal_of_den {l : List (Sos ℝ)} (h1 : ∀ c ∈ l, c.a0 = 1) (h2 : sosDen l 1 ≠ 0) : ∀ c ∈ l, Normal c := by
  intro c hc
  refine ⟨h1 c hc, fun h0 => h2 ?_⟩
  unfold sosDen
  rw [List.prod_eq_zero_iff]
  refine List.mem_map.mpr ⟨c, hc, ?_⟩
  rw [coeffVal_three]
  have : ((c.a0 + c.a1 + c.a2 : ℝ) : ℂ) = 0 := by rw [h0]; rfl
  push_cast at this
  linear_combination this

theorem ntaps_le (l : List (Sos ℝ)) : sosNtaps l ≤ 2 * l.length + 1 := by
  simp only [sosNtaps]; omega

/-- **C60.**  Design a Butterworth low-pass filter as sections and filter a constant signal forwards and
backwards: the constant comes back unchanged, for every order, edge, constant and length; a high-pass
filter returns zeros. -/
theorem C60_constants (heps : 0 ≤ eps) (hs : s.Correct) (N : ℕ) (hN : N ≠ 0) (band : Band)
    (hb : band = .lowpass ∨ band = .highpass) (wn W : ℝ) (fs : Option ℝ) (hW : edges [wn] fs = [W]) (h0 : 0 < W)
    (h1 : W < 1)
    (htol : eps * 100 * |Real.cos (Real.pi * W)| < Real.sin (Real.pi * W) * Real.sin (Real.pi / (2 * N))) :
    ∃ l, butter eps s N [wn] (some band) none (some .sos) fs = .ok (.sos l) ∧
      ∀ (len : ℕ) (c : ℝ), 3 * (2 * ((N + 1) / 2) + 1) < len →
        sosfiltfiltDyn (List.replicate len c) l =
          .ok (List.replicate len (if band = .lowpass then c else 0)) := by
  obtain ⟨d, t, l, e1, -, e3, hlen, hl, hx⟩ := C59_butter_sections eps s heps hs N hN band hb wn W fs hW h0 h1 htol
  refine ⟨l, e3, fun len c hc => ?_⟩
  obtain ⟨-, -, hden, hval⟩ := hx 1 one_ne_zero
  have hreg : d.Regular 1 ∧ d.eval 1 = if band = .lowpass then 1 else 0 := by
    rcases hb with rfl | rfl
    · obtain ⟨d', e, hr, -, h, -⟩ := C56_response eps s N hN wn W fs (some .lowpass) (.inr rfl) none (.inl rfl) hW h0 h1
      rw [e1] at e
      cases e
      exact ⟨hr 1 (by simp), by rw [h, if_pos rfl]⟩
    · obtain ⟨d', e, hr, -, h, -⟩ := C57_response eps s N hN wn W fs none (.inl rfl) hW h0 h1
      rw [e1] at e
      cases e
      exact ⟨hr 1 (by simp), by rw [h]; simp⟩
  have hnorm := normal_of_den (fun q hq => (hl q hq).1) (hden.mpr hreg.1)
  have hnt := ntaps_le l
  rw [C31_constant len c l hnorm (by rw [hlen] at hnt; omega)]
  have hg : totalGain l = if band = .lowpass then 1 else 0 := by
    have h := totalGain_eq l
    rw [hval, hreg.2] at h
    split at h
    · rw [if_pos ‹_›]; exact_mod_cast h
    · rw [if_neg ‹_›]; exact_mod_cast h
  rw [hg]
  split <;> simp

/-- A concrete case of C60: order 4, edge at half the Nyquist frequency, a signal of 100 samples. -/
example (heps : 0 ≤ eps) (hs : s.Correct) :
    ∃ l, butter eps s 4 [1 / 2] (some .lowpass) none (some .sos) none = .ok (.sos l) ∧
      sosfiltfiltDyn (List.replicate 100 (5 : ℝ)) l = .ok (List.replicate 100 5) := by
  have hpi := Real.pi_pos
  obtain ⟨l, h1, h2⟩ := C60_constants eps s heps hs 4 (by norm_num) .lowpass (.inl rfl) (1 / 2)
    (1 / 2) none rfl (by norm_num) (by norm_num) (by
      rw [show Real.pi * (1 / 2) = Real.pi / 2 by ring, Real.cos_pi_div_two, Real.sin_pi_div_two, abs_zero, mul_zero,
        one_mul]
      exact Real.sin_pos_of_pos_of_lt_pi (by positivity) (by push_cast; linarith))
  exact ⟨l, h1, h2 100 5 (by norm_num)⟩

/-! ### C66: analog designs -/

/-- **C66** (partial: the zero-pole-gain format; `C66_analog_ba_wrong` for coefficients, `C62` for sections).
The analog Butterworth low-pass, high-pass, band-pass and band-stop filters have the Butterworth response at
the transformed frequency. -/
theorem C66_low_high_partial (N : ℕ) (hN : N ≠ 0) (wn : ℝ) (h0 : 0 < wn) :
    (∃ d, butter eps s N [wn] (some .lowpass) (some true) (some .zpk) none = .ok (.zpk d) ∧
      ∀ w : ℝ, d.Regular (I * w) ∧ ‖d.eval (I * w)‖ ^ 2 = 1 / (1 + (w / wn) ^ (2 * N))) ∧
    (∃ d, butter eps s N [wn] (some .highpass) (some true) (some .zpk) none = .ok (.zpk d) ∧
      (∀ w : ℝ, w ≠ 0 → d.Regular (I * w) ∧ ‖d.eval (I * w)‖ ^ 2 = 1 / (1 + (wn / w) ^ (2 * N)))) := by
  have hv : ∀ band : Band, (band = .lowpass ∨ band = .highpass) →
      ValidRequest [wn] none none band .butterworth true none := fun band hb =>
    ⟨by rw [if_pos hb]; rfl, by simpa [edges] using h0, by simp [edges], by simp, by simp, by simp, by simp, .inl rfl⟩
  refine ⟨?_, ?_⟩
  · obtain ⟨d, hd, hT⟩ := design_analog (N := N) (hv .lowpass (.inl rfl))
      (show prototype N .butterworth none none = .ok (buttap N) from rfl) (proto_butter hN _)
    refine ⟨d, by rw [butter_eq]; simp only [Option.getD_some]; rw [hd]; rfl, fun w =>
      ⟨regular_of_left hT.left (by simp), ?_⟩⟩
    rw [(hT.same _ trivial).2, ← (C45_response N hN _).2]
    congr 3
    simp only [bandMap]
    push_cast
    ring
  · obtain ⟨d, hd, hT⟩ := design_analog (N := N) (hv .highpass (.inr rfl))
      (show prototype N .butterworth none none = .ok (buttap N) from rfl) (proto_butter hN _)
    refine ⟨d, by rw [butter_eq]; simp only [Option.getD_some]; rw [hd]; rfl, fun w hw =>
      ⟨regular_of_left hT.left (by simp), ?_⟩⟩
    have hw' : (w : ℂ) ≠ 0 := by exact_mod_cast hw
    have hne : I * (w : ℂ) ≠ 0 := mul_ne_zero I_ne_zero hw'
    rw [(hT.same _ hne).2, ← Even.neg_pow (even_two_mul N), ← (C45_response N hN _).2]
    congr 3
    simp only [bandMap]
    rw [div_eq_iff hne]
    push_cast
    field_simp
    linear_combination (wn : ℂ) * I_sq

/-- **C66** (partial, as above) for the band filters with edges `a < b`; the band-stop filter is zero at the
centre `√(ab)` of its stop band. -/
theorem C66_band_partial (N : ℕ) (hN : N ≠ 0) (a b : ℝ) (h0 : 0 < a) (hab : a < b) :
    (∃ d, butter eps s N [a, b] (some .bandpass) (some true) (some .zpk) none = .ok (.zpk d) ∧
      ∀ w : ℝ, w ≠ 0 → d.Regular (I * w) ∧
        ‖d.eval (I * w)‖ ^ 2 = 1 / (1 + ((w ^ 2 - a * b) / (w * (b - a))) ^ (2 * N))) ∧
    (∃ d, butter eps s N [a, b] (some .bandstop) (some true) (some .zpk) none = .ok (.zpk d) ∧
      (∀ w : ℝ, w ^ 2 ≠ a * b → d.Regular (I * w) ∧
        ‖d.eval (I * w)‖ ^ 2 = 1 / (1 + (w * (b - a) / (a * b - w ^ 2)) ^ (2 * N))) ∧
      (∀ w : ℝ, w ^ 2 = a * b → d.eval (I * w) = 0)) := by
  have hb0 : 0 < b := by linarith
  have hv : ∀ band : Band, (band = .bandpass ∨ band = .bandstop) →
      ValidRequest [a, b] none none band .butterworth true none := fun band hb =>
    ⟨by rcases hb with rfl | rfl <;> rfl, by simpa [edges] using ⟨h0, hb0⟩, by simpa [edges] using hab, by simp,
      by simp, by simp, by simp, .inl rfl⟩
  have hBA : (b : ℂ) - a ≠ 0 := by
    rw [← ofReal_sub]; exact_mod_cast (sub_pos.mpr hab).ne'
  refine ⟨?_, ?_⟩
  · obtain ⟨d, hd, hT⟩ := design_analog (N := N) (hv .bandpass (.inl rfl))
      (show prototype N .butterworth none none = .ok (buttap N) from rfl) (proto_butter hN _)
    refine ⟨d, by rw [butter_eq]; simp only [Option.getD_some]; rw [hd]; rfl, fun w hw =>
      ⟨regular_of_left hT.left (by simp), ?_⟩⟩
    have hw' : (w : ℂ) ≠ 0 := by exact_mod_cast hw
    have hne : I * (w : ℂ) ≠ 0 := mul_ne_zero I_ne_zero hw'
    rw [(hT.same _ hne).2, ← (C45_response N hN _).2]
    congr 3
    simp only [bandMap]
    rw [div_eq_iff (mul_ne_zero hBA hne)]
    push_cast
    field_simp
    linear_combination (a * b : ℂ) * I_sq
  · obtain ⟨d, hd, hT⟩ := design_analog (N := N) (hv .bandstop (.inr rfl))
      (show prototype N .butterworth none none = .ok (buttap N) from rfl) (proto_butter hN _)
    refine ⟨d, by rw [butter_eq]; simp only [Option.getD_some]; rw [hd]; rfl, fun w hw =>
      ⟨regular_of_left hT.left (by simp), ?_⟩, fun w hw => ?_⟩
    · have hq : (a : ℂ) * b - (w : ℂ) ^ 2 ≠ 0 := by
        have : a * b - w ^ 2 ≠ 0 := sub_ne_zero.mpr (Ne.symm hw)
        exact_mod_cast this
      have e : (I * (w : ℂ)) ^ 2 + (a : ℂ) * b = (a : ℂ) * b - (w : ℂ) ^ 2 := by
        linear_combination (w : ℂ) ^ 2 * I_sq
      rw [(hT.same _ (show (I * (w : ℂ)) ^ 2 + (a : ℂ) * b ≠ 0 by rw [e]; exact hq)).2, ← (C45_response N hN _).2]
      congr 3
      simp only [bandMap]
      rw [e]
      push_cast
      field_simp
    · have hne : (buttap N).p ≠ [] := by
        intro h
        have := buttap_lengths hN
        rw [h] at this
        simp at this
      refine hT.centre a b rfl rfl hne _ ?_
      have : (w : ℂ) ^ 2 = a * b := by exact_mod_cast hw
      linear_combination (w : ℂ) ^ 2 * I_sq - this

/-- **C66 fails for coefficients**: the analog low-pass filter `1/(s+1)` comes back as `s²/(s²+s)`. -/
theorem C66_analog_ba_wrong :
    ∃ d t, butter eps s 1 [1] (some .lowpass) (some true) (some .zpk) none = .ok (.zpk d) ∧
      butter eps s 1 [1] (some .lowpass) (some true) (some .ba) none = .ok (.ba t) ∧
      d.Regular 2 ∧ coeffVal t.a 2 ≠ 0 ∧ d.eval 2 ≠ coeffVal t.b 2 / coeffVal t.a 2 := by
  have hv : ValidRequest [1] none none .lowpass .butterworth true none :=
    ⟨by rw [if_pos (.inl rfl)]; rfl, by simp [edges], by simp [edges], by simp, by simp, by simp, by simp, .inl rfl⟩
  obtain ⟨d, hd, hT⟩ := design_analog (N := 1) hv
    (show prototype 1 .butterworth none none = .ok (buttap 1) from rfl) (proto_butter one_ne_zero _)
  have hp : (buttap 1).p = [-1] := by
    rw [buttap_p_eq, stepRange_sym]
    simp [th]
  have hpl : d.p.length = 1 := by rw [hT.plen, hp]; rfl
  have hzl : d.z.length = 0 := by have := hT.inf (.inl rfl) (by rw [hp]; simp [buttap]); omega
  obtain ⟨t, ht, -, -, hx⟩ := C49_polynomials 2 d hT.zconj hT.pconj (by omega) (by omega)
  have hev : ∀ x : ℂ, x ≠ -1 → d.Regular x ∧ d.eval x = 1 / (x + 1) := by
    intro x hx1
    have h := hT.same x trivial
    simp only [bandMap, ofReal_one, div_one] at h
    have hne : x + 1 ≠ 0 := fun h => hx1 (by linear_combination h)
    refine ⟨h.1.mpr ?_, ?_⟩
    · simp only [Zpk.Regular, Zpk.den, hp]; simpa using hne
    · rw [h.2]
      simp [Zpk.eval, Zpk.num, Zpk.den, hp, show (buttap 1).z = [] from rfl, show (buttap 1).k = 1 from rfl]
  refine ⟨d, t, by rw [butter_eq]; simp only [Option.getD_some]; rw [hd]; rfl, ?_, (hev 2 (by norm_num)).1, ?_, ?_⟩
  · rw [butter_eq]
    simp only [Option.getD_some]
    rw [hd, ok_bind]
    simp only [convert, mul_one, ht, ok_bind]
    rfl
  · rw [(hx 2).2]; exact mul_ne_zero (hev 2 (by norm_num)).1 (pow_ne_zero _ two_ne_zero)
  · obtain ⟨h1, h2⟩ := hev 2 (by norm_num)
    rw [(hx 2).1, (hx 2).2, hzl, hpl]
    have : d.num 2 * 2 ^ (2 - 0) / (d.den 2 * 2 ^ (2 - 1)) = d.eval 2 * 2 := by
      unfold Zpk.eval
      have : d.den 2 ≠ 0 := h1
      field_simp
      ring
    rw [this, h2]
    norm_num

end

end SciRs.Props

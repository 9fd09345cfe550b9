import Verif.Props.Design.SosOutput
import Verif.Props.Sinusoid

/-!
# C85: designing and filtering, for every family and band

Whenever a design returns sections (C84 says when), filtering with them does what the response of the design says.
-/

namespace SciRs.Props

open SciRs SciRs.Design SciRs.Spec Complex

/-! ### The power of the designs -/

theorem familyPower_even (ftype : FType) (N : ℕ) (rp : Option ℝ) (v : ℝ) :
    familyPower ftype N rp (-v) = familyPower ftype N rp v := by
  cases ftype <;> simp only [familyPower, cheb1Power, T_neg_sq, Even.neg_pow (even_two_mul N)]

theorem digital_power {f d : Zpk} {band : Band} {e : List ℝ} {P : ℝ → ℝ} (hP : ∀ v : ℝ, ‖f.eval (I * v)‖ ^ 2 = P v)
    (heven : ∀ v, P (-v) = P v) (hlen : f.z.length < f.p.length)
    (he : EdgesOk band e) (h1 : ∀ W ∈ e, W < 1)
    (hD : Digital f band (e.map (fun x => 4 * Real.tan (Real.pi * x / 2))) d) (ω : ℝ) (hω : |ω| < Real.pi) :
    ‖d.eval (exp (I * ω))‖ ^ 2 = designPower P band e ω := by
  have htan : ω ≠ 0 → Real.tan (ω / 2) ≠ 0 := fun h => tan_half_ne_zero (abs_pos.mpr h) hω
  have hf : f.p ≠ [] := by
    intro h
    rw [h] at hlen
    simp at hlen
  match band, e, he with
  | .lowpass, [W], he =>
    have hT := tan_pos_of he (h1 W (by simp))
    rw [Digital.lowpass hD hT.ne' hω, hP]
    rfl
  | .highpass, [W], he =>
    simp only [designPower, List.map_cons, List.map_nil]
    split
    · rename_i h
      rw [h, ofReal_zero, mul_zero, exp_zero, hD.dc (.inl rfl) hlen]; simp
    · rename_i h
      rw [Digital.highpass hD hω (htan h), hP, heven]
  | .bandpass, [A, B], he =>
    obtain ⟨hA, hAB⟩ : (0 : ℝ) < A ∧ A < B := he
    simp only [designPower, List.map_cons, List.map_nil]
    split
    · rename_i h
      rw [h, ofReal_zero, mul_zero, exp_zero, hD.dc (.inr rfl) hlen]; simp
    · rename_i h
      rw [Digital.bandpass hD hω (tan_lt_of hA hAB (h1 B (by simp))) (htan h), hP]
  | .bandstop, [A, B], he =>
    simp only [designPower, List.map_cons, List.map_nil]
    split
    · rename_i h
      rw [Digital.stop_centre hD hf hω h]; simp
    · rename_i h
      rw [Digital.bandstop hD hω h, hP]

section
variable (eps : ℝ) (s : Sorts)

/-- **C85**, the response in one formula: the zero-pole-gain format of a valid digital Butterworth or Chebyshev I
request of any band has the power `designPower` at every frequency below Nyquist. -/
theorem C85_response (N : ℕ) (hN : N ≠ 0) (wn : List ℝ) (rp rs : Option ℝ)
    (btype : Option Band) (ftype : Option FType) (analog : Option Bool) (ha : analog = none ∨ analog = some false)
    (fs : Option ℝ)
    (hv : ValidRequest wn rp rs (btype.getD .bandpass) (ftype.getD .butterworth) false fs)
    (hr : PositiveRipple (ftype.getD .butterworth) rp rs)
    (hft : ftype.getD .butterworth = .butterworth ∨ ftype.getD .butterworth = .chebyshevI) :
    ∃ d, iirfilter eps s N wn rp rs btype ftype analog (some .zpk) fs = .ok (.zpk d) ∧
      (∀ x : ℂ, 1 ≤ ‖x‖ → d.Regular x) ∧
      d.p.length = (if btype.getD .bandpass = .lowpass ∨ btype.getD .bandpass = .highpass then 1 else 2) * N ∧
      ∀ ω : ℝ, |ω| < Real.pi → ‖d.eval (exp (I * ω))‖ ^ 2 =
        designPower (familyPower (ftype.getD .butterworth) N rp) (btype.getD .bandpass) (edges wn fs) ω := by
  have ha' : analog.getD false = false := by rcases ha with rfl | rfl <;> rfl
  obtain ⟨f, d, hf, hd, hD, -⟩ := design_sound (N := N) hv hr (by rcases hft with h | h <;> rw [h] <;> simp)
  refine ⟨d, by rw [iirfilter_eq, ha', hd]; rfl, fun x hx => regular_of_disc hD.disc hx, ?_⟩
  have key : (∀ v : ℝ, ‖f.eval (I * v)‖ ^ 2 = familyPower (ftype.getD .butterworth) N rp v) ∧ f.z = [] ∧
      f.p.length = N := by
    rcases hft with h | h
    · rw [h] at hf ⊢
      cases hf
      exact ⟨fun v => (C45_response N hN v).2, rfl, (C45_poles N hN).2.1⟩
    · rw [h] at hf hr ⊢
      cases rp with
      | none => simp [prototype] at hf
      | some r =>
        cases hf
        have hr' := hr.1 rfl r rfl
        exact ⟨fun v => (C46_response N hN r hr' v).2, (C46_poles N hN r hr').1, (C46_poles N hN r hr').2.1⟩
  obtain ⟨h1, h2, h3⟩ := key
  refine ⟨by rw [hD.plen, h3], digital_power h1 (familyPower_even _ _ _) (by rw [h2, h3]; exact Nat.pos_of_ne_zero hN)
    (edgesOk_of_valid hv) (hv.nyquist rfl) hD⟩

/-! ### Filtering with whatever sections are returned -/

theorem sections_stable {l : List (Sos ℝ)}
    (h : ∀ c ∈ l, c.a0 = 1 ∧ c.zi0 = 0 ∧ c.zi1 = 0 ∧ ∀ x : ℂ, coeffVal [c.a0, c.a1, c.a2] x = 0 → ‖x‖ < 1) :
    ∀ c ∈ l, c.a0 = 1 ∧ Stable c := fun c hc => ⟨(h c hc).1, fun z hz => (h c hc).2.2.2 z (by
  rw [coeffVal_three, (h c hc).1]; push_cast; rw [one_mul]; exact hz)⟩

/-- **C85.**  Filter with the sections of any valid digital request, whatever its family and band: a sinusoid
settles to the amplitude and phase of the response of the design, forward-backward filtering multiplies it
by the power of the response without shifting it, and a constant by the power at frequency zero. -/
theorem C85_filtering (heps : 0 ≤ eps) (hs : s.Correct) (N : ℕ) (wn : List ℝ) (rp rs : Option ℝ)
    (btype : Option Band) (ftype : Option FType) (analog : Option Bool) (ha : analog = none ∨ analog = some false)
    (fs : Option ℝ)
    (hv : ValidRequest wn rp rs (btype.getD .bandpass) (ftype.getD .butterworth) false fs)
    (hr : PositiveRipple (ftype.getD .butterworth) rp rs)
    (hfin : ftype.getD .butterworth = .chebyshevII → ZerosFinite N (btype.getD .bandpass) (edges wn fs))
    (l : List (Sos ℝ)) (hl : iirfilter eps s N wn rp rs btype ftype analog (some .sos) fs = .ok (.sos l)) :
    ∃ d, iirfilter eps s N wn rp rs btype ftype analog (some .zpk) fs = .ok (.zpk d) ∧
      ∃ K ρ : ℝ, 0 < ρ ∧ ρ < 1 ∧
        (∀ (A ω φ : ℝ) (n i : ℕ), i < n →
          |(sosfiltDyn (sinusoid A ω φ n) l).1.getD i 0 -
            A * ‖d.eval (exp (I * ω))‖ * Real.cos (ω * i + φ + arg (d.eval (exp (I * ω))))| ≤
            K * (1 + |A|) * ρ ^ i) ∧
        (∀ (A ω φ : ℝ) (n : ℕ), 3 * (2 * max 1 ((d.p.length + 1) / 2) + 1) < n →
          ∃ y, sosfiltfiltDyn (sinusoid A ω φ n) l = .ok y ∧ y.length = n ∧ ∀ i < n,
            |y.getD i 0 - ‖d.eval (exp (I * ω))‖ ^ 2 * (A * Real.cos (ω * i + φ))| ≤
              K * |A| * (ρ ^ i + ρ ^ (n - 1 - i))) ∧
        ∀ (n : ℕ) (c : ℝ), 3 * (2 * max 1 ((d.p.length + 1) / 2) + 1) < n →
          sosfiltfiltDyn (List.replicate n c) l = .ok (List.replicate n (c * ‖d.eval 1‖ ^ 2)) := by
  obtain ⟨d, hd, hlen, hc, hx⟩ := C84_sound eps s heps hs N wn rp rs btype ftype analog ha fs hv hr hfin l hl
  obtain ⟨d', hd', hreg⟩ : ∃ d', iirfilter eps s N wn rp rs btype ftype analog (some .zpk) fs = .ok (.zpk d') ∧
      ∀ x : ℂ, 1 ≤ ‖x‖ → d'.Regular x := by
    have ha' : analog.getD false = false := by rcases ha with rfl | rfl <;> rfl
    obtain ⟨-, -, d', -, -, -, hd', -, -, -, -, -, -, hdisc, -⟩ := design_real (N := N) hv hr
    exact ⟨d', by rw [iirfilter_eq, ha', hd']; rfl, fun x hx => regular_of_disc hdisc hx⟩
  rw [hd] at hd'
  cases hd'
  refine ⟨d, hd, ?_⟩
  have hst := sections_stable hc
  obtain ⟨K₁, ρ₁, ha1, hb1, h1⟩ := C76_steady_state l hst
  obtain ⟨K₂, ρ₂, ha2, hb2, h2⟩ := C77_zero_phase l hst
  have hresp : ∀ ω : ℝ, freqResponse l ω = d.eval (exp (I * ω)) := fun ω => (hx _ (exp_ne_zero _)).2
  have hnt := ntaps_le l
  rw [hlen] at hnt
  have hpow : ∀ {ρ : ℝ} (_ : 0 < ρ) (_ : ρ ≤ max ρ₁ ρ₂) (k : ℕ), ρ ^ k ≤ max ρ₁ ρ₂ ^ k :=
    fun h0 h k => pow_le_pow_left₀ h0.le h k
  refine ⟨max (max K₁ K₂) 0, max ρ₁ ρ₂, lt_max_of_lt_left ha1, max_lt hb1 hb2, fun A ω φ n i hi => ?_,
    fun A ω φ n hn => ?_, fun n c hn => ?_⟩
  · have := h1 A ω φ n i hi
    rw [hresp] at this
    refine this.trans (mul_le_mul (mul_le_mul_of_nonneg_right ((le_max_left _ _).trans (le_max_left _ _)) (by positivity))
      (hpow ha1 (le_max_left _ _) i) (by positivity) (by positivity))
  · obtain ⟨y, hy, hyl, h⟩ := h2 A ω φ n (by omega)
    refine ⟨y, hy, hyl, fun i hi => ?_⟩
    have := h i hi
    rw [hresp] at this
    refine this.trans (mul_le_mul (mul_le_mul_of_nonneg_right ((le_max_right _ _).trans (le_max_left _ _)) (abs_nonneg _))
      (add_le_add (hpow ha2 (le_max_right _ _) i) (hpow ha2 (le_max_right _ _) _)) (by positivity) (by positivity))
  · obtain ⟨hden, hval⟩ := hx 1 one_ne_zero
    rw [C31_constant n c l (normal_of_den (fun q hq => (hc q hq).1) (hden.mpr (hreg 1 (by simp)))) (by omega)]
    have hg : totalGain l ^ 2 = ‖d.eval 1‖ ^ 2 := by
      rw [← hval, ← totalGain_eq, norm_real, Real.norm_eq_abs, sq_abs]
    rw [hg]

/-- **C85** in terms of the request: for Butterworth and Chebyshev I filters of every band the amplitude, the
factor of forward-backward filtering and the factor of a constant are given by `designPower`. -/
theorem C85_request (heps : 0 ≤ eps) (hs : s.Correct) (N : ℕ) (hN : N ≠ 0) (wn : List ℝ) (rp rs : Option ℝ)
    (btype : Option Band) (ftype : Option FType) (analog : Option Bool) (ha : analog = none ∨ analog = some false)
    (fs : Option ℝ)
    (hv : ValidRequest wn rp rs (btype.getD .bandpass) (ftype.getD .butterworth) false fs)
    (hr : PositiveRipple (ftype.getD .butterworth) rp rs)
    (hft : ftype.getD .butterworth = .butterworth ∨ ftype.getD .butterworth = .chebyshevI)
    (l : List (Sos ℝ)) (hl : iirfilter eps s N wn rp rs btype ftype analog (some .sos) fs = .ok (.sos l))
    (power : ℝ → ℝ)
    (hpow : power = designPower (familyPower (ftype.getD .butterworth) N rp) (btype.getD .bandpass) (edges wn fs)) :
    l.length = (if btype.getD .bandpass = .lowpass ∨ btype.getD .bandpass = .highpass then (N + 1) / 2 else N) ∧
      ∃ K ρ : ℝ, 0 < ρ ∧ ρ < 1 ∧
        (∀ ω : ℝ, |ω| < Real.pi → ∃ ψ : ℝ, ∀ (A φ : ℝ) (n i : ℕ), i < n →
          |(sosfiltDyn (sinusoid A ω φ n) l).1.getD i 0 - A * √(power ω) * Real.cos (ω * i + φ + ψ)| ≤
            K * (1 + |A|) * ρ ^ i) ∧
        (∀ (A ω φ : ℝ) (n : ℕ), |ω| < Real.pi → 3 * (2 * l.length + 1) < n →
          ∃ y, sosfiltfiltDyn (sinusoid A ω φ n) l = .ok y ∧ y.length = n ∧ ∀ i < n,
            |y.getD i 0 - power ω * (A * Real.cos (ω * i + φ))| ≤ K * |A| * (ρ ^ i + ρ ^ (n - 1 - i))) ∧
        ∀ (n : ℕ) (c : ℝ), 3 * (2 * l.length + 1) < n →
          sosfiltfiltDyn (List.replicate n c) l = .ok (List.replicate n (c * power 0)) := by
  have hfin : ftype.getD .butterworth = .chebyshevII →
      ZerosFinite N (btype.getD .bandpass) (edges wn fs) := by
    rcases hft with h | h <;> rw [h] <;> simp
  obtain ⟨d, hd, hlen, -⟩ := C84_sound eps s heps hs N wn rp rs btype ftype analog ha fs hv hr hfin l hl
  obtain ⟨d', hd', K, ρ, h0, h1, ha1, ha2, ha3⟩ :=
    C85_filtering eps s heps hs N wn rp rs btype ftype analog ha fs hv hr hfin l hl
  rw [hd] at hd'
  cases hd'
  obtain ⟨d', hd', -, hpl, hP⟩ := C85_response eps s N hN wn rp rs btype ftype analog ha fs hv hr hft
  rw [hd] at hd'
  cases hd'
  rw [← hpow] at hP
  refine ⟨?_, K, ρ, h0, h1, fun ω hω => ⟨arg (d.eval (exp (I * ω))), fun A φ n i hi => ?_⟩, fun A ω φ n hω hn => ?_,
    fun n c hn => ?_⟩
  · rw [hlen, hpl]
    split <;> omega
  · rw [← hP ω hω, Real.sqrt_sq (norm_nonneg _)]
    exact ha1 A ω φ n i hi
  · rw [← hP ω hω]
    exact ha2 A ω φ n (by rw [← hlen]; exact hn)
  · have h := hP 0 (by simpa using Real.pi_pos)
    rw [ofReal_zero, mul_zero, exp_zero] at h
    rw [← h]
    exact ha3 n c (by rw [← hlen]; exact hn)

/-- What the factor of a constant is: nothing passes a high-pass or band-pass filter, a Butterworth low-pass
or band-stop filter keeps the constant, a Chebyshev I one keeps it if the order is odd and divides it by `10^(rp/10)`
(the ripple in power) if it is even. -/
theorem C85_dc (N : ℕ) (hN : N ≠ 0) (ftype : FType) (rp : Option ℝ) (band : Band) (e : List ℝ)
    (he : EdgesOk band e) (h1 : ∀ W ∈ e, W < 1) :
    designPower (familyPower ftype N rp) band e 0 =
      match band with
      | .lowpass | .bandstop =>
        if ftype = .chebyshevI ∧ N % 2 = 0 then 1 / (10 : ℝ) ^ (rp.getD 0 / 10) else 1
      | .highpass | .bandpass => 0 := by
  have hT0 := T_zero_sq N
  have h0 : familyPower ftype N rp 0 = if ftype = .chebyshevI ∧ N % 2 = 0 then 1 / (10 : ℝ) ^ (rp.getD 0 / 10) else 1 := by
    cases ftype <;> simp [familyPower, cheb1Power, hT0, hN]
    split <;> simp
  match band, e, he with
  | .lowpass, [W], he => simp [designPower, h0]
  | .highpass, [W], he => simp [designPower]
  | .bandpass, [A, B], he => simp [designPower]
  | .bandstop, [A, B], he =>
    obtain ⟨hA, hAB⟩ : (0 : ℝ) < A ∧ A < B := he
    have hTA := tan_pos_of hA (h1 A (by simp))
    have hTB := tan_pos_of (hA.trans hAB) (h1 B (by simp))
    simp [designPower, h0, hTA.ne', hTB.ne']

/-- C85 in use: the band-pass filter of the crate's documentation, order 4, 10 Hz to 50 Hz at 1666 Hz, is returned as
four sections in double precision, and removes any constant from a signal of 28 samples or more. -/
example (hs : s.Correct) :
    ∃ l, butter (1 / 2 ^ 52) s 4 [10, 50] (some .bandpass) none (some .sos) (some 1666) = .ok (.sos l) ∧
      l.length = 4 ∧ ∀ (n : ℕ) (c : ℝ), 27 < n →
        sosfiltfiltDyn (List.replicate n c) l = .ok (List.replicate n 0) := by
  have hW : edges [(10 : ℝ), 50] (some 1666) = [20 / 1666, 100 / 1666] := by simp [edges]; norm_num
  have hv : ValidRequest [(10 : ℝ), 50] none none .bandpass .butterworth false (some 1666) :=
    valid_pair (.inl rfl) hW (by norm_num) (by norm_num) (by norm_num) (by simp) (by simp) (.inl rfl)
  obtain ⟨l, hl⟩ := C84_format (1 / 2 ^ 52) s 4 [10, 50] none none (some .bandpass) (some .butterworth) (some false)
    (some 1666) (C84_doc_bandpass s hs)
  obtain ⟨hlen, K, ρ, -, -, -, -, h⟩ := C85_request (1 / 2 ^ 52) s (by norm_num) hs 4 (by norm_num) [10, 50] none none
    (some .bandpass) (some .butterworth) (some false) (.inr rfl) (some 1666) hv ⟨by simp, by simp⟩ (.inl rfl) l hl _ rfl
  have hlen' : l.length = 4 := hlen
  refine ⟨l, hl, hlen', fun n c hn => ?_⟩
  have h0 := C85_dc 4 (by norm_num) .butterworth none .bandpass _ (edgesOk_of_valid hv) (hv.nyquist rfl)
  rw [h n c (by rw [hlen']; exact hn)]
  simp only [Option.getD_some, h0, mul_zero]

end

end SciRs.Props

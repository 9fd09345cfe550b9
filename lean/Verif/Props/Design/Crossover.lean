import Verif.Spec.Crossover
import Verif.Props.Design.Mirror

/-!
# C112: splitting a signal with two Butterworth filters
-/

namespace SciRs.Props

open SciRs SciRs.Design SciRs.Spec Complex

/-! ### Filters with complementary powers -/

theorem eq_everywhere {f : ℝ → ℝ} (hf : Continuous f) (g : ℂ → ℝ) (hg : ∀ ω : ℝ, f ω = g (exp (I * ω))) {c : ℝ}
    (h : ∀ ω : ℝ, |ω| < Real.pi → f ω = c) (ω : ℝ) : f ω = c := by
  have hcl : IsClosed {ω : ℝ | f ω = c} := isClosed_eq hf continuous_const
  have hIcc : Set.Icc (-Real.pi) Real.pi ⊆ {ω : ℝ | f ω = c} := by
    rw [← closure_Ioo (by linarith [Real.pi_pos])]
    refine hcl.closure_subset_iff.mpr fun v hv => h v (abs_lt.mpr hv)
  have e : exp (I * ω) = exp (I * ((arg (exp (I * ω)) : ℝ) : ℂ)) := by
    have := norm_mul_exp_arg_mul_I (exp (I * ω))
    rw [norm_exp_I, ofReal_one, one_mul] at this
    rw [mul_comm I ((arg (exp (I * ω)) : ℝ) : ℂ), this]
  rw [hg, e, ← hg]
  exact hIcc ⟨(neg_pi_lt_arg _).le, arg_le_pi _⟩

theorem partial_sums {a : ℕ → ℝ} (ha : ∀ n, 0 ≤ a n) {e : ℝ} (h : HasSum a e) (m : ℕ) :
    IncreasesTo (fun k => ∑ n ∈ Finset.range (m + k), a n) e := by
  refine ⟨fun k => h.tsum_eq ▸ h.summable.sum_le_tsum _ fun i _ => ha i, fun δ hδ => ?_⟩
  have ht := h.tendsto_sum_nat
  obtain ⟨k0, hk⟩ := (Metric.tendsto_atTop.mp ht) δ hδ
  refine ⟨k0, fun k hk' => ?_⟩
  have := hk (m + k) (by omega)
  rw [Real.dist_eq, abs_lt] at this
  linarith [this.1]

theorem signal_sq (x : List ℝ) :
    HasSum (fun n => (PowerSeries.coeff n (signal x)) ^ 2) (energy x) := by
  have h : ∀ n ∉ Finset.range x.length, (PowerSeries.coeff n (signal x)) ^ 2 = 0 := by
    intro n hn
    have : x.length ≤ n := by simpa using hn
    simp [signal, List.getElem?_eq_none this]
  have e : energy x = ∑ n ∈ Finset.range x.length, (PowerSeries.coeff n (signal x)) ^ 2 := ?_
  · rw [e]
    exact hasSum_sum_of_ne_finset_zero h
  rw [energy_eq]
  exact Finset.sum_congr rfl fun n _ => by simp [signal]

theorem energy_padded (l : List (Sos ℝ)) (x : List ℝ) (k : ℕ) {a : ℕ → ℝ}
    (h : ∀ n < x.length + k, a n = (cascade l (x ++ List.replicate k 0)).1.getD n 0) :
    energy (sosfiltDyn (padded x k) l).1 = ∑ n ∈ Finset.range (x.length + k), a n ^ 2 := by
  rw [energy_eq, C20_sosfilt_dyn_eq_cascade, cascade_length, padded, List.length_append, List.length_replicate]
  exact Finset.sum_congr rfl fun n hn => by rw [h n (by simpa using hn)]

/-- **C112** Two lists of stable sections at rest whose powers add up to 1 at every frequency split the energy of a
signal: what the two outputs have together is at most the energy of the signal, and comes as close to it as
one likes if enough silence follows the signal. -/
theorem C112_energy (l l' : List (Sos ℝ)) (hl : ∀ s ∈ l, s.a0 = 1 ∧ Stable s) (hl' : ∀ s ∈ l', s.a0 = 1 ∧ Stable s)
    (h : AtRest l) (h' : AtRest l')
    (hp : ∀ ω : ℝ, |ω| < Real.pi → ‖freqResponse l ω‖ ^ 2 + ‖freqResponse l' ω‖ ^ 2 = 1) (x : List ℝ) :
    IncreasesTo (fun k => energy (sosfiltDyn (padded x k) l).1 + energy (sosfiltDyn (padded x k) l').1)
      (energy x) := by
  have hg := freqResponse_eq l (fun s h => (hl s h).1)
  have hg' := freqResponse_eq l' (fun s h => (hl' s h).1)
  have hall := eq_everywhere (f := fun ω => ‖freqResponse l ω‖ ^ 2 + ‖freqResponse l' ω‖ ^ 2)
    (((continuous_freqResponse l hl).norm.pow 2).add ((continuous_freqResponse l' hl').norm.pow 2))
    (fun z => ‖casH l z‖ ^ 2 + ‖casH l' z‖ ^ 2) (fun ω => by rw [hg, hg']) hp
  obtain ⟨f, hf, hfo, hfe⟩ := output_series_pad l h (fun s h => (hl s h).2) x
  obtain ⟨f', hf', hfo', hfe'⟩ := output_series_pad l' h' (fun s h => (hl' s h).2) x
  have hsum := parseval_add hf hf' (signal_series x).1 fun θ => by
    have e1 := hfe _ (norm_exp_I θ)
    have e2 := hfe' _ (norm_exp_I θ)
    have e3 := hall (-θ)
    simp only [hg, hg', ofReal_neg, mul_neg, exp_neg] at e3
    unfold ev at e1 e2
    rw [e1, e2, norm_mul, norm_mul, mul_pow, mul_pow, ← add_mul, e3, one_mul]
  rw [(signal_sq x).tsum_eq] at hsum
  have := partial_sums (fun n => by positivity) hsum x.length
  convert this using 2 with k
  rw [energy_padded l x k (hfo k), energy_padded l' x k (hfo' k), Finset.sum_add_distrib]

theorem mix_getD (c : ℝ) (a b : List ℝ) (hlen : a.length = b.length) (n : ℕ) :
    (mix c a b).getD n 0 = a.getD n 0 + c * b.getD n 0 := by
  simp only [mix, List.getD_eq_getElem?_getD, List.getElem?_zipWith]
  by_cases hn : n < a.length
  · rw [List.getElem?_eq_getElem hn, List.getElem?_eq_getElem (hlen ▸ hn)]
    rfl
  · rw [List.getElem?_eq_none (by omega), List.getElem?_eq_none (by omega)]
    simp

theorem ev_mix {f g : PowerSeries ℝ} (hf : AbsSum f) (hg : AbsSum g) (c : ℝ) :
    (Summable fun n => |PowerSeries.coeff n f + c * PowerSeries.coeff n g|) ∧ ∀ w : ℂ, ‖w‖ = 1 →
      ∑' n, ((PowerSeries.coeff n f + c * PowerSeries.coeff n g : ℝ) : ℂ) * w ^ n = ev f w + c * ev g w := by
  constructor
  · refine Summable.of_nonneg_of_le (fun n => abs_nonneg _) (fun n => abs_add_le _ _) (Summable.add hf ?_)
    simpa only [abs_mul] using Summable.mul_left |c| hg
  · intro w hw
    unfold ev
    rw [← tsum_mul_left, ← (hf.norm hw).of_norm.tsum_add ((hg.norm hw).of_norm.mul_left _)]
    refine tsum_congr fun n => ?_
    push_cast
    ring

/-- **C112** Two lists of stable sections at rest, mixed: when the mix `H + c H'` of the responses has modulus 1 at
every frequency, the mix of the outputs has the energy of the signal, in the same sense. -/
theorem C112_mix_energy (l l' : List (Sos ℝ)) (hl : ∀ s ∈ l, s.a0 = 1 ∧ Stable s)
    (hl' : ∀ s ∈ l', s.a0 = 1 ∧ Stable s) (h : AtRest l) (h' : AtRest l') (c : ℝ)
    (hp : ∀ ω : ℝ, |ω| < Real.pi → ‖freqResponse l ω + c * freqResponse l' ω‖ = 1) (x : List ℝ) :
    IncreasesTo (fun k => energy (mix c (sosfiltDyn (padded x k) l).1 (sosfiltDyn (padded x k) l').1))
      (energy x) := by
  have hg := freqResponse_eq l (fun s h => (hl s h).1)
  have hg' := freqResponse_eq l' (fun s h => (hl' s h).1)
  have hall := eq_everywhere (f := fun ω => ‖freqResponse l ω + c * freqResponse l' ω‖)
    ((continuous_freqResponse l hl).add (continuous_const.mul (continuous_freqResponse l' hl'))).norm
    (fun z => ‖casH l z + c * casH l' z‖) (fun ω => by rw [hg, hg']) hp
  obtain ⟨f, hf, hfo, hfe⟩ := output_series_pad l h (fun s h => (hl s h).2) x
  obtain ⟨f', hf', hfo', hfe'⟩ := output_series_pad l' h' (fun s h => (hl' s h).2) x
  obtain ⟨m1, m2⟩ := ev_mix hf hf' c
  have hsum := parseval_add m1 (z := fun _ => 0) (by simp) (signal_series x).1 fun θ => by
    have e1 := hfe _ (norm_exp_I θ)
    have e2 := hfe' _ (norm_exp_I θ)
    have e3 := hall (-θ)
    simp only [hg, hg', ofReal_neg, mul_neg, exp_neg] at e3
    rw [m2 _ (norm_exp_I θ), e1, e2, ← mul_assoc, ← add_mul, norm_mul, e3, one_mul]
    simp [ev]
  rw [(signal_sq x).tsum_eq] at hsum
  have := partial_sums (fun n => by positivity) hsum x.length
  convert this using 2 with k
  have l1 : (sosfiltDyn (padded x k) l).1.length = x.length + k := by
    rw [(C24_length _ l).1, padded, List.length_append, List.length_replicate]
  have l2 : (sosfiltDyn (padded x k) l').1.length = x.length + k := by
    rw [(C24_length _ l').1, padded, List.length_append, List.length_replicate]
  have l3 : (mix c (sosfiltDyn (padded x k) l).1 (sosfiltDyn (padded x k) l').1).length = x.length + k := by
    rw [mix, List.length_zipWith, l1, l2, min_self]
  rw [energy_eq, l3]
  refine Finset.sum_congr rfl fun n hn => ?_
  have hn' : n < x.length + k := by simpa using hn
  rw [mix_getD c _ _ (l1.trans l2.symm), C20_sosfilt_dyn_eq_cascade, C20_sosfilt_dyn_eq_cascade, hfo k n hn', hfo' k n hn']
  simp [padded]

/-! ### The Butterworth prototype -/

theorem buttap_inv {N : ℕ} (hN : N ≠ 0) {x : ℂ} (hx : x ≠ 0) (hr : (buttap N).Regular x) :
    (buttap N).eval x⁻¹ = x ^ N * (buttap N).eval x := by
  obtain ⟨-, hlen, hconj, hp⟩ := C45_poles N hN
  have hdc := C45_dc N
  have hk : ∀ y, (buttap N).num y = 1 := fun y => by simp [Zpk.num, buttap]
  have h0 : (buttap N).den 0 = 1 := by
    have := hdc.2
    have h1 := hdc.1
    unfold Zpk.Regular at h1
    rw [Zpk.eval, hk, div_eq_one_iff_eq h1] at this
    exact this.symm
  have key : (buttap N).den x⁻¹ * x ^ N = (buttap N).den x := by
    have e1 : ∀ l : List ℂ, (∀ p ∈ l, ‖p‖ = 1) → (l.map fun p => x⁻¹ - p).prod * x ^ l.length =
        (l.map fun p => 0 - p).prod * ((l.map (starRingEnd ℂ)).map fun p => x - p).prod := by
      intro l
      induction l with
      | nil => simp
      | cons p l ih =>
        intro h
        have := ih fun q hq => h q (by simp [hq])
        have hpp : p * (starRingEnd ℂ) p = 1 := by
          rw [mul_conj, normSq_eq_norm_sq, h p (by simp)]; simp
        simp only [List.map_cons, List.prod_cons, List.length_cons, pow_succ]
        have e : (x⁻¹ - p) * x = (0 - p) * (x - (starRingEnd ℂ) p) := by
          rw [sub_mul, inv_mul_cancel₀ hx]
          linear_combination -hpp
        linear_combination (l.map fun p => x⁻¹ - p).prod * x ^ l.length * e +
          ((0 - p) * (x - (starRingEnd ℂ) p)) * this
    have := e1 _ fun p h => (hp p h).2
    rw [hlen, (hconj.map fun p => x - p).prod_eq] at this
    unfold Zpk.den at h0 ⊢
    rw [this, h0, one_mul]
  unfold Zpk.Regular at hr
  have hr' : (buttap N).den x⁻¹ ≠ 0 := fun h => hr (by rw [← key, h, zero_mul])
  rw [Zpk.eval, Zpk.eval, hk, hk, ← key]
  field_simp

/-- The responses of the two filters: a real number `v` and powers of `i v`. -/
theorem complement_response {N : ℕ} (hN : N ≠ 0) {band : Band} (hb : band = .lowpass ∨ band = .bandpass) {e : List ℝ}
    {d d' : Zpk} (he : EdgesOk band e) (h1 : ∀ W ∈ e, W < 1)
    (hD : Digital (buttap N) band (e.map (fun x => 4 * Real.tan (Real.pi * x / 2))) d)
    (hD' : Digital (buttap N) (complementBand band) (e.map (fun x => 4 * Real.tan (Real.pi * x / 2))) d') (ω : ℝ)
    (hω : |ω| < Real.pi) :
    (∃ v : ℝ, d.eval (exp (I * ω)) = (buttap N).eval (I * v) ∧
      d'.eval (exp (I * ω)) = (I * v) ^ N * (buttap N).eval (I * v) ∧
      (∀ W, band = .lowpass → e = [W] → v = Real.tan (ω / 2) / Real.tan (Real.pi * W / 2))) ∨
    (band = .bandpass ∧ d.eval (exp (I * ω)) = 0 ∧ d'.eval (exp (I * ω)) = 1) := by
  have htan : ω ≠ 0 → Real.tan (ω / 2) ≠ 0 := fun h => tan_half_ne_zero (abs_pos.mpr h) hω
  have hlen := buttap_lengths hN
  have hinv : ∀ v : ℝ, v ≠ 0 → (buttap N).eval (I * ((-(1 / v) : ℝ) : ℂ)) = (I * v) ^ N * (buttap N).eval (I * v) := by
    intro v hv
    have hv' : (v : ℂ) ≠ 0 := by exact_mod_cast hv
    rw [← buttap_inv hN (mul_ne_zero I_ne_zero hv') (C45_response N hN v).1]
    congr 1
    rw [mul_inv, inv_I]
    push_cast
    field_simp
  match band, e, he with
  | .lowpass, [W], he =>
    have hT := tan_pos_of he (h1 W (by simp))
    refine .inl ⟨Real.tan (ω / 2) / Real.tan (Real.pi * W / 2), Digital.lowpass hD hT.ne' hω, ?_, ?_⟩
    · by_cases h0 : ω = 0
      · rw [h0, ofReal_zero, mul_zero, exp_zero, hD'.dc (.inl rfl) hlen]
        simp [hN]
      · have ht := htan h0
        rw [Digital.highpass hD' hω ht, ← hinv _ (div_ne_zero ht hT.ne'), one_div_div]
    · rintro W' - h
      cases h
      rfl
  | .highpass, [W], _ => simp at hb
  | .bandstop, [_, _], _ => simp at hb
  | .bandpass, [A, B], he =>
    obtain ⟨hA, hAB⟩ : (0 : ℝ) < A ∧ A < B := he
    have hB1 := h1 B (by simp)
    have hTA := tan_pos_of hA (by linarith)
    have hTB := tan_pos_of (hA.trans hAB) hB1
    have hlt := tan_lt_of hA hAB hB1
    by_cases h0 : ω = 0
    · refine .inr ⟨rfl, ?_, ?_⟩
      · rw [h0, ofReal_zero, mul_zero, exp_zero, hD.dc (.inr rfl) hlen]
      · rw [h0, ofReal_zero, mul_zero, exp_zero, Digital.bandstop_one hTA hTB hD', (C45_dc N).2]
    · have ht := htan h0
      refine .inl ⟨_, Digital.bandpass hD hω hlt ht, ?_, by simp⟩
      by_cases hc : Real.tan (ω / 2) ^ 2 = Real.tan (Real.pi * A / 2) * Real.tan (Real.pi * B / 2)
      · have hf : (buttap N).p ≠ [] := by
          intro h
          rw [h] at hlen
          simp at hlen
        rw [Digital.stop_centre hD' hf hω hc, hc, sub_self, zero_div]
        simp [hN]
      · rw [Digital.bandstop hD' hω hc]
        rw [← hinv _ (div_ne_zero (sub_ne_zero.mpr hc) (mul_ne_zero ht (sub_pos.mpr hlt).ne'))]
        congr 3
        rw [one_div_div, ← div_neg, neg_sub]

theorem complement_power {N : ℕ} (hN : N ≠ 0) (v : ℝ) :
    ‖(buttap N).eval (I * v)‖ ^ 2 + ‖(I * v) ^ N * (buttap N).eval (I * v)‖ ^ 2 = 1 ∧
      ‖(buttap N).eval (I * v) ^ 2 + ((-1 : ℝ) ^ N : ℝ) * ((I * v) ^ N * (buttap N).eval (I * v)) ^ 2‖ = 1 := by
  have hr := (C45_response N hN v).2
  have hpos : 0 < 1 + v ^ (2 * N) := by have := Even.pow_nonneg (even_two_mul N) v; linarith
  have hv : ‖(I * v : ℂ) ^ N‖ ^ 2 = v ^ (2 * N) := by
    rw [norm_pow, norm_mul, norm_I, one_mul, norm_real, Real.norm_eq_abs, ← pow_mul, mul_comm N 2, pow_mul, sq_abs,
      ← pow_mul]
  constructor
  · rw [norm_mul, mul_pow, hr, hv]
    field_simp
  · have e : (buttap N).eval (I * v) ^ 2 + ((-1 : ℝ) ^ N : ℝ) * ((I * v) ^ N * (buttap N).eval (I * v)) ^ 2 =
        ((1 + v ^ (2 * N) : ℝ) : ℂ) * (buttap N).eval (I * v) ^ 2 := by
      have e2 : (((-1 : ℝ) ^ N : ℝ) : ℂ) * ((I * v) ^ N) ^ 2 = (v : ℂ) ^ (2 * N) := by
        push_cast
        rw [← pow_mul, mul_comm N 2, mul_pow, pow_mul I, I_sq, ← mul_assoc, ← mul_pow]
        norm_num
      rw [mul_pow, ← mul_assoc, e2]
      push_cast
      ring
    rw [e, norm_mul, norm_pow, hr, norm_real, Real.norm_eq_abs, abs_of_pos hpos]
    field_simp

section
variable (eps : ℝ) (s : Sorts)

/-- The two Butterworth filters of a request and of its complement. -/
theorem complement_designs (N : ℕ) (wn : List ℝ) (band : Band) (fs : Option ℝ)
    (hv : ValidRequest wn none none band .butterworth false fs) :
    ValidRequest wn none none (complementBand band) .butterworth false fs ∧
    ∃ d d', iirfilter eps s N wn none none (some band) (some .butterworth) none (some .zpk) fs = .ok (.zpk d) ∧
      iirfilter eps s N wn none none (some (complementBand band)) (some .butterworth) none (some .zpk) fs =
        .ok (.zpk d') ∧
      Digital (buttap N) band ((edges wn fs).map (fun x => 4 * Real.tan (Real.pi * x / 2))) d ∧
      Digital (buttap N) (complementBand band) ((edges wn fs).map (fun x => 4 * Real.tan (Real.pi * x / 2))) d' := by
  have hv' : ValidRequest wn none none (complementBand band) .butterworth false fs :=
    ⟨by rw [hv.count]; cases band <;> rfl, hv.positive, hv.increasing, hv.nyquist, hv.fs_digital, hv.ripple,
      hv.attenuation, hv.family⟩
  obtain ⟨f, d, hf, hd, hD, -⟩ := design_sound (N := N) hv ⟨by simp, by simp⟩ (by simp)
  obtain ⟨f', d', hf', hd', hD', -⟩ := design_sound (N := N) hv' ⟨by simp, by simp⟩ (by simp)
  cases hf
  cases hf'
  refine ⟨hv', d, d', ?_, ?_, hD, hD'⟩
  · rw [iirfilter_eq]
    change (design N wn none none band .butterworth false fs >>= _) = _
    rw [hd]; rfl
  · rw [iirfilter_eq]
    change (design N wn none none (complementBand band) .butterworth false fs >>= _) = _
    rw [hd']; rfl

/-- **C112** The powers of a Butterworth low-pass and high-pass filter of the same order with the same edge, or of a
band-pass and band-stop filter with the same edges, add up to 1 at every frequency.  Adding the squares of the two
responses (subtracting them, for odd orders) gives modulus 1 at every frequency. -/
theorem C112_power (N : ℕ) (hN : N ≠ 0) (wn : List ℝ) (band : Band) (hb : band = .lowpass ∨ band = .bandpass)
    (fs : Option ℝ) (hv : ValidRequest wn none none band .butterworth false fs) :
    ∃ d d', iirfilter eps s N wn none none (some band) (some .butterworth) none (some .zpk) fs = .ok (.zpk d) ∧
      iirfilter eps s N wn none none (some (complementBand band)) (some .butterworth) none (some .zpk) fs =
        .ok (.zpk d') ∧
      ∀ ω : ℝ, |ω| < Real.pi →
        ‖d.eval (exp (I * ω))‖ ^ 2 + ‖d'.eval (exp (I * ω))‖ ^ 2 = 1 ∧
        ‖d.eval (exp (I * ω)) ^ 2 + ((-1 : ℝ) ^ N : ℝ) * d'.eval (exp (I * ω)) ^ 2‖ = 1 := by
  obtain ⟨-, d, d', hd, hd', hD, hD'⟩ := complement_designs eps s N wn band fs hv
  refine ⟨d, d', hd, hd', fun ω hω => ?_⟩
  rcases complement_response hN hb (edgesOk_of_valid hv) (hv.nyquist rfl) hD hD' ω hω with
    ⟨v, e1, e2, -⟩ | ⟨-, e1, e2⟩
  · rw [e1, e2]
    exact complement_power hN v
  · rw [e1, e2]
    simp

/-- **C112** The responses of the low-pass and the high-pass filter differ by the factor
`(i tan(ω/2) / tan(πW/2))^N`: at every positive frequency by the phase of `N` quarter turns, and at the edge by
nothing else. -/
theorem C112_phase (N : ℕ) (hN : N ≠ 0) (w W : ℝ) (fs : Option ℝ) (hW : edges [w] fs = [W]) (h0 : 0 < W)
    (h1 : W < 1) :
    ∃ d d', iirfilter eps s N [w] none none (some .lowpass) (some .butterworth) none (some .zpk) fs = .ok (.zpk d) ∧
      iirfilter eps s N [w] none none (some .highpass) (some .butterworth) none (some .zpk) fs = .ok (.zpk d') ∧
      (∀ ω : ℝ, |ω| < Real.pi → d'.eval (exp (I * ω)) =
        (I * ((Real.tan (ω / 2) / Real.tan (Real.pi * W / 2) : ℝ) : ℂ)) ^ N * d.eval (exp (I * ω))) ∧
      d'.eval (exp (I * ((Real.pi * W : ℝ) : ℂ))) = I ^ N * d.eval (exp (I * ((Real.pi * W : ℝ) : ℂ))) := by
  have hv : ValidRequest [w] none none .lowpass .butterworth false fs :=
    valid_single (.inl rfl) hW h0 h1 (by simp) (by simp) (.inl rfl)
  obtain ⟨-, d, d', hd, hd', hD, hD'⟩ := complement_designs eps s N [w] .lowpass fs hv
  have H : ∀ ω : ℝ, |ω| < Real.pi → d'.eval (exp (I * ω)) =
        (I * ((Real.tan (ω / 2) / Real.tan (Real.pi * W / 2) : ℝ) : ℂ)) ^ N * d.eval (exp (I * ω)) := fun ω hω => by
    rcases complement_response hN (.inl rfl) (edgesOk_of_valid hv) (hv.nyquist rfl) hD hD' ω hω with
      ⟨v, e1, e2, e3⟩ | ⟨h, -⟩
    · rw [e1, e2, e3 W rfl hW]
    · cases h
  refine ⟨d, d', hd, hd', H, ?_⟩
  have hpi := Real.pi_pos
  rw [H _ (by rw [abs_of_pos (by positivity)]; nlinarith), div_self (tan_pos_of h0 h1).ne']
  simp

variable {eps s}

/-- **C112** Filter a signal with the sections of both filters: the energies of the two outputs together are at most
that of the signal, and tend to it as more silence follows the signal. -/
theorem C112_split (heps : 0 ≤ eps) (hs : s.Correct) (N : ℕ) (hN : N ≠ 0) (wn : List ℝ) (band : Band)
    (hb : band = .lowpass ∨ band = .bandpass) (fs : Option ℝ)
    (hv : ValidRequest wn none none band .butterworth false fs) (l l' : List (Sos ℝ))
    (hl : iirfilter eps s N wn none none (some band) (some .butterworth) none (some .sos) fs = .ok (.sos l))
    (hl' : iirfilter eps s N wn none none (some (complementBand band)) (some .butterworth) none (some .sos) fs =
      .ok (.sos l')) (x : List ℝ) :
    IncreasesTo (fun k => energy (sosfiltDyn (padded x k) l).1 + energy (sosfiltDyn (padded x k) l').1)
      (energy x) := by
  obtain ⟨hv', -⟩ := complement_designs eps s N wn band fs hv
  obtain ⟨d, d', hd, hd', H⟩ := C112_power eps s N hN wn band hb fs hv
  obtain ⟨a1, a2, -, d1, hd1, a3⟩ := design_sections eps s heps hs N hN wn none none (some band) (some .butterworth)
    none (.inl rfl) fs hv ⟨by simp, by simp⟩ (by simp) l hl
  obtain ⟨b1, b2, -, d2, hd2, b3⟩ := design_sections eps s heps hs N hN wn none none (some (complementBand band))
    (some .butterworth) none (.inl rfl) fs hv' ⟨by simp, by simp⟩ (by simp) l' hl'
  rw [hd] at hd1
  cases hd1
  rw [hd'] at hd2
  cases hd2
  exact C112_energy l l' a1 b1 a2 b2 (fun ω hω => by rw [a3, b3]; exact (H ω hω).1) x

theorem cascade_append (l m : List (Sos ℝ)) (x : List ℝ) : (cascade (l ++ m) x).1 = (cascade m (cascade l x).1).1 := by
  induction l generalizing x with
  | nil => rfl
  | cons c l ih => simp [cascade, ih]

theorem twice_eq (l : List (Sos ℝ)) (x : List ℝ) :
    (sosfiltDyn (sosfiltDyn x l).1 l).1 = (sosfiltDyn x (l ++ l)).1 := by
  simp only [C20_sosfilt_dyn_eq_cascade, cascade_append]

theorem twice_response {l : List (Sos ℝ)} (h : ∀ c ∈ l, c.a0 = 1 ∧ Stable c) (ω : ℝ) :
    freqResponse (l ++ l) ω = freqResponse l ω ^ 2 := by
  have h2 : ∀ c ∈ l ++ l, c.a0 = 1 := fun c hc => (h c (by simpa using hc)).1
  rw [freqResponse_eq l (fun c hc => (h c hc).1), freqResponse_eq _ h2, casH, casH, List.map_append, List.prod_append,
    sq]

/-- **C112** The crossover made of Butterworth filters applied twice: filter a signal twice with the sections of the
low-pass (band-pass) filter and twice with those of the high-pass (band-stop) filter, and add the results, subtracting
the second for odd orders.  The sum has the energy of the signal, in the same sense. -/
theorem C112_twice (heps : 0 ≤ eps) (hs : s.Correct) (N : ℕ) (hN : N ≠ 0) (wn : List ℝ) (band : Band)
    (hb : band = .lowpass ∨ band = .bandpass) (fs : Option ℝ)
    (hv : ValidRequest wn none none band .butterworth false fs) (l l' : List (Sos ℝ))
    (hl : iirfilter eps s N wn none none (some band) (some .butterworth) none (some .sos) fs = .ok (.sos l))
    (hl' : iirfilter eps s N wn none none (some (complementBand band)) (some .butterworth) none (some .sos) fs =
      .ok (.sos l')) (x : List ℝ) :
    IncreasesTo (fun k => energy (mix ((-1) ^ N) (sosfiltDyn (sosfiltDyn (padded x k) l).1 l).1
      (sosfiltDyn (sosfiltDyn (padded x k) l').1 l').1)) (energy x) := by
  obtain ⟨hv', -⟩ := complement_designs eps s N wn band fs hv
  obtain ⟨d, d', hd, hd', H⟩ := C112_power eps s N hN wn band hb fs hv
  obtain ⟨a1, a2, -, d1, hd1, a3⟩ := design_sections eps s heps hs N hN wn none none (some band) (some .butterworth)
    none (.inl rfl) fs hv ⟨by simp, by simp⟩ (by simp) l hl
  obtain ⟨b1, b2, -, d2, hd2, b3⟩ := design_sections eps s heps hs N hN wn none none (some (complementBand band))
    (some .butterworth) none (.inl rfl) fs hv' ⟨by simp, by simp⟩ (by simp) l' hl'
  rw [hd] at hd1
  cases hd1
  rw [hd'] at hd2
  cases hd2
  simp only [twice_eq]
  refine C112_mix_energy (l ++ l) (l' ++ l') (fun c hc => a1 c (by simpa using hc)) (fun c hc => b1 c (by simpa using hc))
    (fun c hc => a2 c (by simpa using hc)) (fun c hc => b2 c (by simpa using hc)) _ (fun ω hω => ?_) x
  rw [twice_response a1, twice_response b1, a3, b3]
  exact (H ω hω).2

/-- **C112** Forward and backward filtering with both filters: the two outputs add up to the signal.  For a sinusoid,
up to terms that decay exponentially with the distance from the ends of the signal; for a constant, exactly. -/
theorem C112_zero_phase (heps : 0 ≤ eps) (hs : s.Correct) (N : ℕ) (hN : N ≠ 0) (wn : List ℝ) (band : Band)
    (hb : band = .lowpass ∨ band = .bandpass) (fs : Option ℝ)
    (hv : ValidRequest wn none none band .butterworth false fs) (l l' : List (Sos ℝ))
    (hl : iirfilter eps s N wn none none (some band) (some .butterworth) none (some .sos) fs = .ok (.sos l))
    (hl' : iirfilter eps s N wn none none (some (complementBand band)) (some .butterworth) none (some .sos) fs =
      .ok (.sos l')) :
    ∃ K ρ : ℝ, ∃ n0 : ℕ, 0 < ρ ∧ ρ < 1 ∧
      (∀ (A ω φ : ℝ) (n : ℕ), |ω| < Real.pi → n0 < n →
        ∃ y y', sosfiltfiltDyn (sinusoid A ω φ n) l = .ok y ∧ sosfiltfiltDyn (sinusoid A ω φ n) l' = .ok y' ∧
          y.length = n ∧ y'.length = n ∧
          ∀ i < n, |y.getD i 0 + y'.getD i 0 - A * Real.cos (ω * i + φ)| ≤ K * |A| * (ρ ^ i + ρ ^ (n - 1 - i))) ∧
      ∀ (n : ℕ) (c : ℝ), n0 < n → ∃ a b : ℝ, a + b = c ∧
        sosfiltfiltDyn (List.replicate n c) l = .ok (List.replicate n a) ∧
        sosfiltfiltDyn (List.replicate n c) l' = .ok (List.replicate n b) := by
  obtain ⟨hv', -⟩ := complement_designs eps s N wn band fs hv
  obtain ⟨d, d', hd, hd', H⟩ := C112_power eps s N hN wn band hb fs hv
  obtain ⟨d1, hd1, K, ρ, p0, p1, -, a1, a2⟩ := C85_filtering eps s heps hs N wn none none (some band)
    (some .butterworth) none (.inl rfl) fs hv ⟨by simp, by simp⟩ (by simp) l hl
  obtain ⟨d2, hd2, K', ρ', p0', p1', -, b1, b2⟩ := C85_filtering eps s heps hs N wn none none
    (some (complementBand band)) (some .butterworth) none (.inl rfl) fs hv' ⟨by simp, by simp⟩ (by simp) l' hl'
  rw [hd] at hd1
  cases hd1
  rw [hd'] at hd2
  cases hd2
  refine ⟨|K| + |K'|, max ρ ρ', max (3 * (2 * max 1 ((d.p.length + 1) / 2) + 1))
    (3 * (2 * max 1 ((d'.p.length + 1) / 2) + 1)), lt_max_of_lt_left p0, max_lt p1 p1', ?_, ?_⟩
  · intro A ω φ n hω hn
    obtain ⟨y, hy, ly, ey⟩ := a1 A ω φ n ((le_max_left _ _).trans_lt hn)
    obtain ⟨y', hy', ly', ey'⟩ := b1 A ω φ n ((le_max_right _ _).trans_lt hn)
    refine ⟨y, y', hy, hy', ly, ly', fun i hi => ?_⟩
    have h1 := ey i hi
    have h2 := ey' i hi
    have hsum := (H ω hω).1
    have hb1 : K * |A| * (ρ ^ i + ρ ^ (n - 1 - i)) ≤
        |K| * |A| * (max ρ ρ' ^ i + max ρ ρ' ^ (n - 1 - i)) := by
      refine mul_le_mul (mul_le_mul_of_nonneg_right (le_abs_self K) (abs_nonneg A)) (add_le_add ?_ ?_)
        (by positivity) (by positivity) <;> exact pow_le_pow_left₀ p0.le (le_max_left _ _) _
    have hb2 : K' * |A| * (ρ' ^ i + ρ' ^ (n - 1 - i)) ≤
        |K'| * |A| * (max ρ ρ' ^ i + max ρ ρ' ^ (n - 1 - i)) := by
      refine mul_le_mul (mul_le_mul_of_nonneg_right (le_abs_self K') (abs_nonneg A)) (add_le_add ?_ ?_)
        (by positivity) (by positivity) <;> exact pow_le_pow_left₀ p0'.le (le_max_right _ _) _
    have e : y.getD i 0 + y'.getD i 0 - A * Real.cos (ω * i + φ) =
        (y.getD i 0 - ‖d.eval (exp (I * ω))‖ ^ 2 * (A * Real.cos (ω * i + φ))) +
        (y'.getD i 0 - ‖d'.eval (exp (I * ω))‖ ^ 2 * (A * Real.cos (ω * i + φ))) := by
      linear_combination (A * Real.cos (ω * i + φ)) * hsum
    rw [e]
    refine (abs_add_le _ _).trans ?_
    linarith
  · intro n c hn
    refine ⟨_, _, ?_, a2 n c ((le_max_left _ _).trans_lt hn), b2 n c ((le_max_right _ _).trans_lt hn)⟩
    have := (H 0 (by simpa using Real.pi_pos)).1
    rw [ofReal_zero, mul_zero, exp_zero] at this
    linear_combination c * this

/-- A concrete case: fourth-order filters with the edge 1 kHz for signals sampled at 48 kHz. -/
example (hs : s.Correct) (l l' : List (Sos ℝ))
    (hl : iirfilter 0 s 4 [1000] none none (some .lowpass) (some .butterworth) none (some .sos) (some 48000) =
      .ok (.sos l))
    (hl' : iirfilter 0 s 4 [1000] none none (some .highpass) (some .butterworth) none (some .sos) (some 48000) =
      .ok (.sos l')) (x : List ℝ) :
    IncreasesTo (fun k => energy (sosfiltDyn (padded x k) l).1 + energy (sosfiltDyn (padded x k) l').1) (energy x) ∧
    IncreasesTo (fun k => energy (mix 1 (sosfiltDyn (sosfiltDyn (padded x k) l).1 l).1
      (sosfiltDyn (sosfiltDyn (padded x k) l').1 l').1)) (energy x) := by
  have hv : ValidRequest [1000] none none .lowpass .butterworth false (some 48000) :=
    { count := rfl
      positive := by simp [Spec.edges]
      increasing := by simp [Spec.edges]
      nyquist := by simp [Spec.edges]; norm_num
      fs_digital := by simp
      ripple := by simp
      attenuation := by simp
      family := .inl rfl }
  refine ⟨C112_split le_rfl hs 4 (by norm_num) [1000] .lowpass (.inl rfl) (some 48000) hv l l' hl hl' x, ?_⟩
  have := C112_twice le_rfl hs 4 (by norm_num) [1000] .lowpass (.inl rfl) (some 48000) hv l l' hl hl' x
  rwa [show ((-1 : ℝ) ^ 4) = 1 by norm_num] at this

end

end SciRs.Props

import Verif.Lemmas.Spectrum

/-!
# C120: the frequency response and the impulse response determine each other
-/

namespace SciRs.Props

open SciRs SciRs.Spec SciRs.Design MeasureTheory
open scoped Topology

/-- **C120** For stable sections the frequency response is the Fourier transform of the impulse response. -/
theorem C120_impulse (sos : List (Sos ℝ)) (hs : ∀ s ∈ sos, s.a0 = 1 ∧ Stable s) (ω : ℝ) :
    HasSum (fun k : ℕ => (impulseResponse sos k : ℂ) * Complex.exp (-(Complex.I * ω * k))) (freqResponse sos ω) := by
  obtain ⟨H, hH⟩ : ∃ H, H = freqResponse sos ω := ⟨_, rfl⟩
  have e : ∀ k : ℕ, (impulseResponse sos k : ℂ) * Complex.exp (-(Complex.I * ω * k)) =
      ((impulseResponse sos k * Real.cos (0 - ω * k) : ℝ) : ℂ) -
        ((impulseResponse sos k * Real.cos (Real.pi / 2 - ω * k) : ℝ) : ℂ) * Complex.I := by
    intro k
    rw [Real.cos_pi_div_two_sub, zero_sub, Real.cos_neg,
      show -(Complex.I * ω * k) = ((-(ω * k) : ℝ) : ℂ) * Complex.I by push_cast; ring, Complex.exp_mul_I,
      ← Complex.ofReal_cos, ← Complex.ofReal_sin, Real.cos_neg, Real.sin_neg]
    push_cast
    ring
  have h1 := Complex.hasSum_ofReal.mpr (impulse_cos sos hs ω 0)
  have h2 := Complex.hasSum_ofReal.mpr (impulse_cos sos hs ω (Real.pi / 2))
  have h3 := h1.sub (h2.mul_right Complex.I)
  have hc : ‖H‖ * Real.cos (0 + Complex.arg H) = H.re := by rw [zero_add, Complex.norm_mul_cos_arg]
  have hsn : ‖H‖ * Real.cos (Real.pi / 2 + Complex.arg H) = -H.im := by
    rw [add_comm, Real.cos_add_pi_div_two, mul_neg, Complex.norm_mul_sin_arg]
  rw [← hH, hc, hsn, Complex.ofReal_neg, neg_mul, sub_neg_eq_add, Complex.re_add_im] at h3
  rw [← hH]
  exact hasSum_of_eq (fun k => (e k).symm) h3

/-- **C120** Every sample of the impulse response is the inverse transform of the frequency response. -/
theorem C120_inverse (sos : List (Sos ℝ)) (hs : ∀ s ∈ sos, s.a0 = 1 ∧ Stable s) (n : ℕ) :
    ∫ ω in (-Real.pi)..Real.pi, freqResponse sos ω * Complex.exp (Complex.I * ω * n) =
      2 * Real.pi * impulseResponse sos n := by
  have h := integral_series (E := ℂ)
    (fun k ω => (impulseResponse sos k : ℂ) * Complex.exp (Complex.I * ((n : ℤ) - k : ℤ) * ω))
    (fun ω => freqResponse sos ω * Complex.exp (Complex.I * ω * n)) (fun k => |impulseResponse sos k|)
    (impulse_summable sos fun s hm => (hs s hm).2) (fun k => by fun_prop) (fun k ω => by
      rw [norm_mul, Complex.norm_real, Real.norm_eq_abs,
        show Complex.I * ((n : ℤ) - k : ℤ) * ω = ((((n : ℤ) - k : ℤ) * ω : ℝ) : ℂ) * Complex.I by push_cast; ring,
        Complex.norm_exp_ofReal_mul_I, mul_one]) (fun ω => by
      refine hasSum_of_eq (fun k => ?_) ((C120_impulse sos hs ω).mul_right (Complex.exp (Complex.I * ω * n)))
      rw [mul_assoc, ← Complex.exp_add]
      congr 2
      push_cast
      ring) (-Real.pi) Real.pi
  have e : ∀ k : ℕ, (∫ ω in (-Real.pi)..Real.pi,
      (impulseResponse sos k : ℂ) * Complex.exp (Complex.I * ((n : ℤ) - k : ℤ) * ω)) =
      if k = n then (2 * Real.pi * impulseResponse sos n : ℂ) else 0 := by
    intro k
    rw [intervalIntegral.integral_const_mul, integral_exp_int]
    by_cases hk : k = n
    · subst hk
      simp
      ring
    · rw [if_neg (by omega), if_neg hk, mul_zero]
  rw [funext e] at h
  exact h.unique (hasSum_ite_eq n _)

/-- **C120** The kernel of zero-phase filtering (C118) has the squared magnitude response as its spectrum. -/
theorem C120_kernel (sos : List (Sos ℝ)) (hs : ∀ s ∈ sos, s.a0 = 1 ∧ Stable s) (φ : ℕ → ℝ)
    (hφ : ∀ d, HasSum (fun k => impulseResponse sos k * impulseResponse sos (k + d)) (φ d)) (ω : ℝ) :
    HasSum (fun d : ℕ => 2 * φ (d + 1) * Real.cos (ω * (d + 1 : ℕ))) (‖freqResponse sos ω‖ ^ 2 - φ 0) := by
  have hst : ∀ s ∈ sos, Stable s := fun s hm => (hs s hm).2
  have habs := kernel_abs_summable sos hst φ hφ
  have hsum : Summable fun d : ℕ => 2 * φ (d + 1) * Real.cos (ω * (d + 1 : ℕ)) := by
    refine Summable.of_norm_bounded (((summable_nat_add_iff 1).mpr habs).mul_left 2) fun d => ?_
    rw [Real.norm_eq_abs, abs_mul, abs_mul, abs_of_pos (by norm_num : (0 : ℝ) < 2)]
    exact mul_le_of_le_one_right (by positivity) (Real.abs_cos_le_one _)
  obtain ⟨ψ, K, ρ, h0, h1, hψ, -, H⟩ := C118_kernel sos hst
  have eψ : ψ = φ := funext fun d => (hψ d).unique (hφ d)
  subst eψ
  obtain ⟨K', ρ', h0', h1', H'⟩ := C77_zero_phase sos hs
  have hpart : ∀ c : ℕ, 3 * sosNtaps sos ≤ c →
      |(∑ d ∈ Finset.range c, 2 * ψ (d + 1) * Real.cos (ω * (d + 1 : ℕ))) - (‖freqResponse sos ω‖ ^ 2 - ψ 0)| ≤
        2 * K * ρ ^ c + 2 * K' * ρ' ^ c := by
    intro c hc
    obtain ⟨z, hz, hzl, hz'⟩ := H' 1 ω (-(ω * c)) (2 * c + 1) (by omega)
    have a := hz' c (by omega)
    have b := H 1 (sinusoid 1 ω (-(ω * c)) (2 * c + 1)) z (by
      intro v hv
      unfold sinusoid at hv
      obtain ⟨j, -, rfl⟩ := List.mem_map.mp hv
      rw [one_mul]
      exact Real.abs_cos_le_one _) hz c (by rw [sinusoid_length]; omega)
    rw [symConv_middle, sinusoid_length, show 2 * c + 1 - 1 - c = c by omega, abs_sub_comm] at b
    rw [show 2 * c + 1 - 1 - c = c by omega, show ω * (c : ℝ) + -(ω * c) = 0 by ring, Real.cos_zero, abs_one] at a
    have t := abs_sub_le (ψ 0 + ∑ d ∈ Finset.range c, 2 * ψ (d + 1) * Real.cos (ω * (d + 1 : ℕ))) (z.getD c 0)
      (‖freqResponse sos ω‖ ^ 2 * (1 * 1))
    rw [show (∑ d ∈ Finset.range c, 2 * ψ (d + 1) * Real.cos (ω * (d + 1 : ℕ))) - (‖freqResponse sos ω‖ ^ 2 - ψ 0) =
      ψ 0 + (∑ d ∈ Finset.range c, 2 * ψ (d + 1) * Real.cos (ω * (d + 1 : ℕ))) - ‖freqResponse sos ω‖ ^ 2 * (1 * 1) by ring]
    linarith
  have hlim : Filter.Tendsto (fun c => ∑ d ∈ Finset.range c, 2 * ψ (d + 1) * Real.cos (ω * (d + 1 : ℕ)))
      Filter.atTop (𝓝 (‖freqResponse sos ω‖ ^ 2 - ψ 0)) := by
    rw [tendsto_iff_norm_sub_tendsto_zero]
    refine squeeze_zero' (Filter.Eventually.of_forall fun _ => norm_nonneg _)
      (Filter.eventually_atTop.mpr ⟨3 * sosNtaps sos, fun c hc => (Real.norm_eq_abs _).le.trans (hpart c hc)⟩) ?_
    have := ((tendsto_pow_atTop_nhds_zero_of_lt_one h0.le h1).const_mul (2 * K)).add
      ((tendsto_pow_atTop_nhds_zero_of_lt_one h0'.le h1').const_mul (2 * K'))
    simpa using this
  rw [← tendsto_nhds_unique hsum.hasSum.tendsto_sum_nat hlim]
  exact hsum.hasSum

/-- **C120** The kernel is the inverse transform of the squared magnitude response.  At zero: the sum of the squares of
the impulse response, by which the filter multiplies the variance of white noise, is the mean of the squared magnitude
response. -/
theorem C120_kernel_inverse (sos : List (Sos ℝ)) (hs : ∀ s ∈ sos, s.a0 = 1 ∧ Stable s) (φ : ℕ → ℝ)
    (hφ : ∀ d, HasSum (fun k => impulseResponse sos k * impulseResponse sos (k + d)) (φ d)) (n : ℕ) :
    ∫ ω in (-Real.pi)..Real.pi, ‖freqResponse sos ω‖ ^ 2 * Real.cos (n * ω) = 2 * Real.pi * φ n := by
  have hst : ∀ s ∈ sos, Stable s := fun s hm => (hs s hm).2
  have habs := kernel_abs_summable sos hst φ hφ
  obtain ⟨w, hw⟩ : ∃ w : ℕ → ℝ, w = fun d => if d = 0 then φ 0 / 2 else φ d := ⟨_, rfl⟩
  have hwle : ∀ d, |w d| ≤ |φ d| := by
    intro d
    rw [hw]
    beta_reduce
    split
    · rename_i h
      subst h
      rw [abs_div, abs_of_pos (by norm_num : (0 : ℝ) < 2)]
      linarith [abs_nonneg (φ 0)]
    · exact le_rfl
  have h := integral_series (E := ℝ) (fun d ω => w d * (2 * Real.cos (d * ω) * Real.cos (n * ω)))
    (fun ω => ‖freqResponse sos ω‖ ^ 2 * Real.cos (n * ω)) (fun d => 2 * |φ d|) (habs.mul_left 2)
    (fun d => by fun_prop) (fun d ω => by
      rw [Real.norm_eq_abs, abs_mul, abs_mul, abs_mul, abs_of_pos (by norm_num : (0 : ℝ) < 2)]
      have a := Real.abs_cos_le_one (d * ω)
      have b := Real.abs_cos_le_one (n * ω)
      have c := mul_le_mul a b (abs_nonneg _) zero_le_one
      have := mul_le_mul (hwle d) c (by positivity) (abs_nonneg _)
      nlinarith) (fun ω => by
      have k := (hasSum_nat_add_iff (f := fun d : ℕ => 2 * w d * Real.cos (ω * d)) 1 (g := ‖freqResponse sos ω‖ ^ 2 - φ 0)).mp (by
        have := C120_kernel sos hs φ hφ ω
        simp only [hw, Nat.succ_ne_zero, if_false]
        exact this)
      have k2 := k.mul_right (Real.cos (n * ω))
      rw [Finset.sum_range_one, show ‖freqResponse sos ω‖ ^ 2 - φ 0 + 2 * w 0 * Real.cos (ω * (0 : ℕ)) =
        ‖freqResponse sos ω‖ ^ 2 by simp [hw]; ring] at k2
      refine hasSum_of_eq (fun d => ?_) k2
      rw [mul_comm ω]
      ring) (-Real.pi) Real.pi
  have e : ∀ d : ℕ, (∫ ω in (-Real.pi)..Real.pi, w d * (2 * Real.cos (d * ω) * Real.cos (n * ω))) =
      if d = n then 2 * Real.pi * φ n else 0 := by
    intro d
    rw [intervalIntegral.integral_const_mul, integral_cos_cos]
    by_cases hd : d = n
    · subst hd
      by_cases h0 : d = 0
      · subst h0
        simp [hw]
        ring
      · simp [hw, h0]
        ring
    · rw [if_neg hd, if_neg (by omega), if_neg hd, add_zero, mul_zero]
  rw [funext e] at h
  exact h.unique (hasSum_ite_eq n _)

/-- **C120** The frequency response determines the filter: two stable cascades with the same frequency response give the
same output for every input, from rest. -/
theorem C120_determines (l l' : List (Sos ℝ)) (hl : ∀ s ∈ l, s.a0 = 1 ∧ Stable s) (hl' : ∀ s ∈ l', s.a0 = 1 ∧ Stable s)
    (hr : AtRest l) (hr' : AtRest l') (h : ∀ ω : ℝ, freqResponse l ω = freqResponse l' ω) (x : List ℝ) :
    (sosfiltDyn x l).1 = (sosfiltDyn x l').1 := by
  have hi : ∀ n, impulseResponse l n = impulseResponse l' n := by
    intro n
    have a := C120_inverse l hl n
    rw [intervalIntegral.integral_congr (g := fun ω => freqResponse l' ω * Complex.exp (Complex.I * ω * n))
      (fun ω _ => by beta_reduce; rw [h]), C120_inverse l' hl' n] at a
    have hp : (2 * (Real.pi : ℂ)) ≠ 0 := mul_ne_zero two_ne_zero (by exact_mod_cast Real.pi_ne_zero)
    exact_mod_cast (mul_left_cancel₀ hp a).symm
  have hrest : ∀ l : List (Sos ℝ), AtRest l → rested l = l := by
    intro l hr
    rw [rested_eq]
    conv_rhs => rw [← List.map_id l]
    refine List.map_congr_left fun s hs => ?_
    obtain ⟨a, b⟩ := hr s hs
    cases s
    simp_all
  have el := (C24_length x l).1
  have el' := (C24_length x l').1
  refine List.ext_getElem (by rw [el, el']) fun i h1 h2 => ?_
  rw [← List.getD_eq_getElem _ 0 h1, ← List.getD_eq_getElem _ 0 h2, ← hrest l hr, ← hrest l' hr',
    rest_conv l x i (by omega), rest_conv l' x i (by omega)]
  exact Finset.sum_congr rfl fun j _ => by rw [hi]

/-- **C120** Zero-phase filtering depends on the magnitude response only, away from the ends: two stable cascades with
the same magnitude response give the same result up to an amount that decays geometrically with the distance to the ends.
`K` and `ρ` depend on the coefficients only. -/
theorem C120_magnitude (l l' : List (Sos ℝ)) (hl : ∀ s ∈ l, s.a0 = 1 ∧ Stable s) (hl' : ∀ s ∈ l', s.a0 = 1 ∧ Stable s)
    (h : ∀ ω : ℝ, ‖freqResponse l ω‖ = ‖freqResponse l' ω‖) :
    ∃ K ρ : ℝ, 0 < ρ ∧ ρ < 1 ∧ ∀ (D : ℝ) (y z z' : List ℝ), (∀ v ∈ y, |v| ≤ D) → sosfiltfiltDyn y l = .ok z →
      sosfiltfiltDyn y l' = .ok z' →
      ∀ i < y.length, |z.getD i 0 - z'.getD i 0| ≤ K * D * (ρ ^ i + ρ ^ (y.length - 1 - i)) := by
  obtain ⟨φ, K, ρ, h0, h1, hφ, -, H⟩ := C118_kernel l fun s hm => (hl s hm).2
  obtain ⟨φ', K', ρ', h0', h1', hφ', -, H'⟩ := C118_kernel l' fun s hm => (hl' s hm).2
  have e : φ = φ' := by
    funext n
    have a := C120_kernel_inverse l hl φ hφ n
    rw [intervalIntegral.integral_congr (g := fun ω => ‖freqResponse l' ω‖ ^ 2 * Real.cos (n * ω))
      (fun ω _ => by beta_reduce; rw [h]), C120_kernel_inverse l' hl' φ' hφ' n] at a
    exact (mul_left_cancel₀ (by positivity) a).symm
  subst e
  refine ⟨|K| + |K'|, max ρ ρ', lt_max_of_lt_left h0, max_lt h1 h1', fun D y z z' hy hz hz' i hi => ?_⟩
  have hD : 0 ≤ D := (abs_nonneg _).trans (hy y[0] (List.getElem_mem (by omega)))
  have a := H D y z hy hz i hi
  have b := H' D y z' hy hz' i hi
  rw [abs_sub_comm] at b
  have g : ∀ (k r : ℝ), 0 < r → r ≤ max ρ ρ' → k * D * (r ^ i + r ^ (y.length - 1 - i)) ≤
      |k| * D * (max ρ ρ' ^ i + max ρ ρ' ^ (y.length - 1 - i)) := by
    intro k r hr hm
    have p1 := pow_le_pow_left₀ hr.le hm i
    have p2 := pow_le_pow_left₀ hr.le hm (y.length - 1 - i)
    exact mul_le_mul (mul_le_mul_of_nonneg_right (le_abs_self k) hD) (add_le_add p1 p2) (by positivity)
      (mul_nonneg (abs_nonneg _) hD)
  have t := abs_sub_le (z.getD i 0) (symConv φ y i) (z'.getD i 0)
  have g1 := g K ρ h0 (le_max_left _ _)
  have g2 := g K' ρ' h0' (le_max_right _ _)
  linarith

/-- Different stable cascades with the same magnitude response: a zero at `2` against a zero at `1/2`. -/
example : (∀ ω : ℝ, ‖freqResponse [Sos.new 1 (-2) 0 1 (-1) (1 / 2)] ω‖ = ‖freqResponse [Sos.new (-2) 1 0 1 (-1) (1 / 2)] ω‖) ∧
    (∃ ω : ℝ, freqResponse [Sos.new 1 (-2) 0 1 (-1) (1 / 2)] ω ≠ freqResponse [Sos.new (-2) 1 0 1 (-1) (1 / 2)] ω) := by
  have hn : ∀ (b0 b1 ω : ℝ), freqResponse [Sos.new b0 b1 0 1 (-1) (1 / 2)] ω =
      Complex.exp (Complex.I * ω) * (b0 * Complex.exp (Complex.I * ω) + b1) /
        sosDen [Sos.new 1 (-2) 0 1 (-1) (1 / 2)] (Complex.exp (Complex.I * ω)) := by
    intro b0 b1 ω
    unfold freqResponse sosNum
    simp [Sos.new, coeffVal_three, sosDen]
    ring_nf
  refine ⟨fun ω => ?_, Real.pi, ?_⟩
  · rw [hn, hn, norm_div, norm_div, norm_mul, norm_mul]
    congr 2
    have e : Complex.exp (Complex.I * ω) = Real.cos ω + Real.sin ω * Complex.I := by
      rw [mul_comm, Complex.exp_mul_I]
      push_cast
      rfl
    have h := Real.sin_sq_add_cos_sq ω
    generalize Real.cos ω = C at *
    generalize Real.sin ω = S at *
    rw [e, ← sq_eq_sq₀ (norm_nonneg _) (norm_nonneg _), ← Complex.normSq_eq_norm_sq, ← Complex.normSq_eq_norm_sq,
      Complex.normSq_apply, Complex.normSq_apply]
    simp
    nlinarith
  · rw [hn, hn, mul_comm Complex.I, Complex.exp_pi_mul_I]
    simp [Sos.new, coeffVal_three, sosDen]
    norm_num

/-- These cascades are stable and at rest. -/
example (b0 b1 : ℝ) : AtRest [Sos.new b0 b1 0 1 (-1) (1 / 2 : ℝ)] ∧
    ∀ s ∈ [Sos.new b0 b1 0 1 (-1) (1 / 2 : ℝ)], s.a0 = 1 ∧ Stable s := by
  refine ⟨fun s hs => ?_, fun s hs => ?_⟩
  · simp [Sos.new] at hs
    subst hs
    exact ⟨rfl, rfl⟩
  simp [Sos.new] at hs
  subst hs
  refine ⟨rfl, fun z hz => ?_⟩
  have hre := congrArg Complex.re hz
  have him := congrArg Complex.im hz
  simp [pow_two, Complex.add_re, Complex.mul_re] at hre him
  have hsq : Complex.normSq z = 1 / 2 := by
    rw [Complex.normSq_apply]
    have hf : z.im * (2 * z.re - 1) = 0 := by linarith
    rcases mul_eq_zero.mp hf with h | h
    · rw [h] at hre; nlinarith [sq_nonneg (z.re - 1 / 2)]
    · have : z.re = 1 / 2 := by linarith
      rw [this] at hre ⊢; nlinarith
  rw [← sq_lt_one_iff₀ (norm_nonneg z), ← Complex.normSq_eq_norm_sq, hsq]
  norm_num

/-- **C120** end to end: the kernel of zero-phase filtering with a designed Butterworth low-pass or high-pass filter has
the Butterworth power as its spectrum. -/
theorem C120_butter (eps : ℝ) (s : Sorts) (heps : 0 ≤ eps) (hsort : s.Correct) (N : ℕ) (hN : N ≠ 0) (band : Band)
    (hb : band = .lowpass ∨ band = .highpass) (wn W : ℝ) (fs : Option ℝ) (hW : edges [wn] fs = [W]) (h0 : 0 < W)
    (h1 : W < 1)
    (htol : eps * 100 * |Real.cos (Real.pi * W)| < Real.sin (Real.pi * W) * Real.sin (Real.pi / (2 * N))) :
    ∃ l, butter eps s N [wn] (some band) none (some .sos) fs = .ok (.sos l) ∧
      ∃ φ : ℕ → ℝ, (∀ d, HasSum (fun k => impulseResponse l k * impulseResponse l (k + d)) (φ d)) ∧
        ∀ ω : ℝ, 0 < |ω| → |ω| < Real.pi →
          HasSum (fun d : ℕ => 2 * φ (d + 1) * Real.cos (ω * (d + 1 : ℕ))) (butterPower band N W ω - φ 0) := by
  obtain ⟨l, e, -, hl, hp⟩ := butter_sections_response eps s heps hsort N hN band hb wn W fs hW h0 h1 htol
  obtain ⟨φ, -, -, -, -, hφ, -, -⟩ := C118_kernel l fun s hm => (hl s hm).2
  refine ⟨l, e, φ, hφ, fun ω hω0 hω => ?_⟩
  rw [← hp ω hω0 hω]
  exact C120_kernel l hl φ hφ ω

end SciRs.Props

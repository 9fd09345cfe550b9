import Verif.Lemmas.TrigSum
import Verif.Props.RoundedFiltfilt
import Verif.Props.Spectrum
import Verif.Props.Rounded.StopEndToEnd

/-!
# C137: zero-phase filtering with a filter designed in floating point

How far the impulse response, the kernel of zero-phase filtering and the output of zero-phase filtering move when the
frequency response of a filter moves by at most `E`, as it does when the filter is designed in floating point.
-/

namespace SciRs.Props

open SciRs SciRs.Design SciRs.Spec SciRs.Rounded

variable {r : Rounding} {m : Libm} {h : ℝ}

/-- **C137**, the impulse response: if the frequency responses of two stable cascades differ by at most `E`, so do all
samples of their impulse responses. -/
theorem C137_impulse (l l' : List (Sos ℝ)) (hl : ∀ s ∈ l, s.a0 = 1 ∧ Stable s) (hl' : ∀ s ∈ l', s.a0 = 1 ∧ Stable s)
    (E : ℝ) (hE : ∀ ω : ℝ, ‖freqResponse l ω - freqResponse l' ω‖ ≤ E) (n : ℕ) :
    |impulseResponse l n - impulseResponse l' n| ≤ E := by
  have hpi := Real.pi_pos
  have c := continuous_freqResponse l hl
  have c' := continuous_freqResponse l' hl'
  have e1 : (2 * Real.pi * (impulseResponse l n - impulseResponse l' n : ℂ)) =
      ∫ ω in (-Real.pi)..Real.pi, (freqResponse l ω - freqResponse l' ω) * Complex.exp (Complex.I * ω * n) := by
    rw [mul_sub, ← C120_inverse l hl n, ← C120_inverse l' hl' n, ← intervalIntegral.integral_sub
      (Continuous.intervalIntegrable (by fun_prop) _ _) (Continuous.intervalIntegrable (by fun_prop) _ _)]
    exact intervalIntegral.integral_congr fun ω _ => by ring
  have b : ‖∫ ω in (-Real.pi)..Real.pi, (freqResponse l ω - freqResponse l' ω) * Complex.exp (Complex.I * ω * n)‖ ≤
      E * |Real.pi - -Real.pi| := by
    refine intervalIntegral.norm_integral_le_of_norm_le_const fun ω _ => ?_
    have : ‖Complex.exp (Complex.I * ω * n)‖ = 1 := by
      rw [show Complex.I * ω * n = ((ω * n : ℝ) : ℂ) * Complex.I by push_cast; ring]
      exact Complex.norm_exp_ofReal_mul_I _
    rw [norm_mul, this, mul_one]
    exact hE ω
  rw [← e1, norm_mul, norm_mul, Complex.norm_two, Complex.norm_real, Real.norm_eq_abs, abs_of_pos hpi,
    ← Complex.ofReal_sub, Complex.norm_real, Real.norm_eq_abs, sub_neg_eq_add, abs_of_pos (by linarith : 0 < Real.pi + Real.pi)] at b
  refine le_of_mul_le_mul_left (b.trans (le_of_eq ?_)) (by positivity : 0 < 2 * Real.pi)
  ring

/-- The squared magnitudes of the responses. -/
theorem sq_response_close {a b : ℂ} {E : ℝ} (h : ‖a - b‖ ≤ E) (hb : ‖b‖ ≤ 1) :
    |‖a‖ ^ 2 - ‖b‖ ^ 2| ≤ E * (2 + E) := by
  have i1 := (abs_norm_sub_norm_le a b).trans h
  have hE : 0 ≤ E := (abs_nonneg _).trans i1
  have i2 : ‖a‖ + ‖b‖ ≤ 2 + E := by linarith [(abs_le.mp i1).2]
  rw [sq_sub_sq, abs_mul, abs_of_nonneg (by positivity : 0 ≤ ‖a‖ + ‖b‖), mul_comm E]
  exact mul_le_mul i2 i1 (abs_nonneg _) (by linarith)

/-- **C137**, the kernel of zero-phase filtering: if the frequency responses of two stable cascades differ by at most
`E` and the second is at most 1, their kernels differ by at most `E (2 + E)` at every lag, and every sample of the
convolution of a signal with them by at most `E (2 + E) √(energy of the signal)`, however long the signal is. -/
theorem C137_kernel (l l' : List (Sos ℝ)) (hl : ∀ s ∈ l, s.a0 = 1 ∧ Stable s) (hl' : ∀ s ∈ l', s.a0 = 1 ∧ Stable s)
    (E : ℝ) (hE : ∀ ω : ℝ, ‖freqResponse l ω - freqResponse l' ω‖ ≤ E) (h1 : ∀ ω : ℝ, ‖freqResponse l' ω‖ ≤ 1)
    (φ φ' : ℕ → ℝ) (hφ : ∀ d, HasSum (fun k => impulseResponse l k * impulseResponse l (k + d)) (φ d))
    (hφ' : ∀ d, HasSum (fun k => impulseResponse l' k * impulseResponse l' (k + d)) (φ' d)) :
    (∀ d, |φ d - φ' d| ≤ E * (2 + E)) ∧
    ∀ (y : List ℝ) (i : ℕ), |symConv φ y i - symConv φ' y i| ≤ E * (2 + E) * √(energy y) := by
  have hpi := Real.pi_pos
  have c := continuous_freqResponse l hl
  have c' := continuous_freqResponse l' hl'
  obtain ⟨G, hG⟩ : ∃ G : ℝ → ℝ, G = fun ω => ‖freqResponse l ω‖ ^ 2 - ‖freqResponse l' ω‖ ^ 2 := ⟨_, rfl⟩
  have cG : Continuous G := by rw [hG]; fun_prop
  have bG : ∀ ω, |G ω| ≤ E * (2 + E) := fun ω => by rw [hG]; exact sq_response_close (hE ω) (h1 ω)
  have eφ : ∀ d, 2 * Real.pi * (φ d - φ' d) = ∫ ω in (-Real.pi)..Real.pi, G ω * Real.cos (d * ω) := by
    intro d
    rw [mul_sub, ← C120_kernel_inverse l hl φ hφ d, ← C120_kernel_inverse l' hl' φ' hφ' d,
      ← intervalIntegral.integral_sub (Continuous.intervalIntegrable (by fun_prop) _ _)
        (Continuous.intervalIntegrable (by fun_prop) _ _)]
    exact intervalIntegral.integral_congr fun ω _ => by rw [hG]; beta_reduce; ring
  have conv : ∀ (y : List ℝ) (i : ℕ), |symConv φ y i - symConv φ' y i| ≤ E * (2 + E) * √(energy y) := by
    intro y i
    have T := trig_sum_le cG bG (fun j => y.getD j 0) y.length i
    have e : ∑ j ∈ Finset.range y.length,
        (∫ ω in (-Real.pi)..Real.pi, G ω * Real.cos (((i : ℤ) - j : ℤ) * ω)) * y.getD j 0 =
        2 * Real.pi * (symConv φ y i - symConv φ' y i) := by
      unfold symConv
      rw [← Finset.sum_sub_distrib, Finset.mul_sum]
      refine Finset.sum_congr rfl fun j _ => ?_
      rw [← sub_mul, ← mul_assoc, eφ]
      congr 1
      refine intervalIntegral.integral_congr fun ω _ => ?_
      congr 1
      rcases le_total j i with h | h
      · congr 2
        rw [show gap i j = i - j by unfold gap; omega]
        push_cast [h]
        ring
      · rw [show gap i j = j - i by unfold gap; omega, ← Real.cos_neg]
        congr 1
        push_cast [h]
        ring
    rw [e, abs_mul, abs_of_pos (by positivity : 0 < 2 * Real.pi), ← energy_eq] at T
    exact le_of_mul_le_mul_left T (by positivity)
  refine ⟨fun d => ?_, conv⟩
  have := conv [1] d
  simpa [symConv, gap, energy] using this

/-- **C137**, zero-phase filtering: under the same conditions, filtering a signal forwards and backwards with the two
cascades gives outputs that differ by at most `E (2 + E) √(energy of the signal)`, however long the signal is, and an
amount that decays geometrically with the distance to the ends.  `K` and `ρ` depend on the filters only. -/
theorem C137_filtfilt (l l' : List (Sos ℝ)) (hl : ∀ s ∈ l, s.a0 = 1 ∧ Stable s) (hl' : ∀ s ∈ l', s.a0 = 1 ∧ Stable s)
    (E : ℝ) (hE : ∀ ω : ℝ, ‖freqResponse l ω - freqResponse l' ω‖ ≤ E) (h1 : ∀ ω : ℝ, ‖freqResponse l' ω‖ ≤ 1) :
    ∃ K ρ : ℝ, 0 < ρ ∧ ρ < 1 ∧ ∀ (D : ℝ) (y z z' : List ℝ), (∀ v ∈ y, |v| ≤ D) → sosfiltfiltDyn y l = .ok z →
      sosfiltfiltDyn y l' = .ok z' → ∀ i < y.length, |z.getD i 0 - z'.getD i 0| ≤
        E * (2 + E) * √(energy y) + K * D * (ρ ^ i + ρ ^ (y.length - 1 - i)) := by
  obtain ⟨φ, K, ρ, p0, p1, hφ, -, H⟩ := C118_kernel l fun s hs => (hl s hs).2
  obtain ⟨φ', K', ρ', p0', p1', hφ', -, H'⟩ := C118_kernel l' fun s hs => (hl' s hs).2
  refine ⟨|K| + |K'|, max ρ ρ', lt_max_of_lt_left p0, max_lt p1 p1', fun D y z z' hy hz hz' i hi => ?_⟩
  have hD : 0 ≤ D := (abs_nonneg _).trans (hy y[i] (List.getElem_mem hi))
  have a := H D y z hy hz i hi
  have b := H' D y z' hy hz' i hi
  have c := (C137_kernel l l' hl hl' E hE h1 φ φ' hφ hφ').2 y i
  have up : ∀ (K σ : ℝ), 0 < σ → σ ≤ max ρ ρ' → K * D * (σ ^ i + σ ^ (y.length - 1 - i)) ≤
      |K| * D * (max ρ ρ' ^ i + max ρ ρ' ^ (y.length - 1 - i)) := fun K σ h0 hle =>
    mul_le_mul (mul_le_mul_of_nonneg_right (le_abs_self K) hD)
      (add_le_add (pow_le_pow_left₀ h0.le hle _) (pow_le_pow_left₀ h0.le hle _)) (by positivity) (by positivity)
  have a' := a.trans (up K ρ p0 (le_max_left _ _))
  have b' := b.trans (up K' ρ' p0' (le_max_right _ _))
  rw [abs_sub_comm] at b'
  have t1 := abs_sub_le (z.getD i 0) (symConv φ y i) (z'.getD i 0)
  have t2 := abs_sub_le (symConv φ y i) (symConv φ' y i) (z'.getD i 0)
  have e : (|K| + |K'|) * D * (max ρ ρ' ^ i + max ρ ρ' ^ (y.length - 1 - i)) =
    |K| * D * (max ρ ρ' ^ i + max ρ ρ' ^ (y.length - 1 - i)) +
      |K'| * D * (max ρ ρ' ^ i + max ρ ρ' ^ (y.length - 1 - i)) := by ring
  rw [e]
  linarith

/-- **C137**, zero-phase filtering in floating point: run the first cascade in a format that is fine enough for it, and
compare with the second cascade in exact arithmetic.  The rounding of the filtering adds `K (u D + t)`. -/
theorem C137_computed (l l' : List (Sos ℝ)) (hl : ∀ s ∈ l, s.a0 = 1 ∧ Stable s) (hl' : ∀ s ∈ l', s.a0 = 1 ∧ Stable s)
    (E : ℝ) (hE : ∀ ω : ℝ, ‖freqResponse l ω - freqResponse l' ω‖ ≤ E) (h1 : ∀ ω : ℝ, ‖freqResponse l' ω‖ ≤ 1) :
    ∃ K ρ u0 : ℝ, 0 < ρ ∧ ρ < 1 ∧ 0 < u0 ∧ ∀ r : Rounding, r.u ≤ u0 → r.t ≤ r.u → ∀ (D : ℝ) (y : List ℝ),
      (∀ v ∈ y, |v| ≤ D) → 3 * sosNtaps l < y.length → 3 * sosNtaps l' < y.length →
      ∃ z z', sosfiltfiltDyn (y.map (Fl.mk (r := r))) (l.map (flSection r)) = .ok z ∧ sosfiltfiltDyn y l' = .ok z' ∧
        ∀ i < y.length, |(z.getD i 0).val - z'.getD i 0| ≤ E * (2 + E) * √(energy y) +
          K * (D * (ρ ^ i + ρ ^ (y.length - 1 - i)) + r.u * D + r.t) := by
  have sum : ∀ c : Sos ℝ, c.a0 = 1 ∧ Stable c → c.a0 + c.a1 + c.a2 ≠ 0 := by
    rintro c ⟨h0, h2⟩
    intro h
    rw [h0] at h
    have := h2 1 (by
      rw [one_pow, mul_one]
      exact_mod_cast h)
    simp at this
  obtain ⟨K1, ρ, p0, p1, H1⟩ := C137_filtfilt l l' hl hl' E hE h1
  obtain ⟨K2, u2, hu2, H2⟩ := C94_filtfilt l (fun s hs => (hl s hs).2) fun s hs => sum s (hl s hs)
  obtain ⟨K3, u3, hu3, H3⟩ := C94_filtfilt l' (fun s hs => (hl' s hs).2) fun s hs => sum s (hl' s hs)
  refine ⟨|K1| + |K2|, ρ, min u2 u3, p0, p1, lt_min hu2 hu3, fun r hu ht D y hy hn hn' => ?_⟩
  obtain ⟨w, z, hw, hz, -, -, e⟩ := H2 r (hu.trans (min_le_left _ _)) ht D y hy hn
  obtain ⟨z', -, hz', -⟩ := H3 r (hu.trans (min_le_right _ _)) ht D y hy hn'
  refine ⟨z, z', hz, hz', fun i hi => ?_⟩
  have hD : 0 ≤ D := (abs_nonneg _).trans (hy y[i] (List.getElem_mem hi))
  have hu0 := r.u_nonneg
  have ht0 := r.t_nonneg
  have a := H1 D y w z' hy hw hz' i hi
  have b := e i
  have t1 := abs_sub_le (z.getD i 0).val (w.getD i 0) (z'.getD i 0)
  obtain ⟨P, hP⟩ : ∃ P, P = D * (ρ ^ i + ρ ^ (y.length - 1 - i)) := ⟨_, rfl⟩
  obtain ⟨Q, hQ⟩ : ∃ Q, Q = r.u * D + r.t := ⟨_, rfl⟩
  have hP0 : 0 ≤ P := by rw [hP]; positivity
  have hQ0 : 0 ≤ Q := by rw [hQ]; positivity
  rw [mul_assoc K1, ← hP] at a
  rw [← hQ] at b
  rw [add_assoc _ (r.u * D), ← hP, ← hQ]
  have i1 := mul_le_mul_of_nonneg_right (le_abs_self K1) hP0
  have i2 := mul_le_mul_of_nonneg_right (le_abs_self K2) hQ0
  have i3 := mul_nonneg (abs_nonneg K2) hP0
  have i4 := mul_nonneg (abs_nonneg K1) hQ0
  rw [add_mul, mul_add, mul_add]
  linarith

/-- **C137** for Butterworth band-pass and band-stop filters designed in floating point, against the filter designed
without rounding; `E` is the error of the response from C123 and C127. -/
theorem C137_butter (hr : r.Nearest) (hm : m.Accurate r h) (hp : m.AccuratePolar r h) {s : Sorts} (hs : s.Correct)
    (n : ℕ) (e0 e1 κ : ℝ) (R : BandRequest n e0 e1 κ h) (hκn : κ ≤ 1 / n)
    (S : Small r h (κ ^ 2 * e0 ^ 2 / 2)) (S2 : Small r h (((1 - e1) ^ 2 * (e1 - e0) / 20) ^ n)) (a b : ℝ)
    (ha : r.rnd a = a) (hb : r.rnd b = b) (band : Band) (hband : band = .bandpass ∨ band = .bandstop)
    (fs : Option ℝ) (he : Spec.edges [a, b] fs = [e0, e1]) (Δ : ℝ)
    (hΔ : Δ = κ * e0 * (1 - e1) * (e1 - e0)) (hh : 4000 * (n * h) ≤ (κ * (1 - e1) * Δ) ^ 2) (E : ℝ)
    (hE : E = 1600 * (n * h / (κ * (1 - e1) ^ 2 * Δ)) + 9 * (n * h / Δ ^ 2)) :
    ∃ l l0 : List (Sos ℝ),
      Rounded.butter (.ofRounding r m) s n [a, b] (some band) none (some .sos) fs = .ok (.sos l) ∧
      Design.butter 0 s n [a, b] (some band) none (some .sos) fs = .ok (.sos l0) ∧
      (∀ k, |impulseResponse l k - impulseResponse l0 k| ≤ E) ∧
      (∃ K ρ : ℝ, 0 < ρ ∧ ρ < 1 ∧ ∀ (D : ℝ) (y z z' : List ℝ), (∀ v ∈ y, |v| ≤ D) → sosfiltfiltDyn y l = .ok z →
        sosfiltfiltDyn y l0 = .ok z' → ∀ i < y.length, |z.getD i 0 - z'.getD i 0| ≤
          E * (2 + E) * √(energy y) + K * D * (ρ ^ i + ρ ^ (y.length - 1 - i))) ∧
      ∃ K ρ u0 : ℝ, 0 < ρ ∧ ρ < 1 ∧ 0 < u0 ∧ ∀ r' : Rounding, r'.u ≤ u0 → r'.t ≤ r'.u → ∀ (D : ℝ) (y : List ℝ),
        (∀ v ∈ y, |v| ≤ D) → 3 * sosNtaps l < y.length → 3 * sosNtaps l0 < y.length →
        ∃ z z', sosfiltfiltDyn (y.map (Fl.mk (r := r'))) (l.map (flSection r')) = .ok z ∧
          sosfiltfiltDyn y l0 = .ok z' ∧
          ∀ i < y.length, |(z.getD i 0).val - z'.getD i 0| ≤ E * (2 + E) * √(energy y) +
            K * (D * (ρ ^ i + ρ ^ (y.length - 1 - i)) + r'.u * D + r'.t) := by
  have hW : ∀ w ∈ [a, b], r.rnd w = w := by
    intro w hw
    rcases List.mem_cons.mp hw with rfl | hw
    · exact ha
    · rw [List.mem_singleton.mp hw]; exact hb
  have hh0 := S.h_nonneg
  have hpos := R.pos
  have hκ := R.kappa
  have h1e : 0 < 1 - e1 := by linarith [R.one]
  have hd : 0 < e1 - e0 := by linarith [R.lt]
  have hΔ0 : 0 < Δ := by rw [hΔ]; positivity
  have hv : ValidRequest [a, b] none none band .butterworth false fs :=
    valid_pair hband he R.pos R.lt R.one (by simp) (by simp) (.inl rfl)
  obtain ⟨l0, hl0⟩ := band_exact_sections (n := n) hs hband he R.pos R.lt R.one
  obtain ⟨a1, a2, a3, d, hd', a4⟩ := design_sections 0 s le_rfl hs n R.order [a, b] none none (some band)
    (some .butterworth) (some false) (.inr rfl) fs hv ⟨by simp, by simp⟩ (by simp) l0 hl0
  have a5 := bound_everywhere (continuous_freqResponse l0 a1) _ a4 a3
  have key : ∃ l : List (Sos ℝ),
      Rounded.butter (.ofRounding r m) s n [a, b] (some band) none (some .sos) fs = .ok (.sos l) ∧
      (∀ x ∈ l, Stable x) ∧ ∀ ω : ℝ, ‖freqResponse l ω - freqResponse l0 ω‖ ≤ E := by
    have same : ∀ g : Zpk, Design.butter 0 s n [a, b] (some band) none (some .zpk) fs = .ok (.zpk g) → d = g := by
      intro g hg
      have : iirfilter 0 s n [a, b] none none (some band) (some .butterworth) (some false) (some .zpk) fs =
        .ok (.zpk g) := hg
      rw [this] at hd'
      simpa using hd'.symm
    rcases hband with rfl | rfl
    · obtain ⟨l, g, hl, hg, -, hst, H⟩ := C123_sections_response hr hm hp 0 hs n e0 e1 κ R hκn S S2 [a, b] hW fs he
        Δ hΔ hh
      obtain rfl := same g hg
      refine ⟨l, hl, hst, fun ω => ?_⟩
      have h5 := a5 ω
      rw [a4] at h5 ⊢
      refine (H ω).trans ((mul_le_of_le_one_right (by positivity) h5).trans ?_)
      have i1 : 0 ≤ n * h / (κ * (1 - e1) ^ 2 * Δ) := by positivity
      have i2 : 0 ≤ n * h / Δ ^ 2 := by positivity
      rw [hE]
      linarith
    · obtain ⟨l, g, hl, hg, -, hst, H⟩ := C127_sections_response hr hm hp 0 hs n e0 e1 κ R hκn S S2 a b hW fs he
        Δ hΔ hh
      obtain rfl := same g hg
      refine ⟨l, hl, hst, fun ω => ?_⟩
      rw [a4, hE]
      exact H ω
  obtain ⟨l, hl, hst, H⟩ := key
  obtain ⟨c1, c2⟩ := band_sections_rest hr hs R.order hl
  have hls : ∀ c ∈ l, c.a0 = 1 ∧ Stable c := fun c hc => ⟨c1 c hc, hst c hc⟩
  exact ⟨l, l0, hl, hl0, C137_impulse l l0 hls a1 E H, C137_filtfilt l l0 hls a1 E H a5,
    C137_computed l l0 hls a1 E H a5⟩

/-- **C137** for Chebyshev I band-pass and band-stop filters designed in floating point, against the filter designed
without rounding; `E` is the error of the response from C133 and C135. -/
theorem C137_cheby1 (hr : r.Nearest) (hm : m.Accurate r h) (hm2 : m.AccurateHyp r h) (hp : m.AccuratePolar r h)
    {s : Sorts} (hs : s.Correct) (n : ℕ) (rp e0 e1 κ Λ : ℝ) (band : Band)
    (hband : band = .bandpass ∨ band = .bandstop) (R : ChebBandRequest n rp e0 e1 κ Λ h (isStop band))
    (S : Small r h (chebBandFloor n rp e0 κ Λ))
    (S2 : Small r h ((rippleFloor rp ^ 2 * (1 - e1) ^ 2 * (e1 - e0) / (20 * n ^ 2 * Λ)) ^ n)) (X : ℝ)
    (hX : X = κ * (e0 * (1 - e1) * (e1 - e0)) / Λ ^ 3) (hh : 4000 * (n * h) ≤ X ^ 2)
    (hh2 : 40000 * (n ^ 2 * rippleCond rp ^ 2 * Λ ^ 2 * h) ≤ κ * (1 - e1) ^ 2 * X) (a b : ℝ)
    (ha : r.rnd a = a) (hb : r.rnd b = b) (fs : Option ℝ) (he : Spec.edges [a, b] fs = [e0, e1]) (E : ℝ)
    (hE : E = 4080 * (n ^ 2 * rippleCond rp ^ 2 * Λ ^ 2 * h / (κ * (1 - e1) ^ 2 * X)) + 8 * (n * h / X ^ 2)) :
    ∃ l l0 : List (Sos ℝ),
      Rounded.cheby1 (.ofRounding r m) s n rp [a, b] (some band) (some false) (some .sos) fs = .ok (.sos l) ∧
      Design.cheby1 0 s n rp [a, b] (some band) (some false) (some .sos) fs = .ok (.sos l0) ∧
      (∀ k, |impulseResponse l k - impulseResponse l0 k| ≤ E) ∧
      (∃ K ρ : ℝ, 0 < ρ ∧ ρ < 1 ∧ ∀ (D : ℝ) (y z z' : List ℝ), (∀ v ∈ y, |v| ≤ D) → sosfiltfiltDyn y l = .ok z →
        sosfiltfiltDyn y l0 = .ok z' → ∀ i < y.length, |z.getD i 0 - z'.getD i 0| ≤
          E * (2 + E) * √(energy y) + K * D * (ρ ^ i + ρ ^ (y.length - 1 - i))) ∧
      ∃ K ρ u0 : ℝ, 0 < ρ ∧ ρ < 1 ∧ 0 < u0 ∧ ∀ r' : Rounding, r'.u ≤ u0 → r'.t ≤ r'.u → ∀ (D : ℝ) (y : List ℝ),
        (∀ v ∈ y, |v| ≤ D) → 3 * sosNtaps l < y.length → 3 * sosNtaps l0 < y.length →
        ∃ z z', sosfiltfiltDyn (y.map (Fl.mk (r := r'))) (l.map (flSection r')) = .ok z ∧
          sosfiltfiltDyn y l0 = .ok z' ∧
          ∀ i < y.length, |(z.getD i 0).val - z'.getD i 0| ≤ E * (2 + E) * √(energy y) +
            K * (D * (ρ ^ i + ρ ^ (y.length - 1 - i)) + r'.u * D + r'.t) := by
  have hW : ∀ w ∈ [a, b], r.rnd w = w := by
    intro w hw
    rcases List.mem_cons.mp hw with rfl | hw
    · exact ha
    · rw [List.mem_singleton.mp hw]; exact hb
  have hh0 := S.h_nonneg
  have hn1 : (1 : ℝ) ≤ n := by exact_mod_cast Nat.one_le_iff_ne_zero.mpr R.order
  have hκ := R.kappa
  have h1e : 0 < 1 - e1 := by linarith [R.one]
  have hX0 : 0 < X := by
    have := R.pos
    have := R.lt
    have : 0 < Λ := by linarith [(Real.one_le_cosh _).trans R.size]
    have : 0 < e1 - e0 := by linarith
    rw [hX]
    positivity
  have hv : ValidRequest [a, b] (some rp) none band .chebyshevI false fs :=
    valid_pair hband he R.pos R.lt R.one (by rintro x ⟨⟩; exact R.ripple.le) (by simp) (.inr (.inl ⟨rfl, rfl⟩))
  obtain ⟨l0, hl0⟩ := cheb_band_exact_sections (n := n) hs R.ripple hband he R.pos R.lt R.one
  obtain ⟨a1, a2, a3, d, hd', a4⟩ := design_sections 0 s le_rfl hs n R.order [a, b] (some rp) none (some band)
    (some .chebyshevI) (some false) (.inr rfl) fs hv ⟨by rintro - x ⟨⟩; exact R.ripple, by simp⟩ (by simp) l0 hl0
  have a5 := bound_everywhere (continuous_freqResponse l0 a1) _ a4 a3
  have key : ∃ l : List (Sos ℝ),
      Rounded.cheby1 (.ofRounding r m) s n rp [a, b] (some band) (some false) (some .sos) fs = .ok (.sos l) ∧
      (∀ x ∈ l, Stable x) ∧ ∀ ω : ℝ, ‖freqResponse l ω - freqResponse l0 ω‖ ≤ E := by
    have same : ∀ g : Zpk, Design.cheby1 0 s n rp [a, b] (some band) (some false) (some .zpk) fs = .ok (.zpk g) →
        d = g := by
      intro g hg
      have : iirfilter 0 s n [a, b] (some rp) none (some band) (some .chebyshevI) (some false) (some .zpk) fs =
        .ok (.zpk g) := hg
      rw [this] at hd'
      simpa using hd'.symm
    rcases hband with rfl | rfl
    · obtain ⟨l, g, hl, hg, -, hst, H⟩ := C133_sections_response hr hm hm2 hp 0 hs n rp e0 e1 κ Λ R S S2 X hX hh hh2
        [a, b] hW fs he
      obtain rfl := same g hg
      refine ⟨l, hl, hst, fun ω => ?_⟩
      have h5 := a5 ω
      rw [a4] at h5 ⊢
      refine (H ω).trans ((mul_le_of_le_one_right (by positivity) h5).trans ?_)
      have i1 : 0 ≤ n ^ 2 * rippleCond rp ^ 2 * Λ ^ 2 * h / (κ * (1 - e1) ^ 2 * X) := by positivity
      rw [hE]
      linarith
    · obtain ⟨l, g, hl, hg, -, hst, H⟩ := C135_sections_response hr hm hm2 hp 0 hs n rp e0 e1 κ Λ R S S2 X hX hh hh2
        a b hW fs he
      obtain rfl := same g hg
      refine ⟨l, hl, hst, fun ω => ?_⟩
      rw [a4, hE]
      exact H ω
  obtain ⟨l, hl, hst, H⟩ := key
  obtain ⟨c1, c2⟩ := cheb_sections_rest hr hs R.order hl
  have hls : ∀ c ∈ l, c.a0 = 1 ∧ Stable c := fun c hc => ⟨c1 c hc, hst c hc⟩
  exact ⟨l, l0, hl, hl0, C137_impulse l l0 hls a1 E H, C137_filtfilt l l0 hls a1 E H a5,
    C137_computed l l0 hls a1 E H a5⟩

/-- **C137**, an instance: the second-order Butterworth band-pass or band-stop filter for the band from 125 Hz to 250 Hz
of signals sampled at 1000 Hz, designed in binary64. -/
theorem C137_example {s : Sorts} (hs : s.Correct) (band : Band) (hband : band = .bandpass ∨ band = .bandstop) :
    ∃ l l0 : List (Sos ℝ),
      Rounded.butter (.ofRounding binary64 libm64) s 2 [125, 250] (some band) none (some .sos) (some 1000)
        = .ok (.sos l) ∧
      Design.butter 0 s 2 [125, 250] (some band) none (some .sos) (some 1000) = .ok (.sos l0) ∧
      (∀ k, |impulseResponse l k - impulseResponse l0 k| ≤ 2 / 10 ^ 9) ∧
      (∃ K ρ : ℝ, 0 < ρ ∧ ρ < 1 ∧ ∀ (D : ℝ) (y z z' : List ℝ), (∀ v ∈ y, |v| ≤ D) → sosfiltfiltDyn y l = .ok z →
        sosfiltfiltDyn y l0 = .ok z' → ∀ i < y.length, |z.getD i 0 - z'.getD i 0| ≤
          5 / 10 ^ 9 * √(energy y) + K * D * (ρ ^ i + ρ ^ (y.length - 1 - i))) ∧
      ∃ K ρ u0 : ℝ, 0 < ρ ∧ ρ < 1 ∧ 0 < u0 ∧ ∀ r' : Rounding, r'.u ≤ u0 → r'.t ≤ r'.u → ∀ (D : ℝ) (y : List ℝ),
        (∀ v ∈ y, |v| ≤ D) → 3 * sosNtaps l < y.length → 3 * sosNtaps l0 < y.length →
        ∃ z z', sosfiltfiltDyn (y.map (Fl.mk (r := r'))) (l.map (flSection r')) = .ok z ∧
          sosfiltfiltDyn y l0 = .ok z' ∧
          ∀ i < y.length, |(z.getD i 0).val - z'.getD i 0| ≤ 5 / 10 ^ 9 * √(energy y) +
            K * (D * (ρ ^ i + ρ ^ (y.length - 1 - i)) + r'.u * D + r'.t) := by
  have hint : ∀ k : ℤ, |k| ≤ 1000 → binary64.rnd k = k := by
    intro k hk
    refine Binary.rnd_int 53 (-1074) (by norm_num) k (hk.trans_lt (by norm_num))
  have hσ : (2 : ℝ) ^ (-1000 : ℤ) ≤ (((1 - 1 / 2 : ℝ)) ^ 2 * (1 / 2 - 1 / 4) / 20) ^ 2 := by
    have h5 : (2 : ℝ) ^ (-1000 : ℤ) ≤ 2 ^ (-100 : ℤ) := zpow_le_zpow_right₀ (by norm_num) (by norm_num)
    refine h5.trans ?_
    rw [zpow_neg]
    norm_num
  have R : BandRequest 2 (1 / 4) (1 / 2) (1 / 2) (1 / 2 ^ 50) :=
    ⟨by norm_num, by norm_num, by norm_num, by norm_num, by norm_num, by norm_num, by norm_num, by norm_num⟩
  obtain ⟨l, l0, hl, hl0, hi, ⟨K, ρ, p0, p1, H⟩, K', ρ', u0, q0, q1, hu0, H'⟩ := C137_butter binary64_nearest libm64_accurate libm64_polar hs 2 (1 / 4)
    (1 / 2) (1 / 2) R (by norm_num) (binary64_small_40 (by norm_num)) (binary64_small_pow hσ) 125 250
    (by exact_mod_cast hint 125 (by norm_num)) (by exact_mod_cast hint 250 (by norm_num)) band hband (some 1000)
    (by simp [Spec.edges]; norm_num) (1 / 64) (by norm_num) (by norm_num) _ rfl
  refine ⟨l, l0, hl, hl0, fun k => (hi k).trans (by norm_num), ⟨K, ρ, p0, p1, fun D y z z' hy hz hz' i hi => ?_⟩,
    K', ρ', u0, q0, q1, hu0, fun r' hu ht D y hy hn hn' => ?_⟩
  · refine (H D y z z' hy hz hz' i hi).trans (add_le_add (mul_le_mul_of_nonneg_right ?_ (Real.sqrt_nonneg _)) le_rfl)
    norm_num
  · obtain ⟨z, z', hz, hz', e⟩ := H' r' hu ht D y hy hn hn'
    refine ⟨z, z', hz, hz', fun i hi => (e i hi).trans
      (add_le_add (mul_le_mul_of_nonneg_right ?_ (Real.sqrt_nonneg _)) le_rfl)⟩
    norm_num

/-- **C137** for Butterworth low-pass and high-pass filters designed in floating point, against the filter designed
without rounding; `E` is the error of the response from C91. -/
theorem C137_butter_edge (hr : r.Nearest) (hm : m.Accurate r h) {s : Sorts} (hs : s.Correct) (n : ℕ) (hn : n ≠ 0)
    (w : ℝ) (hw : r.rnd w = w) (band : Band) (hband : band = .lowpass ∨ band = .highpass) (fs : Option ℝ) (e : ℝ)
    (he : Spec.edges [w] fs = [e]) (h0 : 0 < e) (h1 : e < 1) (S : Small r h ((e * (1 - e) / 20) ^ n))
    (hh : 3000 * (n ^ 3 * h) ≤ (e * (1 - e)) ^ 2) (E : ℝ) (hE : E = 250 * (n ^ 3 * h / (e * (1 - e)) ^ 2)) :
    ∃ l l0 : List (Sos ℝ),
      Rounded.butter (.ofRounding r m) s n [w] (some band) none (some .sos) fs = .ok (.sos l) ∧
      Design.butter 0 s n [w] (some band) none (some .sos) fs = .ok (.sos l0) ∧
      (∀ k, |impulseResponse l k - impulseResponse l0 k| ≤ E) ∧
      (∃ K ρ : ℝ, 0 < ρ ∧ ρ < 1 ∧ ∀ (D : ℝ) (y z z' : List ℝ), (∀ v ∈ y, |v| ≤ D) → sosfiltfiltDyn y l = .ok z →
        sosfiltfiltDyn y l0 = .ok z' → ∀ i < y.length, |z.getD i 0 - z'.getD i 0| ≤
          E * (2 + E) * √(energy y) + K * D * (ρ ^ i + ρ ^ (y.length - 1 - i))) ∧
      ∃ K ρ u0 : ℝ, 0 < ρ ∧ ρ < 1 ∧ 0 < u0 ∧ ∀ r' : Rounding, r'.u ≤ u0 → r'.t ≤ r'.u → ∀ (D : ℝ) (y : List ℝ),
        (∀ v ∈ y, |v| ≤ D) → 3 * sosNtaps l < y.length → 3 * sosNtaps l0 < y.length →
        ∃ z z', sosfiltfiltDyn (y.map (Fl.mk (r := r'))) (l.map (flSection r')) = .ok z ∧
          sosfiltfiltDyn y l0 = .ok z' ∧
          ∀ i < y.length, |(z.getD i 0).val - z'.getD i 0| ≤ E * (2 + E) * √(energy y) +
            K * (D * (ρ ^ i + ρ ^ (y.length - 1 - i)) + r'.u * D + r'.t) := by
  have hh0 := S.h_nonneg
  have hv : ValidRequest [w] none none band .butterworth false fs :=
    valid_single hband he h0 h1 (by simp) (by simp) (.inl rfl)
  obtain ⟨l, g, hl, hg, hst, H⟩ := C91_sections_response hr hm 0 hs n hn [w] (by simpa using hw) band hband fs e he
    h0 h1 S hh
  obtain ⟨d0, -, hR, -⟩ := C84_returns_iff 0 s le_rfl hs n [w] none none (some band) (some .butterworth)
    (some false) (.inr rfl) fs hv ⟨by simp, by simp⟩ (by simp)
  have sep : ∀ L : List ℂ, Spec.Separated (0 * 100) L := by
    intro L x _
    rw [zero_mul, zero_mul]
    exact (eq_or_ne x.im 0).imp id abs_pos.mpr
  obtain ⟨l0, hl0⟩ := C84_format 0 s n [w] none none (some band) (some .butterworth) (some false) fs
    (hR.mpr ⟨sep _, sep _⟩)
  obtain ⟨a1, a2, a3, d, hd', a4⟩ := design_sections 0 s le_rfl hs n hn [w] none none (some band)
    (some .butterworth) (some false) (.inr rfl) fs hv ⟨by simp, by simp⟩ (by simp) l0 hl0
  have a5 := bound_everywhere (continuous_freqResponse l0 a1) _ a4 a3
  obtain rfl : d = g := by
    have : iirfilter 0 s n [w] none none (some band) (some .butterworth) (some false) (some .zpk) fs =
      .ok (.zpk g) := hg
    rw [this] at hd'
    simpa using hd'.symm
  have H' : ∀ ω : ℝ, ‖freqResponse l ω - freqResponse l0 ω‖ ≤ E := by
    intro ω
    have h5 := a5 ω
    rw [a4] at h5 ⊢
    rw [hE]
    exact (H ω).trans (mul_le_of_le_one_right (by positivity) h5)
  obtain ⟨c1, c2⟩ := band_sections_rest hr hs hn hl
  have hls : ∀ c ∈ l, c.a0 = 1 ∧ Stable c := fun c hc => ⟨c1 c hc, hst c hc⟩
  exact ⟨l, l0, hl, hl0, C137_impulse l l0 hls a1 E H', C137_filtfilt l l0 hls a1 E H' a5,
    C137_computed l l0 hls a1 E H' a5⟩

/-- **C137** for Chebyshev I low-pass and high-pass filters designed in floating point, against the filter designed
without rounding; `E` is the error of the response from C98. -/
theorem C137_cheby1_edge (hr : r.Nearest) (hm : m.Accurate r h) (hm2 : m.AccurateHyp r h) {s : Sorts} (hs : s.Correct)
    (n : ℕ) (hn : n ≠ 0) (rp : ℝ) (hrp : 0 < rp) (w : ℝ) (hw : r.rnd w = w) (band : Band)
    (hband : band = .lowpass ∨ band = .highpass) (fs : Option ℝ) (e : ℝ)
    (he : Spec.edges [w] fs = [e]) (h0 : 0 < e) (h1 : e < 1)
    (S : Small r h ((rippleFloor rp * chebMargin n rp e / 20) ^ n))
    (hh : 8000 * (n ^ 2 * rippleCond rp ^ 2 * h) ≤ chebMargin n rp e ^ 2) (E : ℝ)
    (hE : E = 800 * (n ^ 2 * rippleCond rp ^ 2 * h / chebMargin n rp e ^ 2)) :
    ∃ l l0 : List (Sos ℝ),
      Rounded.cheby1 (.ofRounding r m) s n rp [w] (some band) (some false) (some .sos) fs = .ok (.sos l) ∧
      Design.cheby1 0 s n rp [w] (some band) (some false) (some .sos) fs = .ok (.sos l0) ∧
      (∀ k, |impulseResponse l k - impulseResponse l0 k| ≤ E) ∧
      (∃ K ρ : ℝ, 0 < ρ ∧ ρ < 1 ∧ ∀ (D : ℝ) (y z z' : List ℝ), (∀ v ∈ y, |v| ≤ D) → sosfiltfiltDyn y l = .ok z →
        sosfiltfiltDyn y l0 = .ok z' → ∀ i < y.length, |z.getD i 0 - z'.getD i 0| ≤
          E * (2 + E) * √(energy y) + K * D * (ρ ^ i + ρ ^ (y.length - 1 - i))) ∧
      ∃ K ρ u0 : ℝ, 0 < ρ ∧ ρ < 1 ∧ 0 < u0 ∧ ∀ r' : Rounding, r'.u ≤ u0 → r'.t ≤ r'.u → ∀ (D : ℝ) (y : List ℝ),
        (∀ v ∈ y, |v| ≤ D) → 3 * sosNtaps l < y.length → 3 * sosNtaps l0 < y.length →
        ∃ z z', sosfiltfiltDyn (y.map (Fl.mk (r := r'))) (l.map (flSection r')) = .ok z ∧
          sosfiltfiltDyn y l0 = .ok z' ∧
          ∀ i < y.length, |(z.getD i 0).val - z'.getD i 0| ≤ E * (2 + E) * √(energy y) +
            K * (D * (ρ ^ i + ρ ^ (y.length - 1 - i)) + r'.u * D + r'.t) := by
  have hh0 := S.h_nonneg
  have hv : ValidRequest [w] (some rp) none band .chebyshevI false fs :=
    valid_single hband he h0 h1 (by rintro x ⟨⟩; exact hrp.le) (by simp) (.inr (.inl ⟨rfl, rfl⟩))
  obtain ⟨l, g, hl, hg, hst, H⟩ := C98_sections_response hr hm hm2 0 hs n hn rp hrp [w] (by simpa using hw) band hband
    fs e he h0 h1 S hh
  obtain ⟨d0, -, hR, -⟩ := C84_returns_iff 0 s le_rfl hs n [w] (some rp) none (some band) (some .chebyshevI)
    (some false) (.inr rfl) fs hv ⟨by rintro - x ⟨⟩; exact hrp, by simp⟩ (by simp)
  have sep : ∀ L : List ℂ, Spec.Separated (0 * 100) L := by
    intro L x _
    rw [zero_mul, zero_mul]
    exact (eq_or_ne x.im 0).imp id abs_pos.mpr
  obtain ⟨l0, hl0⟩ := C84_format 0 s n [w] (some rp) none (some band) (some .chebyshevI) (some false) fs
    (hR.mpr ⟨sep _, sep _⟩)
  obtain ⟨a1, a2, a3, d, hd', a4⟩ := design_sections 0 s le_rfl hs n hn [w] (some rp) none (some band)
    (some .chebyshevI) (some false) (.inr rfl) fs hv ⟨by rintro - x ⟨⟩; exact hrp, by simp⟩ (by simp) l0 hl0
  have a5 := bound_everywhere (continuous_freqResponse l0 a1) _ a4 a3
  obtain rfl : d = g := by
    have : iirfilter 0 s n [w] (some rp) none (some band) (some .chebyshevI) (some false) (some .zpk) fs =
      .ok (.zpk g) := hg
    rw [this] at hd'
    simpa using hd'.symm
  have H' : ∀ ω : ℝ, ‖freqResponse l ω - freqResponse l0 ω‖ ≤ E := by
    intro ω
    have h5 := a5 ω
    rw [a4] at h5 ⊢
    rw [hE]
    exact (H ω).trans (mul_le_of_le_one_right (by positivity) h5)
  obtain ⟨c1, c2⟩ := cheb_sections_rest hr hs hn hl
  have hls : ∀ c ∈ l, c.a0 = 1 ∧ Stable c := fun c hc => ⟨c1 c hc, hst c hc⟩
  exact ⟨l, l0, hl, hl0, C137_impulse l l0 hls a1 E H', C137_filtfilt l l0 hls a1 E H' a5,
    C137_computed l l0 hls a1 E H' a5⟩

/-- **C137**, a low-pass instance: the fourth-order 10 Hz Butterworth filter for signals sampled at 1000 Hz, designed in
binary64. -/
theorem C137_edge_example {s : Sorts} (hs : s.Correct) :
    ∃ l l0 : List (Sos ℝ),
      Rounded.butter (.ofRounding binary64 libm64) s 4 [10] (some .lowpass) none (some .sos) (some 1000)
        = .ok (.sos l) ∧
      Design.butter 0 s 4 [10] (some .lowpass) none (some .sos) (some 1000) = .ok (.sos l0) ∧
      (∀ k, |impulseResponse l k - impulseResponse l0 k| ≤ 4 / 10 ^ 8) ∧
      (∃ K ρ : ℝ, 0 < ρ ∧ ρ < 1 ∧ ∀ (D : ℝ) (y z z' : List ℝ), (∀ v ∈ y, |v| ≤ D) → sosfiltfiltDyn y l = .ok z →
        sosfiltfiltDyn y l0 = .ok z' → ∀ i < y.length, |z.getD i 0 - z'.getD i 0| ≤
          8 / 10 ^ 8 * √(energy y) + K * D * (ρ ^ i + ρ ^ (y.length - 1 - i))) ∧
      ∃ K ρ u0 : ℝ, 0 < ρ ∧ ρ < 1 ∧ 0 < u0 ∧ ∀ r' : Rounding, r'.u ≤ u0 → r'.t ≤ r'.u → ∀ (D : ℝ) (y : List ℝ),
        (∀ v ∈ y, |v| ≤ D) → 3 * sosNtaps l < y.length → 3 * sosNtaps l0 < y.length →
        ∃ z z', sosfiltfiltDyn (y.map (Fl.mk (r := r'))) (l.map (flSection r')) = .ok z ∧
          sosfiltfiltDyn y l0 = .ok z' ∧
          ∀ i < y.length, |(z.getD i 0).val - z'.getD i 0| ≤ 8 / 10 ^ 8 * √(energy y) +
            K * (D * (ρ ^ i + ρ ^ (y.length - 1 - i)) + r'.u * D + r'.t) := by
  have hσ : (2 : ℝ) ^ (-1000 : ℤ) ≤ ((1 / 50 : ℝ) * (1 - 1 / 50) / 20) ^ 4 := by
    have h5 : (2 : ℝ) ^ (-1000 : ℤ) ≤ 2 ^ (-100 : ℤ) := zpow_le_zpow_right₀ (by norm_num) (by norm_num)
    refine h5.trans ?_
    rw [zpow_neg]
    norm_num
  have hw : binary64.rnd 10 = 10 := by
    have := Binary.rnd_int 53 (-1074) (by norm_num) 10 (by norm_num)
    exact_mod_cast this
  obtain ⟨l, l0, hl, hl0, hi, ⟨K, ρ, p0, p1, H⟩, K', ρ', u0, q0, q1, hu0, H'⟩ := C137_butter_edge binary64_nearest libm64_accurate hs 4 (by norm_num)
    10 hw .lowpass (.inl rfl) (some 1000) (1 / 50) (by simp [Spec.edges]; norm_num) (by norm_num) (by norm_num)
    (binary64_small_pow hσ) (by norm_num) _ rfl
  refine ⟨l, l0, hl, hl0, fun k => (hi k).trans (by norm_num), ⟨K, ρ, p0, p1, fun D y z z' hy hz hz' i hi => ?_⟩,
    K', ρ', u0, q0, q1, hu0, fun r' hu ht D y hy hn hn' => ?_⟩
  · refine (H D y z z' hy hz hz' i hi).trans (add_le_add (mul_le_mul_of_nonneg_right ?_ (Real.sqrt_nonneg _)) le_rfl)
    norm_num
  · obtain ⟨z, z', hz, hz', e⟩ := H' r' hu ht D y hy hn hn'
    refine ⟨z, z', hz, hz', fun i hi => (e i hi).trans
      (add_le_add (mul_le_mul_of_nonneg_right ?_ (Real.sqrt_nonneg _)) le_rfl)⟩
    norm_num

end SciRs.Props

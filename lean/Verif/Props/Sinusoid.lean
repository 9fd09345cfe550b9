import Verif.Lemmas.ZeroPhase
import Verif.Props.Design.Formats

/-!
# C76, C77: filtering sinusoids

Exact arithmetic.
-/

namespace SciRs.Props

open SciRs SciRs.Spec SciRs.Design

/-- `|H| cos(θ + arg H) = Re (H e^{iθ})`. -/
theorem re_mul_exp (H : ℂ) (θ : ℝ) :
    (H * Complex.exp (Complex.I * θ)).re = ‖H‖ * Real.cos (θ + Complex.arg H) := by
  have h : H = ‖H‖ * Complex.exp (Complex.arg H * Complex.I) := (Complex.norm_mul_exp_arg_mul_I H).symm
  have e : H * Complex.exp (Complex.I * θ) = ((‖H‖ : ℝ) : ℂ) * Complex.exp (((θ + Complex.arg H : ℝ) : ℂ) * Complex.I) := by
    rw [show (((θ + Complex.arg H : ℝ) : ℂ) * Complex.I) = Complex.arg H * Complex.I + Complex.I * θ by push_cast; ring,
      Complex.exp_add, ← mul_assoc, ← h]
  rw [e, Complex.re_ofReal_mul, Complex.exp_ofReal_mul_I_re]

/-- **C76** Filtering a sinusoid `A cos(ω n + φ)` with stable sections, from any initial state: the output
approaches the sinusoid of the same frequency with amplitude `A |H(e^{iω})|` and phase `φ + arg H(e^{iω})`,
where `H` is the frequency response of the sections.  The error at sample `i` is at most `K (1 + |A|) ρ^i`
with constants that depend only on the sections. -/
theorem C76_steady_state (sos : List (Sos ℝ)) (hs : ∀ s ∈ sos, s.a0 = 1 ∧ Stable s) :
    ∃ K ρ : ℝ, 0 < ρ ∧ ρ < 1 ∧ ∀ (A ω φ : ℝ) (N i : ℕ), i < N →
      |(sosfiltDyn (sinusoid A ω φ N) sos).1.getD i 0 -
        A * ‖freqResponse sos ω‖ * Real.cos (ω * i + φ + Complex.arg (freqResponse sos ω))| ≤
        K * (1 + |A|) * ρ ^ i := by
  obtain ⟨ρ, h0, h1, h⟩ := exists_radius sos fun s hm => (hs s hm).2
  obtain ⟨K, hK, hb⟩ := sinusoid_one_sided sos ρ h0 h1 h
  obtain ⟨R, hR, hr⟩ := states_bound sos
  refine ⟨K * (1 + R), ρ, h0, h1, fun A ω φ N i hi => ?_⟩
  have hA := abs_nonneg A
  have ht : |A| ≤ (1 + R) * (1 + |A|) := by nlinarith
  have htR : R ≤ (1 + R) * (1 + |A|) := by nlinarith [mul_nonneg hR hA]
  have hl : (sinusoid A ω φ N).length = N := by simp [sinusoid]
  have := hb ((1 + R) * (1 + |A|)) (Complex.exp (Complex.I * ω)) ((A : ℂ) * Complex.exp (Complex.I * φ)) sos
    (sinusoid A ω φ N) (norm_exp_I ω)
    (by rw [norm_mul, norm_exp_I, mul_one, Complex.norm_real, Real.norm_eq_abs]; exact ht) rfl
    (fun s hm => ⟨(hr s hm).1.trans htR, (hr s hm).2.trans htR⟩)
    (fun j hj => by
      rw [hl] at hj
      rw [sinusoid_re, sinusoid, range_map_getD N _ j hj, sub_self, abs_zero]
      positivity) i (by omega)
  rw [C20_sosfilt_dyn_eq_cascade, freqResponse_eq sos (fun s hm => (hs s hm).1)]
  have e : (casH sos (Complex.exp (Complex.I * ω)) * ((A : ℂ) * Complex.exp (Complex.I * φ)) *
      Complex.exp (Complex.I * ω) ^ i).re = A * ‖casH sos (Complex.exp (Complex.I * ω))‖ *
        Real.cos (ω * i + φ + Complex.arg (casH sos (Complex.exp (Complex.I * ω)))) := by
    rw [mul_assoc A, ← re_mul_exp, ← Complex.re_ofReal_mul]
    congr 1
    rw [← Complex.exp_nat_mul, mul_assoc, mul_assoc (A : ℂ), ← Complex.exp_add]
    have : Complex.I * φ + (i : ℂ) * (Complex.I * ω) = Complex.I * ((ω * i + φ : ℝ) : ℂ) := by push_cast; ring
    rw [this]
    ring
  rw [e] at this
  calc _ ≤ _ := this
    _ = _ := by ring

/-- **C77** Forward-backward filtering with stable sections has zero phase: a sinusoid comes back in phase,
multiplied by `|H(e^{iω})|²`, up to an error that decays geometrically with the distance from both ends of
the signal; the constants depend only on the sections. -/
theorem C77_zero_phase (sos : List (Sos ℝ)) (hs : ∀ s ∈ sos, s.a0 = 1 ∧ Stable s) :
    ∃ K ρ : ℝ, 0 < ρ ∧ ρ < 1 ∧ ∀ (A ω φ : ℝ) (N : ℕ), 3 * sosNtaps sos < N →
      ∃ y, sosfiltfiltDyn (sinusoid A ω φ N) sos = .ok y ∧ y.length = N ∧ ∀ i < N,
        |y.getD i 0 - ‖freqResponse sos ω‖ ^ 2 * (A * Real.cos (ω * i + φ))| ≤
          K * |A| * (ρ ^ i + ρ ^ (N - 1 - i)) := by
  obtain ⟨ρ, h0, h1, h⟩ := exists_radius sos fun s hm => (hs s hm).2
  have hn : ∀ s ∈ sos, Normal s := by
    intro s hm
    refine ⟨(hs s hm).1, fun hz => ?_⟩
    have := (hs s hm).2 1 (by
      rw [(hs s hm).1] at hz
      have : ((1 + s.a1 + s.a2 : ℝ) : ℂ) = 0 := by rw [hz]; rfl
      push_cast at this
      linear_combination this)
    simp at this
  obtain ⟨r, hr, hrc, -⟩ := C28_no_transient sos hn
  obtain ⟨K, hK⟩ := zero_phase sos r ρ h0 h1 h hrc (sosNtaps sos)
  refine ⟨K, ρ, h0, h1, fun A ω φ N hN => ?_⟩
  have hl : (sinusoid A ω φ N).length = N := by simp [sinusoid]
  have hok := sosfiltfilt_ok (sinusoid A ω φ N) sos r (by rw [hl]; exact hN) hr
  refine ⟨_, hok, by rw [C30_length _ _ _ hok, hl], fun i hi => ?_⟩
  rw [freqResponse_eq sos (fun s hm => (hs s hm).1)]
  exact hK A ω φ N hN i hi

/-- A concrete case of C76 and C77: one section with poles `(1 ± i)/2`. -/
example : ∀ s ∈ [Sos.new 1 2 1 1 (-1) (1 / 2 : ℝ)], s.a0 = 1 ∧ Stable s := by
  intro s hs
  simp [Sos.new] at hs
  subst hs
  refine ⟨rfl, fun z hz => ?_⟩
  have hre := congrArg Complex.re hz
  have him := congrArg Complex.im hz
  simp [pow_two, Complex.add_re, Complex.mul_re] at hre him
  have hsq : Complex.normSq z = 1 / 2 := by
    rw [Complex.normSq_apply]
    have hf : z.im * (2 * z.re - 1) = 0 := by linarith
    rcases mul_eq_zero.mp hf with h | h
    · rw [h] at hre; nlinarith [sq_nonneg (z.re - 1 / 2)]
    · have : z.re = 1 / 2 := by linarith
      rw [this] at hre ⊢; nlinarith
  rw [← sq_lt_one_iff₀ (norm_nonneg z), ← Complex.normSq_eq_norm_sq, hsq]
  norm_num

section

variable (eps : ℝ) (s : Sorts)

/-- The squared gain of a digital Butterworth low-pass or high-pass filter of order `N` with edge `W` at the
angular frequency `ω`. -/
noncomputable def butterPower (band : Band) (N : ℕ) (W ω : ℝ) : ℝ :=
  if band = .lowpass then 1 / (1 + (Real.tan (ω / 2) / Real.tan (Real.pi * W / 2)) ^ (2 * N))
  else 1 / (1 + (Real.tan (Real.pi * W / 2) / Real.tan (ω / 2)) ^ (2 * N))

theorem butter_sections_response (heps : 0 ≤ eps) (hsort : s.Correct) (N : ℕ) (hN : N ≠ 0) (band : Band)
    (hb : band = .lowpass ∨ band = .highpass) (wn W : ℝ) (fs : Option ℝ) (hW : edges [wn] fs = [W]) (h0 : 0 < W)
    (h1 : W < 1)
    (htol : eps * 100 * |Real.cos (Real.pi * W)| < Real.sin (Real.pi * W) * Real.sin (Real.pi / (2 * N))) :
    ∃ l, butter eps s N [wn] (some band) none (some .sos) fs = .ok (.sos l) ∧ l.length = (N + 1) / 2 ∧
      (∀ c ∈ l, c.a0 = 1 ∧ Stable c) ∧
      ∀ ω : ℝ, 0 < |ω| → |ω| < Real.pi → ‖freqResponse l ω‖ ^ 2 = butterPower band N W ω := by
  obtain ⟨d, t, l, e1, -, e3, hlen, hl, hx⟩ := C59_butter_sections eps s heps hsort N hN band hb wn W fs hW h0 h1 htol
  refine ⟨l, e3, hlen, fun c hc => ⟨(hl c hc).1, fun z hz => (hl c hc).2.2.2 z ?_⟩, fun ω hω0 hω => ?_⟩
  · rw [coeffVal_three, (hl c hc).1]; push_cast; rw [one_mul]; exact hz
  · have hv := (hx (Complex.exp (Complex.I * ω)) (Complex.exp_ne_zero _)).2.2.2
    unfold freqResponse butterPower
    rw [hv]
    rcases hb with rfl | rfl
    · obtain ⟨d', e, -, h, -⟩ := C56_response eps s N hN wn W fs (some .lowpass) (.inr rfl) none (.inl rfl) hW h0 h1
      rw [e1] at e
      cases e
      rw [h ω hω, if_pos rfl]
    · obtain ⟨d', e, -, h, -⟩ := C57_response eps s N hN wn W fs none (.inl rfl) hW h0 h1
      rw [e1] at e
      cases e
      rw [h ω hω0 hω, if_neg (by decide)]

/-- **C76** end to end: design a Butterworth low-pass or high-pass filter as sections and filter a sinusoid
with it.  The output settles to a sinusoid of the same frequency whose amplitude is `A` times the square
root of the Butterworth power. -/
theorem C76_butter (heps : 0 ≤ eps) (hsort : s.Correct) (N : ℕ) (hN : N ≠ 0) (band : Band)
    (hb : band = .lowpass ∨ band = .highpass) (wn W : ℝ) (fs : Option ℝ) (hW : edges [wn] fs = [W]) (h0 : 0 < W)
    (h1 : W < 1)
    (htol : eps * 100 * |Real.cos (Real.pi * W)| < Real.sin (Real.pi * W) * Real.sin (Real.pi / (2 * N))) :
    ∃ l, butter eps s N [wn] (some band) none (some .sos) fs = .ok (.sos l) ∧
      ∃ K ρ : ℝ, 0 < ρ ∧ ρ < 1 ∧ ∀ ω : ℝ, 0 < |ω| → |ω| < Real.pi → ∃ ψ : ℝ, ∀ (A φ : ℝ) (n i : ℕ), i < n →
        |(sosfiltDyn (sinusoid A ω φ n) l).1.getD i 0 -
          A * Real.sqrt (butterPower band N W ω) * Real.cos (ω * i + φ + ψ)| ≤ K * (1 + |A|) * ρ ^ i := by
  obtain ⟨l, e, -, hl, hp⟩ := butter_sections_response eps s heps hsort N hN band hb wn W fs hW h0 h1 htol
  obtain ⟨K, ρ, a, b, h⟩ := C76_steady_state l hl
  refine ⟨l, e, K, ρ, a, b, fun ω hω0 hω => ⟨Complex.arg (freqResponse l ω), fun A φ n i hi => ?_⟩⟩
  rw [← hp ω hω0 hω, Real.sqrt_sq (norm_nonneg _)]
  exact h A ω φ n i hi

/-- **C77** end to end: forward-backward filtering with a designed Butterworth low-pass or high-pass filter
multiplies a sinusoid by the Butterworth power and does not shift it, away from the ends of the signal. -/
theorem C77_butter (heps : 0 ≤ eps) (hsort : s.Correct) (N : ℕ) (hN : N ≠ 0) (band : Band)
    (hb : band = .lowpass ∨ band = .highpass) (wn W : ℝ) (fs : Option ℝ) (hW : edges [wn] fs = [W]) (h0 : 0 < W)
    (h1 : W < 1)
    (htol : eps * 100 * |Real.cos (Real.pi * W)| < Real.sin (Real.pi * W) * Real.sin (Real.pi / (2 * N))) :
    ∃ l, butter eps s N [wn] (some band) none (some .sos) fs = .ok (.sos l) ∧
      ∃ K ρ : ℝ, 0 < ρ ∧ ρ < 1 ∧ ∀ ω : ℝ, 0 < |ω| → |ω| < Real.pi → ∀ (A φ : ℝ) (n : ℕ),
        3 * (2 * ((N + 1) / 2) + 1) < n →
        ∃ y, sosfiltfiltDyn (sinusoid A ω φ n) l = .ok y ∧ y.length = n ∧ ∀ i < n,
          |y.getD i 0 - butterPower band N W ω * (A * Real.cos (ω * i + φ))| ≤
            K * |A| * (ρ ^ i + ρ ^ (n - 1 - i)) := by
  obtain ⟨l, e, hlen, hl, hp⟩ := butter_sections_response eps s heps hsort N hN band hb wn W fs hW h0 h1 htol
  obtain ⟨K, ρ, a, b, h⟩ := C77_zero_phase l hl
  refine ⟨l, e, K, ρ, a, b, fun ω hω0 hω A φ n hn => ?_⟩
  have hnt := ntaps_le l
  rw [hlen] at hnt
  have := h A ω φ n (by omega)
  rw [hp ω hω0 hω] at this
  exact this

/-- A concrete case of the two theorems above: order 4, edge at half the Nyquist frequency, any tolerance. -/
example : eps * 100 * |Real.cos (Real.pi * (1 / 2))| <
    Real.sin (Real.pi * (1 / 2)) * Real.sin (Real.pi / (2 * (4 : ℕ))) := by
  have hpi := Real.pi_pos
  rw [show Real.pi * (1 / 2) = Real.pi / 2 by ring, Real.cos_pi_div_two, Real.sin_pi_div_two, abs_zero, mul_zero,
    one_mul]
  exact Real.sin_pos_of_pos_of_lt_pi (by positivity) (by push_cast; linarith)

end

end SciRs.Props

import Verif.Lemmas.Energy
import Verif.Props.Sinusoid

/-!
# C92: the energy of filtered signals

Exact arithmetic.
-/

namespace SciRs.Props

open SciRs SciRs.Spec SciRs.Design Complex

theorem energy_eq (x : List ℝ) : energy x = ∑ n ∈ Finset.range x.length, x.getD n 0 ^ 2 := by
  induction x with
  | nil => rfl
  | cons a x ih =>
    rw [List.length_cons, Finset.sum_range_succ']
    simp only [List.getD_cons_succ, List.getD_cons_zero]
    rw [← ih]
    simp [energy, add_comm]

theorem continuous_freqResponse (sos : List (Sos ℝ)) (hs : ∀ s ∈ sos, s.a0 = 1 ∧ Stable s) :
    Continuous (freqResponse sos) := by
  have e : freqResponse sos = fun ω : ℝ => casH sos (exp (I * ω)) :=
    funext fun ω => freqResponse_eq sos (fun s h => (hs s h).1) ω
  rw [e]
  unfold casH
  have hst : ∀ s ∈ sos, RootsBelow 1 s := fun s h => (hs s h).2
  clear hs e
  induction sos with
  | nil => simpa using continuous_const
  | cons s ss ih =>
    simp only [List.map_cons, List.prod_cons]
    refine Continuous.mul ?_ (ih fun t ht => hst t (by simp [ht]))
    unfold secH
    refine Continuous.div (by fun_prop) (by fun_prop) fun ω => ?_
    exact stable_den_ne s (hst s (by simp)) _ (norm_exp_I ω)

/-- A bound below Nyquist holds at every frequency. -/
theorem bound_everywhere {f : ℝ → ℂ} (hf : Continuous f) (g : ℂ → ℂ) (hg : ∀ ω : ℝ, f ω = g (exp (I * ω))) {M : ℝ}
    (h : ∀ ω : ℝ, |ω| < Real.pi → ‖f ω‖ ≤ M) (ω : ℝ) : ‖f ω‖ ≤ M := by
  have hcl : IsClosed {ω : ℝ | ‖f ω‖ ≤ M} := isClosed_le hf.norm continuous_const
  have hIcc : Set.Icc (-Real.pi) Real.pi ⊆ {ω : ℝ | ‖f ω‖ ≤ M} := by
    rw [← closure_Ioo (by linarith [Real.pi_pos])]
    refine hcl.closure_subset_iff.mpr fun v hv => h v (abs_lt.mpr hv)
  have e : exp (I * ω) = exp (I * ((arg (exp (I * ω)) : ℝ) : ℂ)) := by
    have := norm_mul_exp_arg_mul_I (exp (I * ω))
    rw [norm_exp_I, ofReal_one, one_mul] at this
    rw [mul_comm I ((arg (exp (I * ω)) : ℝ) : ℂ), this]
  rw [hg, e, ← hg]
  exact hIcc ⟨(neg_pi_lt_arg _).le, arg_le_pi _⟩

theorem bound_inv {f : ℝ → ℂ} {g : ℂ → ℂ} (hg : ∀ ω : ℝ, f ω = g (exp (I * ω))) {M : ℝ} (h : ∀ ω, ‖f ω‖ ≤ M)
    (θ : ℝ) : ‖g (exp (I * θ))⁻¹‖ ≤ M := by
  have := h (-θ)
  rw [hg] at this
  rwa [← exp_neg, ← mul_neg, ← ofReal_neg]

/-- **C92** Filtering with stable sections from rest: the energy of the output is at most `M²` times the energy
of the input, when `M` bounds the frequency response of the sections below the Nyquist frequency. -/
theorem C92_energy (sos : List (Sos ℝ)) (hs : ∀ s ∈ sos, s.a0 = 1 ∧ Stable s) (h : AtRest sos) (M : ℝ)
    (hM : ∀ ω : ℝ, |ω| < Real.pi → ‖freqResponse sos ω‖ ≤ M) (x : List ℝ) :
    energy (sosfiltDyn x sos).1 ≤ M ^ 2 * energy x := by
  have h0 : 0 ≤ M := (norm_nonneg _).trans (hM 0 (by simpa using Real.pi_pos))
  have hg := freqResponse_eq sos (fun s h => (hs s h).1)
  have hb := bound_inv hg (bound_everywhere (continuous_freqResponse sos hs) _ hg hM)
  obtain ⟨f, hf, hfo, hfe⟩ := output_series sos h (fun s h => (hs s h).2) x
  have := energy_le hf (fun n => x.getD n 0) x.length h0 (fun θ => by
    have e := hfe (exp (I * θ)) (norm_exp_I θ)
    rw [(signal_series x).2, ev] at e
    rw [e, norm_mul]
    exact mul_le_mul_of_nonneg_right (hb θ) (norm_nonneg _)) x.length
  rw [energy_eq, energy_eq, C20_sosfilt_dyn_eq_cascade, cascade_length]
  refine le_trans (le_of_eq (Finset.sum_congr rfl fun n hn => ?_)) this
  rw [hfo n (by simpa using hn)]

/-- **C92** Two lists of stable sections whose frequency responses differ by at most `ε` give outputs whose
difference has at most `ε²` times the energy of the input. -/
theorem C92_distance (l l' : List (Sos ℝ)) (hl : ∀ s ∈ l, s.a0 = 1 ∧ Stable s) (hl' : ∀ s ∈ l', s.a0 = 1 ∧ Stable s)
    (h : AtRest l) (h' : AtRest l') (ε : ℝ)
    (hε : ∀ ω : ℝ, |ω| < Real.pi → ‖freqResponse l ω - freqResponse l' ω‖ ≤ ε) (x : List ℝ) :
    energy (signalDiff (sosfiltDyn x l).1 (sosfiltDyn x l').1) ≤ ε ^ 2 * energy x := by
  have h0 : 0 ≤ ε := (norm_nonneg _).trans (hε 0 (by simpa using Real.pi_pos))
  have hg := freqResponse_eq l (fun s h => (hl s h).1)
  have hg' := freqResponse_eq l' (fun s h => (hl' s h).1)
  obtain ⟨G, hG⟩ : ∃ G : ℂ → ℂ, ∀ z, G z = casH l z - casH l' z := ⟨_, fun _ => rfl⟩
  obtain ⟨F, hF⟩ : ∃ F : ℝ → ℂ, ∀ ω, F ω = freqResponse l ω - freqResponse l' ω := ⟨_, fun _ => rfl⟩
  have hgg : ∀ ω : ℝ, F ω = G (exp (I * ω)) := fun ω => by rw [hF, hG, hg, hg']
  have hFc : Continuous F := by
    rw [show F = fun ω => freqResponse l ω - freqResponse l' ω from funext hF]
    exact (continuous_freqResponse l hl).sub (continuous_freqResponse l' hl')
  have hb := bound_inv hgg (bound_everywhere hFc G hgg fun ω hω => by rw [hF]; exact hε ω hω)
  obtain ⟨f, hf, hfo, hfe⟩ := output_series l h (fun s h => (hl s h).2) x
  obtain ⟨f', hf', hfo', hfe'⟩ := output_series l' h' (fun s h => (hl' s h).2) x
  have := energy_le (hf.sub hf') (fun n => x.getD n 0) x.length h0 (fun θ => by
    have e := ev_sub hf hf' (norm_exp_I θ)
    rw [hfe _ (norm_exp_I θ), hfe' _ (norm_exp_I θ), (signal_series x).2, ev, ← sub_mul, ← hG] at e
    rw [e, norm_mul]
    exact mul_le_mul_of_nonneg_right (hb θ) (norm_nonneg _)) x.length
  have hlen : (signalDiff (sosfiltDyn x l).1 (sosfiltDyn x l').1).length = x.length := by
    rw [signalDiff, List.length_zipWith, (C24_length x l).1, (C24_length x l').1, min_self]
  rw [energy_eq, energy_eq, hlen]
  refine le_trans (le_of_eq (Finset.sum_congr rfl fun n hn => ?_)) this
  have hn' : n < x.length := by simpa using hn
  have a1 : n < (sosfiltDyn x l).1.length := by rw [(C24_length x l).1]; exact hn'
  have a2 : n < (sosfiltDyn x l').1.length := by rw [(C24_length x l').1]; exact hn'
  rw [map_sub, hfo n hn', hfo' n hn', ← C20_sosfilt_dyn_eq_cascade, ← C20_sosfilt_dyn_eq_cascade, signalDiff,
    List.getD_eq_getElem?_getD, List.getD_eq_getElem?_getD, List.getD_eq_getElem?_getD, List.getElem?_zipWith,
    List.getElem?_eq_getElem a1, List.getElem?_eq_getElem a2]
  rfl

theorem cos_sin_energy (H ω φ : ℝ) (N : ℕ) :
    (∑ i ∈ Finset.range N, (H * Real.cos (ω * i + φ)) ^ 2) +
      ∑ i ∈ Finset.range N, (H * Real.sin (ω * i + φ)) ^ 2 = H ^ 2 * N := by
  rw [← Finset.sum_add_distrib]
  have : ∀ i ∈ Finset.range N, (H * Real.cos (ω * i + φ)) ^ 2 + (H * Real.sin (ω * i + φ)) ^ 2 = H ^ 2 := by
    intro i _
    have := Real.sin_sq_add_cos_sq (ω * i + φ)
    linear_combination H ^ 2 * this
  rw [Finset.sum_congr rfl this]
  simp [mul_comm]

theorem near_sum {a y : ℕ → ℝ} {B K ρ : ℝ} (hK : 0 ≤ K) (h0 : 0 < ρ) (h1 : ρ < 1) (N : ℕ) (ha : ∀ i, |a i| ≤ B)
    (h : ∀ i < N, |y i - a i| ≤ K * ρ ^ i) :
    ∑ i ∈ Finset.range N, a i ^ 2 ≤ ∑ i ∈ Finset.range N, y i ^ 2 + 2 * B * K / (1 - ρ) := by
  have hB : 0 ≤ B := (abs_nonneg _).trans (ha 0)
  have h2 : ∀ i ∈ Finset.range N, a i ^ 2 ≤ y i ^ 2 + 2 * B * K * ρ ^ i := by
    intro i hi
    have h3 := h i (by simpa using hi)
    have h4 : a i ^ 2 - y i ^ 2 ≤ 2 * |a i| * |y i - a i| := by
      have h5 : a i ^ 2 - y i ^ 2 ≤ -(2 * a i * (y i - a i)) := by nlinarith [sq_nonneg (y i - a i)]
      have h6 := neg_abs_le (2 * a i * (y i - a i))
      rw [abs_mul, abs_mul, abs_two] at h6
      linarith
    have h7 : |a i| * |y i - a i| ≤ B * (K * ρ ^ i) := mul_le_mul (ha i) h3 (abs_nonneg _) hB
    nlinarith
  refine (Finset.sum_le_sum h2).trans ?_
  rw [Finset.sum_add_distrib, ← Finset.mul_sum]
  have hgs : ∑ i ∈ Finset.range N, ρ ^ i ≤ 1 / (1 - ρ) := by
    rw [← tsum_geometric_of_lt_one h0.le h1 |>.trans (one_div _).symm]
    exact (summable_geometric_of_lt_one h0.le h1).sum_le_tsum _ fun i _ => by positivity
  have : 2 * B * K * ∑ i ∈ Finset.range N, ρ ^ i ≤ 2 * B * K * (1 / (1 - ρ)) :=
    mul_le_mul_of_nonneg_left hgs (by positivity)
  rw [mul_one_div] at this
  linarith

/-- **C92** The bound cannot be improved: if filtering never multiplies the energy of a signal by more than `M²`,
the frequency response is at most `M` at every frequency. -/
theorem C92_peak (sos : List (Sos ℝ)) (hs : ∀ s ∈ sos, s.a0 = 1 ∧ Stable s) (M : ℝ) (hM0 : 0 ≤ M)
    (hM : ∀ x : List ℝ, energy (sosfiltDyn x sos).1 ≤ M ^ 2 * energy x) (ω : ℝ) : ‖freqResponse sos ω‖ ≤ M := by
  obtain ⟨K, ρ, h0, h1, hK⟩ := C76_steady_state sos hs
  obtain ⟨H, hH⟩ : ∃ H, H = ‖freqResponse sos ω‖ := ⟨_, rfl⟩
  obtain ⟨α, hα⟩ : ∃ α, α = arg (freqResponse sos ω) := ⟨_, rfl⟩
  have hH0 : 0 ≤ H := hH ▸ norm_nonneg _
  rw [← hH]
  have key : ∀ N : ℕ, (H ^ 2 - M ^ 2) * N ≤ 2 * (2 * H * (2 * |K|) / (1 - ρ)) := by
    intro N
    have part : ∀ φ : ℝ, ∑ i ∈ Finset.range N, (H * Real.cos (ω * i + (φ + α))) ^ 2 ≤
        M ^ 2 * ∑ i ∈ Finset.range N, (1 * Real.cos (ω * i + φ)) ^ 2 + 2 * H * (2 * |K|) / (1 - ρ) := by
      intro φ
      have hx := hM (sinusoid 1 ω φ N)
      have hl : (sinusoid 1 ω φ N).length = N := by simp [sinusoid]
      rw [energy_eq, energy_eq, (C24_length _ _).1, hl] at hx
      have hxe : ∑ i ∈ Finset.range N, (sinusoid 1 ω φ N).getD i 0 ^ 2 =
          ∑ i ∈ Finset.range N, (1 * Real.cos (ω * i + φ)) ^ 2 :=
        Finset.sum_congr rfl fun i hi => by rw [sinusoid, range_map_getD N _ i (by simpa using hi)]
      rw [hxe] at hx
      have := near_sum (a := fun i => H * Real.cos (ω * i + (φ + α)))
        (y := fun i => (sosfiltDyn (sinusoid 1 ω φ N) sos).1.getD i 0) (B := H) (K := 2 * |K|) (by positivity) h0 h1 N
        (fun i => by
          rw [abs_mul, abs_of_nonneg hH0]
          exact mul_le_of_le_one_right hH0 (Real.abs_cos_le_one _))
        (fun i hi => by
          have := hK 1 ω φ N i hi
          rw [← hH, ← hα, one_mul, abs_one, add_assoc] at this
          refine this.trans ?_
          have : K ≤ |K| := le_abs_self K
          have hp : 0 < ρ ^ i := by positivity
          nlinarith)
      linarith
    have p1 := part 0
    have p2 := part (-(Real.pi / 2))
    have e2 : ∀ i : ℕ, ω * i + (-(Real.pi / 2) + α) = (ω * i + α) - Real.pi / 2 := fun i => by ring
    have e3 : ∀ i : ℕ, ω * i + -(Real.pi / 2) = ω * i - Real.pi / 2 := fun i => by ring
    simp only [e2, e3, Real.cos_sub_pi_div_two, zero_add, add_zero] at p1 p2
    have s1 := cos_sin_energy H ω α N
    have s2 := cos_sin_energy 1 ω 0 N
    simp only [add_zero, one_pow, one_mul] at s2 p1 p2
    nlinarith
  by_contra hlt
  rw [not_le] at hlt
  have hd : 0 < H ^ 2 - M ^ 2 := by nlinarith
  obtain ⟨N, hN⟩ := exists_nat_gt (2 * (2 * H * (2 * |K|) / (1 - ρ)) / (H ^ 2 - M ^ 2))
  have := key N
  rw [div_lt_iff₀ hd] at hN
  linarith

/-- The hypotheses hold of a section that halves and delays by one sample. -/
example (x : List ℝ) : energy (sosfiltDyn x [⟨0, 1 / 2, 0, 1, 0, 0, 0, 0⟩]).1 ≤ (1 / 2) ^ 2 * energy x := by
  refine C92_energy _ ?_ ?_ _ (fun ω _ => ?_) x
  · intro s hs
    obtain rfl := List.mem_singleton.mp hs
    refine ⟨rfl, fun z hz => ?_⟩
    have : z = 0 := by simpa using hz
    simp [this]
  · intro s hs
    obtain rfl := List.mem_singleton.mp hs
    exact ⟨rfl, rfl⟩
  · have hn := norm_exp_I ω
    have hne : exp (I * ω) ≠ 0 := exp_ne_zero _
    rw [freqResponse_eq _ (by simp)]
    simp [casH, secH, hn]

end SciRs.Props

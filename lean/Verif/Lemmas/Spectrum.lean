import Verif.Props.Kernel
import Verif.Props.Sinusoid
import Mathlib.Analysis.SpecialFunctions.Integrals.Basic
import Mathlib.MeasureTheory.Integral.DominatedConvergence

/-! Helper lemmas: trigonometric series and the coefficients of filters. -/

namespace SciRs

open Spec Props MeasureTheory
open scoped Topology

theorem hasSum_of_eq {E : Type} [AddCommMonoid E] [TopologicalSpace E] {f g : ℕ → E} {a : E} (h : ∀ k, f k = g k)
    (hf : HasSum f a) : HasSum g a := funext h ▸ hf

theorem integral_series {E : Type} [NormedAddCommGroup E] [NormedSpace ℝ E] [CompleteSpace E] (f : ℕ → ℝ → E) (F : ℝ → E)
    (b : ℕ → ℝ) (hb : Summable b) (hc : ∀ k, Continuous (f k)) (hf : ∀ k x, ‖f k x‖ ≤ b k)
    (hF : ∀ x, HasSum (fun k => f k x) (F x)) (u v : ℝ) :
    HasSum (fun k => ∫ x in u..v, f k x) (∫ x in u..v, F x) := by
  refine intervalIntegral.hasSum_integral_of_dominated_convergence (fun k _ => b k)
    (fun k => (hc k).aestronglyMeasurable) (fun k => Filter.Eventually.of_forall fun x _ => hf k x)
    (Filter.Eventually.of_forall fun _ _ => hb) ?_ (Filter.Eventually.of_forall fun x _ => hF x)
  exact intervalIntegrable_const

theorem integral_cos_int (m : ℤ) :
    ∫ x in (-Real.pi)..Real.pi, Real.cos (m * x) = if m = 0 then 2 * Real.pi else 0 := by
  split
  · rename_i h
    subst h
    simp
    ring
  · rename_i h
    have hm : (m : ℝ) ≠ 0 := by exact_mod_cast h
    rw [intervalIntegral.integral_comp_mul_left (f := Real.cos) hm, integral_cos, mul_neg, Real.sin_neg,
      Real.sin_int_mul_pi]
    simp

theorem integral_cos_cos (d n : ℕ) :
    ∫ x in (-Real.pi)..Real.pi, 2 * Real.cos (d * x) * Real.cos (n * x) =
      (if d = n then 2 * Real.pi else 0) + (if d = 0 ∧ n = 0 then 2 * Real.pi else 0) := by
  have e : ∀ x : ℝ, 2 * Real.cos (d * x) * Real.cos (n * x) =
      Real.cos (((d : ℤ) - n : ℤ) * x) + Real.cos (((d : ℤ) + n : ℤ) * x) := by
    intro x
    rw [Real.two_mul_cos_mul_cos]
    push_cast
    ring_nf
  have hi : ∀ m : ℤ, IntervalIntegrable (fun x : ℝ => Real.cos (m * x)) volume (-Real.pi) Real.pi :=
    fun m => (by fun_prop : Continuous fun x : ℝ => Real.cos (m * x)).intervalIntegrable _ _
  rw [intervalIntegral.integral_congr (g := fun x => Real.cos (((d : ℤ) - n : ℤ) * x) + Real.cos (((d : ℤ) + n : ℤ) * x))
    (fun x _ => e x), intervalIntegral.integral_add (hi _) (hi _), integral_cos_int, integral_cos_int]
  congr 1
  · simp only [sub_eq_zero, Nat.cast_inj]
  · congr 1
    rw [eq_iff_iff]
    omega

theorem integral_exp_int (m : ℤ) :
    ∫ x in (-Real.pi)..Real.pi, Complex.exp (Complex.I * m * x) = if m = 0 then 2 * (Real.pi : ℂ) else 0 := by
  split
  · rename_i h
    subst h
    simp
    ring
  · rename_i h
    have hm : (Complex.I * m : ℂ) ≠ 0 := mul_ne_zero Complex.I_ne_zero (by exact_mod_cast h)
    rw [integral_exp_mul_complex hm]
    have : Complex.exp (Complex.I * m * (Real.pi : ℝ)) = Complex.exp (Complex.I * m * ((-Real.pi : ℝ) : ℂ)) := by
      rw [Complex.exp_eq_exp_iff_exists_int]
      refine ⟨m, ?_⟩
      push_cast
      ring
    rw [this, sub_self, zero_div]

/-! ### The impulse response -/

theorem freqResponse_rested (sos : List (Sos ℝ)) (ω : ℝ) : freqResponse (rested sos) ω = freqResponse sos ω := by
  unfold freqResponse sosNum sosDen
  rw [rested_eq, List.map_map, List.map_map]
  rfl

theorem rested_ok {sos : List (Sos ℝ)} (hs : ∀ s ∈ sos, s.a0 = 1 ∧ Stable s) : ∀ s ∈ rested sos, s.a0 = 1 ∧ Stable s := by
  rw [rested_eq]
  intro s hm
  obtain ⟨t, ht, rfl⟩ := List.mem_map.mp hm
  exact hs t ht

theorem impulse_summable (sos : List (Sos ℝ)) (hs : ∀ s ∈ sos, Stable s) : Summable fun k => |impulseResponse sos k| := by
  obtain ⟨K, ρ, hK, h0, h1, H⟩ := run_diff sos hs
  exact Summable.of_nonneg_of_le (fun _ => abs_nonneg _) (impulse_bound H h0) (geom_hasSum h0 h1 K).summable

theorem sinusoid_getD (A ω φ : ℝ) (N j : ℕ) (hj : j < N) : (sinusoid A ω φ N).getD j 0 = A * Real.cos (ω * j + φ) := by
  unfold sinusoid
  rw [List.getD_eq_getElem _ _ (by simpa using hj)]
  simp

theorem sinusoid_length (A ω φ : ℝ) (N : ℕ) : (sinusoid A ω φ N).length = N := by
  unfold sinusoid
  simp

/-- The response to a sinusoid, as a series. -/
theorem impulse_cos (sos : List (Sos ℝ)) (hs : ∀ s ∈ sos, s.a0 = 1 ∧ Stable s) (ω θ : ℝ) :
    HasSum (fun k => impulseResponse sos k * Real.cos (θ - ω * k))
      (‖freqResponse sos ω‖ * Real.cos (θ + Complex.arg (freqResponse sos ω))) := by
  have hsum : Summable fun k => impulseResponse sos k * Real.cos (θ - ω * k) := by
    refine Summable.of_norm_bounded (impulse_summable sos fun s hm => (hs s hm).2) fun k => ?_
    rw [Real.norm_eq_abs, abs_mul]
    exact mul_le_of_le_one_right (abs_nonneg _) (Real.abs_cos_le_one _)
  obtain ⟨K, ρ, h0, h1, H⟩ := C76_steady_state (rested sos) (rested_ok hs)
  have hpart : ∀ i : ℕ, |(∑ k ∈ Finset.range (i + 1), impulseResponse sos k * Real.cos (θ - ω * k)) -
      ‖freqResponse sos ω‖ * Real.cos (θ + Complex.arg (freqResponse sos ω))| ≤ K * (1 + |(1 : ℝ)|) * ρ ^ i := by
    intro i
    have := H 1 ω (θ - ω * i) (i + 1) i (by omega)
    rw [rest_conv sos _ i (by rw [sinusoid_length]; omega), freqResponse_rested, one_mul,
      show ω * i + (θ - ω * i) + Complex.arg (freqResponse sos ω) = θ + Complex.arg (freqResponse sos ω) by ring] at this
    rw [← Finset.sum_range_reflect]
    convert this using 4 with j hj
    rw [Finset.mem_range] at hj
    rw [sinusoid_getD _ _ _ _ _ hj, one_mul, show i + 1 - 1 - j = i - j by omega, Nat.cast_sub (by omega)]
    congr 2
    ring
  have hlim : Filter.Tendsto (fun i => ∑ k ∈ Finset.range (i + 1), impulseResponse sos k * Real.cos (θ - ω * k))
      Filter.atTop (𝓝 (‖freqResponse sos ω‖ * Real.cos (θ + Complex.arg (freqResponse sos ω)))) := by
    rw [tendsto_iff_norm_sub_tendsto_zero]
    refine squeeze_zero (fun _ => norm_nonneg _) (fun i => (Real.norm_eq_abs _).le.trans (hpart i)) ?_
    have := (tendsto_pow_atTop_nhds_zero_of_lt_one h0.le h1).const_mul (K * (1 + |(1 : ℝ)|))
    simpa using this
  have h2 := (Filter.tendsto_add_atTop_iff_nat 1).mpr hsum.hasSum.tendsto_sum_nat
  rw [← tendsto_nhds_unique h2 hlim]
  exact hsum.hasSum

/-! ### The kernel -/

theorem kernel_abs_summable (sos : List (Sos ℝ)) (hs : ∀ s ∈ sos, Stable s) (φ : ℕ → ℝ)
    (h : ∀ d, HasSum (fun k => impulseResponse sos k * impulseResponse sos (k + d)) (φ d)) : Summable fun d => |φ d| := by
  obtain ⟨ψ, K, ρ, h0, h1, hψ, hb, -⟩ := C118_kernel sos hs
  have e : φ = ψ := funext fun d => (h d).unique (hψ d)
  rw [e]
  exact Summable.of_nonneg_of_le (fun _ => abs_nonneg _) hb (geom_hasSum h0 h1 K).summable

/-- The sum around the middle of a symmetric signal. -/
theorem symConv_middle (φ : ℕ → ℝ) (ω : ℝ) (c : ℕ) :
    symConv φ (sinusoid 1 ω (-(ω * c)) (2 * c + 1)) c =
      φ 0 + ∑ d ∈ Finset.range c, 2 * φ (d + 1) * Real.cos (ω * (d + 1 : ℕ)) := by
  unfold symConv
  rw [sinusoid_length]
  have e : ∀ j ∈ Finset.range (2 * c + 1), φ (gap c j) * (sinusoid 1 ω (-(ω * c)) (2 * c + 1)).getD j 0 =
      φ (gap c j) * Real.cos (ω * gap c j) := by
    intro j hj
    rw [Finset.mem_range] at hj
    rw [sinusoid_getD _ _ _ _ _ hj, one_mul]
    congr 1
    unfold gap
    rcases le_total j c with h | h
    · rw [show c - j + (j - c) = c - j by omega, Nat.cast_sub h, ← Real.cos_neg]
      congr 1
      ring
    · rw [show c - j + (j - c) = j - c by omega, Nat.cast_sub h]
      congr 1
      ring
  rw [Finset.sum_congr rfl e, show 2 * c + 1 = c + 1 + c by omega, Finset.sum_range_add, Finset.sum_range_succ]
  rw [← Finset.sum_range_reflect (fun j => φ (gap c j) * Real.cos (ω * gap c j)) c]
  have e1 : ∀ j ∈ Finset.range c, φ (gap c (c - 1 - j)) * Real.cos (ω * (gap c (c - 1 - j) : ℕ)) =
      φ (j + 1) * Real.cos (ω * (j + 1 : ℕ)) := by
    intro j hj
    rw [Finset.mem_range] at hj
    rw [show gap c (c - 1 - j) = j + 1 by unfold gap; omega]
  have e2 : ∀ j ∈ Finset.range c, φ (gap c (c + 1 + j)) * Real.cos (ω * (gap c (c + 1 + j) : ℕ)) =
      φ (j + 1) * Real.cos (ω * (j + 1 : ℕ)) := by
    intro j _
    rw [show gap c (c + 1 + j) = j + 1 by unfold gap; omega]
  rw [Finset.sum_congr rfl e1, Finset.sum_congr rfl e2, show gap c c = 0 by unfold gap; omega]
  have e3 : ∑ d ∈ Finset.range c, 2 * φ (d + 1) * Real.cos (ω * (d + 1 : ℕ)) =
      2 * ∑ d ∈ Finset.range c, φ (d + 1) * Real.cos (ω * (d + 1 : ℕ)) := by
    rw [Finset.mul_sum]
    exact Finset.sum_congr rfl fun _ _ => by ring
  rw [e3]
  simp
  ring

end SciRs

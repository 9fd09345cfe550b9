import Mathlib.Analysis.SpecialFunctions.Integrals.Basic
import Mathlib.Analysis.SpecialFunctions.Sqrt

/-! # Bounded functions integrated against trigonometric sums -/

namespace SciRs

theorem integral_cos_int (k : ℤ) : ∫ ω in (-Real.pi)..Real.pi, Real.cos (k * ω) = if k = 0 then 2 * Real.pi else 0 := by
  split
  · rename_i h
    subst h
    simp
    ring
  · rename_i h
    have hk : (k : ℝ) ≠ 0 := by exact_mod_cast h
    rw [intervalIntegral.integral_comp_mul_left (fun x => Real.cos x) hk, integral_cos, mul_neg, Real.sin_neg,
      Real.sin_int_mul_pi]
    simp

/-- A function bounded by `M`, integrated against a trigonometric sum. -/
theorem trig_sum_le {G : ℝ → ℝ} (hG : Continuous G) {M : ℝ} (hM : ∀ ω, |G ω| ≤ M) (y : ℕ → ℝ) (N i : ℕ) :
    |∑ j ∈ Finset.range N, (∫ ω in (-Real.pi)..Real.pi, G ω * Real.cos (((i : ℤ) - j : ℤ) * ω)) * y j| ≤
      2 * Real.pi * (M * √(∑ j ∈ Finset.range N, y j ^ 2)) := by
  have hpi := Real.pi_pos
  have hM0 : 0 ≤ M := (abs_nonneg _).trans (hM 0)
  obtain ⟨P, hP⟩ : ∃ P : ℝ → ℝ, P = fun ω => ∑ j ∈ Finset.range N, y j * Real.cos (((i : ℤ) - j : ℤ) * ω) := ⟨_, rfl⟩
  obtain ⟨Q, hQ⟩ : ∃ Q : ℝ → ℝ, Q = fun ω => ∑ j ∈ Finset.range N, y j * Real.sin (((i : ℤ) - j : ℤ) * ω) := ⟨_, rfl⟩
  have cP : Continuous P := by rw [hP]; fun_prop
  have cQ : Continuous Q := by rw [hQ]; fun_prop
  obtain ⟨e, he⟩ : ∃ e, e = ∑ j ∈ Finset.range N, y j ^ 2 := ⟨_, rfl⟩
  have he0 : 0 ≤ e := by rw [he]; exact Finset.sum_nonneg fun _ _ => sq_nonneg _
  -- Parseval
  have pars : ∫ ω in (-Real.pi)..Real.pi, (P ω ^ 2 + Q ω ^ 2) = 2 * Real.pi * e := by
    have e1 : ∀ ω, P ω ^ 2 + Q ω ^ 2 =
        ∑ j ∈ Finset.range N, ∑ k ∈ Finset.range N, y j * y k * Real.cos (((k : ℤ) - j : ℤ) * ω) := by
      intro ω
      rw [hP, hQ, pow_two, pow_two, Finset.sum_mul_sum, Finset.sum_mul_sum, ← Finset.sum_add_distrib]
      refine Finset.sum_congr rfl fun j _ => ?_
      rw [← Finset.sum_add_distrib]
      refine Finset.sum_congr rfl fun k _ => ?_
      have : (((k : ℤ) - j : ℤ) : ℝ) * ω = ((i : ℤ) - j : ℤ) * ω - ((i : ℤ) - k : ℤ) * ω := by push_cast; ring
      rw [this, Real.cos_sub]
      ring
    rw [intervalIntegral.integral_congr fun ω _ => e1 ω, intervalIntegral.integral_finsetSum fun j _ =>
      (Continuous.intervalIntegrable (by fun_prop) _ _)]
    rw [he, Finset.mul_sum]
    refine Finset.sum_congr rfl fun j hj => ?_
    rw [intervalIntegral.integral_finsetSum fun k _ => (Continuous.intervalIntegrable (by fun_prop) _ _),
      Finset.sum_eq_single j]
    · rw [intervalIntegral.integral_const_mul, integral_cos_int, if_pos (sub_self _)]
      ring
    · intro k _ hk
      rw [intervalIntegral.integral_const_mul, integral_cos_int, if_neg (by
        intro h; exact hk (by exact_mod_cast sub_eq_zero.mp h)), mul_zero]
    · intro h; exact absurd hj h
  -- the sum as one integral
  have sum_eq : ∑ j ∈ Finset.range N, (∫ ω in (-Real.pi)..Real.pi, G ω * Real.cos (((i : ℤ) - j : ℤ) * ω)) * y j =
      ∫ ω in (-Real.pi)..Real.pi, G ω * P ω := by
    have e2 : ∀ ω, G ω * P ω = ∑ j ∈ Finset.range N, G ω * Real.cos (((i : ℤ) - j : ℤ) * ω) * y j := by
      intro ω
      rw [hP, Finset.mul_sum]
      exact Finset.sum_congr rfl fun j _ => by ring
    rw [intervalIntegral.integral_congr fun ω _ => e2 ω, intervalIntegral.integral_finsetSum fun j _ =>
      (Continuous.intervalIntegrable (by fun_prop) _ _)]
    exact Finset.sum_congr rfl fun j _ => (intervalIntegral.integral_mul_const _ _).symm
  rw [sum_eq, ← he]
  have key : ∀ t : ℝ, 0 < t → |∫ ω in (-Real.pi)..Real.pi, G ω * P ω| ≤ Real.pi * M * (t + e / t) := by
    intro t ht
    have b1 : |∫ ω in (-Real.pi)..Real.pi, G ω * P ω| ≤
        ∫ ω in (-Real.pi)..Real.pi, (M * t / 2 + M / (2 * t) * (P ω ^ 2 + Q ω ^ 2)) := by
      refine (intervalIntegral.abs_integral_le_integral_abs (by linarith)).trans ?_
      refine intervalIntegral.integral_mono_on (by linarith) (Continuous.intervalIntegrable (by fun_prop) _ _)
        (Continuous.intervalIntegrable (by fun_prop) _ _) fun ω _ => ?_
      rw [abs_mul]
      have c1 : |G ω| * |P ω| ≤ M * |P ω| := mul_le_mul_of_nonneg_right (hM ω) (abs_nonneg _)
      have c2 : |P ω| ≤ t / 2 + 1 / (2 * t) * (P ω ^ 2 + Q ω ^ 2) := by
        have d1 : 0 ≤ (|P ω| - t) ^ 2 / (2 * t) := by positivity
        have d2 : 0 ≤ Q ω ^ 2 / (2 * t) := by positivity
        have d3 : (|P ω| - t) ^ 2 / (2 * t) = 1 / (2 * t) * P ω ^ 2 + t / 2 - |P ω| := by
          rw [sub_sq, sq_abs]; field_simp; ring
        have d4 : 1 / (2 * t) * (P ω ^ 2 + Q ω ^ 2) = 1 / (2 * t) * P ω ^ 2 + Q ω ^ 2 / (2 * t) := by ring
        linarith
      have c3 := mul_le_mul_of_nonneg_left c2 hM0
      have c4 : M * (t / 2 + 1 / (2 * t) * (P ω ^ 2 + Q ω ^ 2)) = M * t / 2 + M / (2 * t) * (P ω ^ 2 + Q ω ^ 2) := by ring
      linarith
    rw [intervalIntegral.integral_add (Continuous.intervalIntegrable (by fun_prop) _ _)
      (Continuous.intervalIntegrable (by fun_prop) _ _), intervalIntegral.integral_const,
      intervalIntegral.integral_const_mul, pars, smul_eq_mul] at b1
    refine b1.trans (le_of_eq ?_)
    field_simp
    ring
  rcases he0.eq_or_lt with h | h
  · rw [← h, Real.sqrt_zero, mul_zero, mul_zero]
    refine le_of_forall_pos_le_add fun ε hε => ?_
    have hq : 0 < ε / (Real.pi * M + 1) := by positivity
    have := key _ hq
    rw [← h, zero_div, add_zero] at this
    refine this.trans ?_
    rw [zero_add, mul_div_assoc', div_le_iff₀ (by positivity)]
    nlinarith
  · have := key (√e) (Real.sqrt_pos.mpr h)
    rw [Real.div_sqrt] at this
    refine this.trans (le_of_eq ?_)
    ring

end SciRs

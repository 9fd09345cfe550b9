import Mathlib.Analysis.Fourier.AddCircle
import Mathlib.Topology.ContinuousMap.Bounded.Normed

/-! Helper lemmas: the energy of a sequence and the size of its Fourier series. -/

namespace SciRs

open MeasureTheory AddCircle Complex

instance fact_two_pi : Fact (0 < 2 * Real.pi) := ⟨Real.two_pi_pos⟩

theorem fourier_two_pi (n : ℕ) (θ : ℝ) :
    fourier (T := 2 * Real.pi) n (θ : AddCircle (2 * Real.pi)) = exp (I * θ) ^ n := by
  rw [fourier_coe_apply, ← exp_nat_mul]
  congr 1
  have : (Real.pi : ℂ) ≠ 0 := ofReal_ne_zero.mpr Real.pi_ne_zero
  push_cast
  field_simp

/-- A bound of one Fourier series by another bounds the energy of its coefficients. -/
theorem energy_le {y : ℕ → ℝ} (hy : Summable fun n => |y n|) (x : ℕ → ℝ) (L : ℕ) {M : ℝ} (hM : 0 ≤ M)
    (h : ∀ θ : ℝ, ‖∑' n, (y n : ℂ) * exp (I * θ) ^ n‖ ≤
      M * ‖∑ n ∈ Finset.range L, (x n : ℂ) * exp (I * θ) ^ n‖) (N : ℕ) :
    ∑ n ∈ Finset.range N, y n ^ 2 ≤ M ^ 2 * ∑ n ∈ Finset.range L, x n ^ 2 := by
  have hY : Summable fun n : ℕ => (y n : ℂ) • (fourier (T := 2 * Real.pi) n) :=
    Summable.of_norm (by simpa [norm_smul, fourier_norm] using hy)
  obtain ⟨F, hF⟩ := hY
  obtain ⟨G, hG⟩ : ∃ G : C(AddCircle (2 * Real.pi), ℂ),
      G = ∑ n ∈ Finset.range L, (x n : ℂ) • (fourier (T := 2 * Real.pi) n) := ⟨_, rfl⟩
  have hev : ∀ t, ‖F t‖ ≤ M * ‖G t‖ := by
    intro t
    induction t using QuotientAddGroup.induction_on with
    | H θ =>
      have h1 : HasSum (fun n : ℕ => (y n : ℂ) * exp (I * θ) ^ n) (F (θ : AddCircle (2 * Real.pi))) := by
        have := hF.mapL (ContinuousMap.evalCLM ℂ (θ : AddCircle (2 * Real.pi)))
        convert this using 1
        · funext n
          change _ = (y n : ℂ) * fourier (T := 2 * Real.pi) n (θ : AddCircle (2 * Real.pi))
          rw [fourier_two_pi]
        · rfl
      have h2 : G (θ : AddCircle (2 * Real.pi)) = ∑ n ∈ Finset.range L, (x n : ℂ) * exp (I * θ) ^ n := by
        rw [hG, ContinuousMap.sum_apply]
        refine Finset.sum_congr rfl fun n _ => ?_
        change (x n : ℂ) * fourier (T := 2 * Real.pi) n (θ : AddCircle (2 * Real.pi)) = _
        rw [fourier_two_pi]
      have := h θ
      rw [h1.tsum_eq, ← h2] at this
      exact this
  obtain ⟨tl, htl⟩ : ∃ tl, tl = ContinuousMap.toLp (E := ℂ) 2 (haarAddCircle (T := 2 * Real.pi)) ℂ := ⟨_, rfl⟩
  have hle : ‖tl F‖ ≤ M * ‖tl G‖ := by
    refine Lp.norm_le_mul_norm_of_ae_le_mul ?_
    rw [htl]
    filter_upwards [ContinuousMap.coeFn_toLp (p := 2) (𝕜 := ℂ) (haarAddCircle (T := 2 * Real.pi)) F,
      ContinuousMap.coeFn_toLp (p := 2) (𝕜 := ℂ) (haarAddCircle (T := 2 * Real.pi)) G] with t h1 h2
    rw [h1, h2]
    exact hev t
  have ho : Orthonormal ℂ (fun n : ℕ => fourierLp (T := 2 * Real.pi) 2 (n : ℤ)) :=
    orthonormal_fourier.comp _ Nat.cast_injective
  have hFl : HasSum (fun n : ℕ => (y n : ℂ) • fourierLp (T := 2 * Real.pi) 2 (n : ℤ)) (tl F) := by
    convert hF.mapL tl using 1
    funext n
    rw [map_smul, htl]
  have hGl : tl G = ∑ n ∈ Finset.range L, (x n : ℂ) • fourierLp (T := 2 * Real.pi) 2 (n : ℤ) := by
    rw [hG, map_sum]
    exact Finset.sum_congr rfl fun n _ => by rw [map_smul, htl]
  have hin : ∀ m : ℕ, inner ℂ (fourierLp (T := 2 * Real.pi) 2 (m : ℤ)) (tl F) = (y m : ℂ) := by
    intro m
    have h1 := hFl.mapL (innerSL ℂ (fourierLp (T := 2 * Real.pi) 2 (m : ℤ)))
    refine h1.unique ?_
    have h2 : (fun n : ℕ => innerSL ℂ (fourierLp (T := 2 * Real.pi) 2 (m : ℤ))
        ((y n : ℂ) • fourierLp (T := 2 * Real.pi) 2 (n : ℤ))) = fun n => if n = m then (y m : ℂ) else 0 := by
      funext n
      rw [innerSL_apply_apply, inner_smul_right, orthonormal_iff_ite.mp ho m n]
      by_cases hnm : n = m
      · simp [hnm]
      · simp [hnm, Ne.symm hnm]
    rw [h2]
    exact hasSum_ite_eq m _
  have hbes := ho.sum_inner_products_le (x := tl F) (s := Finset.range N)
  simp only [hin, norm_real, Real.norm_eq_abs, sq_abs] at hbes
  have hGn : ‖tl G‖ ^ 2 = ∑ n ∈ Finset.range L, x n ^ 2 := by
    have := ho.inner_sum (fun n => (x n : ℂ)) (fun n => (x n : ℂ)) (Finset.range L)
    rw [← hGl, inner_self_eq_norm_sq_to_K] at this
    have h2 : ((‖tl G‖ ^ 2 : ℝ) : ℂ) = ((∑ n ∈ Finset.range L, x n ^ 2 : ℝ) : ℂ) := by
      push_cast
      rw [show ((‖tl G‖ : ℝ) : ℂ) ^ 2 = _ from this]
      refine Finset.sum_congr rfl fun n _ => ?_
      rw [conj_ofReal, sq]
    exact ofReal_injective h2
  calc _ ≤ ‖tl F‖ ^ 2 := hbes
    _ ≤ (M * ‖tl G‖) ^ 2 := pow_le_pow_left₀ (norm_nonneg _) hle 2
    _ = _ := by rw [mul_pow, hGn]

/-- Parseval's identity for an absolutely summable sequence. -/
theorem parseval {y : ℕ → ℝ} (hy : Summable fun n => |y n|) :
    ∃ F : C(AddCircle (2 * Real.pi), ℂ),
      (∀ θ : ℝ, F (θ : AddCircle (2 * Real.pi)) = ∑' n, (y n : ℂ) * exp (I * θ) ^ n) ∧
      HasSum (fun n => y n ^ 2) (∫ t, ‖F t‖ ^ 2 ∂(haarAddCircle (T := 2 * Real.pi))) := by
  have hY : Summable fun n : ℕ => (y n : ℂ) • (fourier (T := 2 * Real.pi) n) :=
    Summable.of_norm (by simpa [norm_smul, fourier_norm] using hy)
  obtain ⟨F, hF⟩ := hY
  refine ⟨F, fun θ => ?_, ?_⟩
  · have h1 : HasSum (fun n : ℕ => (y n : ℂ) * exp (I * θ) ^ n) (F (θ : AddCircle (2 * Real.pi))) := by
      have := hF.mapL (ContinuousMap.evalCLM ℂ (θ : AddCircle (2 * Real.pi)))
      convert this using 1
      · funext n
        change _ = (y n : ℂ) * fourier (T := 2 * Real.pi) n (θ : AddCircle (2 * Real.pi))
        rw [fourier_two_pi]
      · rfl
    exact h1.tsum_eq.symm
  obtain ⟨tl, htl⟩ : ∃ tl, tl = ContinuousMap.toLp (E := ℂ) 2 (haarAddCircle (T := 2 * Real.pi)) ℂ := ⟨_, rfl⟩
  have ho : Orthonormal ℂ (fun n : ℕ => fourierLp (T := 2 * Real.pi) 2 (n : ℤ)) :=
    orthonormal_fourier.comp _ Nat.cast_injective
  have hFl : HasSum (fun n : ℕ => (y n : ℂ) • fourierLp (T := 2 * Real.pi) 2 (n : ℤ)) (tl F) := by
    convert hF.mapL tl using 1
    funext n
    rw [map_smul, htl]
  have hin : ∀ m : ℕ, inner ℂ (fourierLp (T := 2 * Real.pi) 2 (m : ℤ)) (tl F) = (y m : ℂ) := by
    intro m
    have h1 := hFl.mapL (innerSL ℂ (fourierLp (T := 2 * Real.pi) 2 (m : ℤ)))
    refine h1.unique ?_
    have h2 : (fun n : ℕ => innerSL ℂ (fourierLp (T := 2 * Real.pi) 2 (m : ℤ))
        ((y n : ℂ) • fourierLp (T := 2 * Real.pi) 2 (n : ℤ))) = fun n => if n = m then (y m : ℂ) else 0 := by
      funext n
      rw [innerSL_apply_apply, inner_smul_right, orthonormal_iff_ite.mp ho m n]
      by_cases hnm : n = m
      · simp [hnm]
      · simp [hnm, Ne.symm hnm]
    rw [h2]
    exact hasSum_ite_eq m _
  have h3 : HasSum (fun n : ℕ => ((y n ^ 2 : ℝ) : ℂ)) (inner ℂ (tl F) (tl F)) := by
    have e : (fun n : ℕ => ((y n ^ 2 : ℝ) : ℂ)) = fun n : ℕ =>
        innerSL ℂ (tl F) ((y n : ℂ) • fourierLp (T := 2 * Real.pi) 2 (n : ℤ)) := ?_
    · rw [e]
      exact hFl.mapL (innerSL ℂ (tl F))
    funext n
    rw [innerSL_apply_apply, inner_smul_right, ← inner_conj_symm, hin, conj_ofReal]
    push_cast
    ring
  have h4 : inner ℂ (tl F) (tl F) = ((∫ t, ‖F t‖ ^ 2 ∂(haarAddCircle (T := 2 * Real.pi)) : ℝ) : ℂ) := by
    rw [htl, ContinuousMap.inner_toLp]
    refine Eq.trans ?_ (integral_ofReal (𝕜 := ℂ))
    refine integral_congr_ae (Filter.Eventually.of_forall fun t => ?_)
    change F t * (starRingEnd ℂ) (F t) = _
    rw [mul_conj, normSq_eq_norm_sq]
    rfl
  rw [h4] at h3
  exact hasSum_ofReal.mp h3

/-- When the squared sizes of two Fourier series add up to that of a third, so do their energies. -/
theorem parseval_add {y z x : ℕ → ℝ} (hy : Summable fun n => |y n|) (hz : Summable fun n => |z n|)
    (hx : Summable fun n => |x n|)
    (h : ∀ θ : ℝ, ‖∑' n, (y n : ℂ) * exp (I * θ) ^ n‖ ^ 2 + ‖∑' n, (z n : ℂ) * exp (I * θ) ^ n‖ ^ 2 =
      ‖∑' n, (x n : ℂ) * exp (I * θ) ^ n‖ ^ 2) :
    HasSum (fun n => y n ^ 2 + z n ^ 2) (∑' n, x n ^ 2) := by
  obtain ⟨F, hF, sF⟩ := parseval hy
  obtain ⟨G, hG, sG⟩ := parseval hz
  obtain ⟨K, hK, sK⟩ := parseval hx
  have hint : ∀ F : C(AddCircle (2 * Real.pi), ℂ),
      Integrable (fun t => ‖F t‖ ^ 2) (haarAddCircle (T := 2 * Real.pi)) := fun F =>
    (F.continuous.norm.pow 2).integrable_of_hasCompactSupport (HasCompactSupport.of_compactSpace _)
  have e : (fun t => ‖F t‖ ^ 2 + ‖G t‖ ^ 2) = fun t => ‖K t‖ ^ 2 := by
    funext t
    induction t using QuotientAddGroup.induction_on with
    | H θ => exact (by rw [hF, hG, hK]; exact h θ)
  rw [sK.tsum_eq, ← e, integral_add (hint F) (hint G)]
  exact sF.add sG

end SciRs

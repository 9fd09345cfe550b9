import Verif.Spec.LeastSquares
import Mathlib.Analysis.InnerProductSpace.PiL2
import Mathlib.Analysis.InnerProductSpace.Projection.Minimal
import Mathlib.Topology.Algebra.Module.FiniteDimension

/-! # A least-squares solver of minimum norm exists -/

namespace SciRs.Spec

open scoped BigOperators

/-- Vectors indexed by `Fin n` from functions on the naturals. -/
noncomputable def toVec (n : ℕ) (c : ℕ → ℝ) : EuclideanSpace ℝ (Fin n) := WithLp.toLp 2 (fun j => c j)

theorem norm_toVec_sq (n : ℕ) (c : ℕ → ℝ) : ‖toVec n c‖ ^ 2 = ∑ j ∈ Finset.range n, c j ^ 2 := by
  rw [EuclideanSpace.norm_sq_eq, Finset.sum_range]
  exact Finset.sum_congr rfl (fun j _ => by simp [toVec])

/-- The matrix as a linear map. -/
noncomputable def mat (m n : ℕ) (A : ℕ → ℕ → ℝ) : EuclideanSpace ℝ (Fin n) →ₗ[ℝ] EuclideanSpace ℝ (Fin m) where
  toFun c := WithLp.toLp 2 (fun i => ∑ j : Fin n, A i j * c j)
  map_add' x y := by
    ext i; simp [mul_add, Finset.sum_add_distrib]
  map_smul' r x := by
    ext i; simp [Finset.mul_sum]; exact Finset.sum_congr rfl (fun j _ => by ring)

theorem residual_eq (m n : ℕ) (A : ℕ → ℕ → ℝ) (b c : ℕ → ℝ) :
    residual m n A b c = ‖toVec m b - mat m n A (toVec n c)‖ ^ 2 := by
  rw [EuclideanSpace.norm_sq_eq, residual, Finset.sum_range]
  refine Finset.sum_congr rfl (fun i _ => ?_)
  simp only [mat, toVec, PiLp.sub_apply, LinearMap.coe_mk, AddHom.coe_mk, Real.norm_eq_abs, sq_abs]
  rw [Finset.sum_range]
  ring

theorem exists_solution (m n : ℕ) (A : ℕ → ℕ → ℝ) (b : ℕ → ℝ) :
    ∃ l : List ℝ, l.length = n ∧
      (∀ c, residual m n A b (fun j => l.getD j 0) ≤ residual m n A b c) ∧
      ∀ c, (∀ c', residual m n A b c ≤ residual m n A b c') →
        ∑ j ∈ Finset.range n, l.getD j 0 ^ 2 ≤ ∑ j ∈ Finset.range n, c j ^ 2 := by
  let K := LinearMap.range (mat m n A)
  obtain ⟨v, hvK, hv⟩ := K.exists_norm_eq_iInf_of_complete_subspace
    (Submodule.complete_of_finiteDimensional K) (toVec m b)
  have hbdd : ∀ u : EuclideanSpace ℝ (Fin m),
      BddBelow (Set.range (fun w : (K : Set (EuclideanSpace ℝ (Fin m))) => ‖u - w‖)) :=
    fun u => ⟨0, by rintro _ ⟨w, rfl⟩; exact norm_nonneg _⟩
  have hmin : ∀ w ∈ K, ‖toVec m b - v‖ ≤ ‖toVec m b - w‖ := by
    intro w hw
    rw [hv]
    exact ciInf_le (hbdd _) ⟨w, hw⟩
  let S : Set (EuclideanSpace ℝ (Fin n)) := {c | mat m n A c = v}
  have hSne : S.Nonempty := hvK
  have hSc : IsComplete S := by
    apply IsClosed.isComplete
    have hcont : Continuous (mat m n A) := LinearMap.continuous_of_finiteDimensional _
    exact isClosed_singleton.preimage hcont
  have hSconv : Convex ℝ S := by
    intro x hx y hy s t _ _ hst
    show mat m n A _ = v
    rw [map_add, map_smul, map_smul, show mat m n A x = v from hx, show mat m n A y = v from hy,
      ← add_smul, hst, one_smul]
  obtain ⟨z, hzS, hz⟩ := exists_norm_eq_iInf_of_complete_convex hSne hSc hSconv 0
  have hzmin : ∀ w ∈ S, ‖z‖ ≤ ‖w‖ := by
    intro w hw
    have : ‖(0 : EuclideanSpace ℝ (Fin n)) - z‖ ≤ ‖(0 : EuclideanSpace ℝ (Fin n)) - w‖ := by
      rw [hz]
      exact ciInf_le ⟨0, by rintro _ ⟨w, rfl⟩; exact norm_nonneg _⟩ (⟨w, hw⟩ : S)
    simpa using this
  have hget : toVec n (fun j => (List.ofFn z).getD j 0) = z := by
    ext j
    simp [toVec, List.getD_eq_getElem?_getD]
  refine ⟨List.ofFn z, by simp, fun c => ?_, fun c hc => ?_⟩
  · rw [residual_eq, residual_eq, hget, show mat m n A z = v from hzS]
    exact pow_le_pow_left₀ (norm_nonneg _) (hmin _ ⟨_, rfl⟩) 2
  · rw [← norm_toVec_sq, ← norm_toVec_sq, hget]
    refine pow_le_pow_left₀ (norm_nonneg _) (hzmin _ ?_) 2
    show mat m n A (toVec n c) = v
    -- the minimiser in the range is unique
    have h1 : ‖toVec m b - mat m n A (toVec n c)‖ ≤ ‖toVec m b - v‖ := by
      have h := hc (fun j => (List.ofFn z).getD j 0)
      rw [residual_eq, residual_eq, hget, show mat m n A z = v from hzS] at h
      exact (pow_le_pow_iff_left₀ (norm_nonneg _) (norm_nonneg _) two_ne_zero).mp h
    have h2 := hmin ((1 / 2 : ℝ) • (mat m n A (toVec n c) + v))
      (K.smul_mem _ (K.add_mem ⟨_, rfl⟩ hvK))
    set p := toVec m b - mat m n A (toVec n c) with hp
    set q := toVec m b - v with hq
    have h3 : toVec m b - (1 / 2 : ℝ) • (mat m n A (toVec n c) + v) = (1 / 2 : ℝ) • (p + q) := by
      rw [hp, hq]; module
    rw [h3, norm_smul] at h2
    have hpar := parallelogram_law_with_norm ℝ p q
    have h4 : ‖p + q‖ * ‖p + q‖ ≥ 4 * (‖q‖ * ‖q‖) := by
      have : ‖q‖ * 2 ≤ ‖p + q‖ := by
        have : ‖(1 / 2 : ℝ)‖ = 1 / 2 := by norm_num
        rw [this] at h2; linarith
      nlinarith [norm_nonneg q]
    have h5 : ‖p - q‖ * ‖p - q‖ ≤ 0 := by nlinarith [norm_nonneg p, norm_nonneg q]
    have h6 : ‖p - q‖ = 0 := by nlinarith [norm_nonneg (p - q)]
    have h7 : p - q = 0 := norm_eq_zero.mp h6
    rw [hp, hq] at h7
    have : v - mat m n A (toVec n c) = 0 := by rw [← h7]; abel
    exact (sub_eq_zero.mp this).symm

/-- The assumption made about the external solver can be met. -/
theorem exists_minimumNorm_solver : ∃ solve, SolvesMinimumNorm solve := by
  choose s h1 h2 h3 using exists_solution
  exact ⟨s, fun m n A b => ⟨h1 m n A b, h2 m n A b⟩, h3⟩

end SciRs.Spec

import Verif.Spec.BesselI0
import Mathlib.Analysis.Calculus.SmoothSeries
import Mathlib.Analysis.SpecialFunctions.Exponential
import Mathlib.Analysis.SpecialFunctions.Exp
import Mathlib.Analysis.Complex.Exponential
import Mathlib.Analysis.Calculus.MeanValue
import Mathlib.Analysis.Calculus.Deriv.Mul
import Mathlib.Analysis.Calculus.Deriv.Pow
import Mathlib.Analysis.Calculus.Deriv.Inv
import Mathlib.Analysis.Calculus.Deriv.Comp
import Mathlib.Analysis.SpecialFunctions.ExpDeriv
import Mathlib.Tactic.Ring
import Mathlib.Tactic.Linarith
import Mathlib.Tactic.NormNum
import Mathlib.Tactic.FieldSimp
import Mathlib.Tactic.Positivity

/-!
# Power series with coefficients bounded like `C R^k / k!`, and the series of `exp (-x) I₀(x)`
-/

namespace SciRs.Bessel

open SciRs.Spec Filter Topology

/-- `∑ c_k x^k`. -/
noncomputable def powSer (c : ℕ → ℝ) (x : ℝ) : ℝ := ∑' k, c k * x ^ k

/-- The coefficients are bounded like those of `C exp (R x)`. -/
def Ent (C R : ℝ) (c : ℕ → ℝ) : Prop := 0 ≤ R ∧ ∀ k, |c k| ≤ C * (R ^ k / (Nat.factorial k : ℝ))

/-- The coefficients of the derivative. -/
def dcoef (c : ℕ → ℝ) : ℕ → ℝ := fun k => ((k : ℝ) + 1) * c (k + 1)

theorem Ent.dcoef {C R : ℝ} {c : ℕ → ℝ} (h : Ent C R c) : Ent (C * R) R (dcoef c) := by
  refine ⟨h.1, fun k => ?_⟩
  have hk : (0 : ℝ) < (k : ℝ) + 1 := by positivity
  rw [Bessel.dcoef, abs_mul, abs_of_pos hk]
  refine (mul_le_mul_of_nonneg_left (h.2 (k + 1)) hk.le).trans (le_of_eq ?_)
  rw [Nat.factorial_succ]
  push_cast
  have hf : (Nat.factorial k : ℝ) ≠ 0 := by positivity
  field_simp
  ring

theorem summable_bound (C R x : ℝ) : Summable (fun k : ℕ => C * ((R * |x|) ^ k / (Nat.factorial k : ℝ))) :=
  (Real.summable_pow_div_factorial _).mul_left C

theorem Ent.term_le {C R : ℝ} {c : ℕ → ℝ} (h : Ent C R c) (x : ℝ) (k : ℕ) :
    |c k * x ^ k| ≤ C * ((R * |x|) ^ k / (Nat.factorial k : ℝ)) := by
  rw [abs_mul, abs_pow]
  refine (mul_le_mul_of_nonneg_right (h.2 k) (by positivity)).trans (le_of_eq ?_)
  rw [mul_pow]; ring

theorem Ent.summable {C R : ℝ} {c : ℕ → ℝ} (h : Ent C R c) (x : ℝ) : Summable (fun k => c k * x ^ k) :=
  Summable.of_norm_bounded (summable_bound C R x) (fun k => h.term_le x k)

theorem Ent.hasDerivAt {C R : ℝ} {c : ℕ → ℝ} (h : Ent C R c) (x : ℝ) :
    HasDerivAt (powSer c) (powSer (Bessel.dcoef c) x) x := by
  set B : ℝ := |x| + 1 with hB
  have hB0 : 0 ≤ B := by positivity
  have hd := h.dcoef
  -- a bound for the derivatives on the ball of radius `B`
  let u : ℕ → ℝ := fun k => match k with
    | 0 => 0
    | k + 1 => C * R * ((R * B) ^ k / (Nat.factorial k : ℝ))
  have hu : Summable u := by
    rw [← summable_nat_add_iff 1]
    have := summable_bound (C * R) R B
    rwa [abs_of_nonneg hB0] at this
  have key := hasDerivAt_tsum_of_isPreconnected (𝕜 := ℝ) (F := ℝ) (u := u)
    (g := fun k y => c k * y ^ k) (g' := fun k y => c k * ((k : ℝ) * y ^ (k - 1)))
    (t := Metric.ball (0 : ℝ) B) (y₀ := x) (y := x) hu Metric.isOpen_ball
    (convex_ball (0 : ℝ) B).isPreconnected
    (fun k y _ => (hasDerivAt_pow k y).const_mul (c k))
    (fun k y hy => by
      rcases k with _ | k
      · simp [u]
      · have hy' : |y| ≤ B := by
          have := mem_ball_zero_iff.mp hy
          exact this.le
        have h1 := hd.term_le y k
        have h2 : C * R * ((R * |y|) ^ k / (Nat.factorial k : ℝ)) ≤ u (k + 1) := by
          have hC : 0 ≤ C * R := by
            have := hd.2 0
            simp at this
            exact (abs_nonneg _).trans this
          apply mul_le_mul_of_nonneg_left _ hC
          apply div_le_div_of_nonneg_right _ (by positivity)
          exact pow_le_pow_left₀ (mul_nonneg h.1 (abs_nonneg _)) (mul_le_mul_of_nonneg_left hy' h.1) k
        refine le_trans (le_of_eq ?_) (h1.trans h2)
        rw [Real.norm_eq_abs, Bessel.dcoef]
        congr 1
        push_cast
        ring)
    (by rw [mem_ball_zero_iff, Real.norm_eq_abs]; linarith) (h.summable x)
    (by rw [mem_ball_zero_iff, Real.norm_eq_abs]; linarith)
  have hs : Summable (fun k => c k * ((k : ℝ) * x ^ (k - 1))) := by
    rw [← summable_nat_add_iff 1]
    refine (hd.summable x).congr (fun k => ?_)
    rw [Bessel.dcoef]; push_cast; ring
  have he : ∑' k, c k * ((k : ℝ) * x ^ (k - 1)) = powSer (Bessel.dcoef c) x := by
    rw [hs.tsum_eq_zero_add]
    simp only [Nat.cast_zero, zero_mul, mul_zero, zero_add]
    unfold powSer
    refine tsum_congr (fun k => ?_)
    rw [Bessel.dcoef]; push_cast; ring
  rw [he] at key
  exact key

/-- Truncation: the first `N` terms. -/
theorem Ent.tail {C R : ℝ} {c : ℕ → ℝ} (h : Ent C R c) (x : ℝ) (N : ℕ)
    (hN : R * |x| / (N + 1) ≤ 1 / 2) :
    |powSer c x - ∑ k ∈ Finset.range N, c k * x ^ k| ≤
      C * ((R * |x|) ^ N / (Nat.factorial N : ℝ) * 2) := by
  set y : ℝ := R * |x| with hy
  have hy0 : 0 ≤ y := mul_nonneg h.1 (abs_nonneg _)
  have hC : 0 ≤ C := by
    have := h.2 0
    simp at this
    exact (abs_nonneg _).trans this
  have hs := h.summable x
  have hb := summable_bound C R x
  rw [powSer, ← hs.sum_add_tsum_nat_add N, add_sub_cancel_left]
  have hb' : Summable (fun k : ℕ => C * (y ^ (k + N) / (Nat.factorial (k + N) : ℝ))) :=
    (summable_nat_add_iff N).mpr hb
  have h1 : |∑' k, c (k + N) * x ^ (k + N)| ≤
      ∑' k : ℕ, C * (y ^ (k + N) / (Nat.factorial (k + N) : ℝ)) := by
    have := tsum_of_norm_bounded (f := fun k => c (k + N) * x ^ (k + N)) hb'.hasSum
      (fun k => h.term_le x (k + N))
    rwa [Real.norm_eq_abs] at this
  refine h1.trans ?_
  have hexp : HasSum (fun k : ℕ => y ^ k / (Nat.factorial k : ℝ)) (Real.exp y) := by
    rw [Real.exp_eq_exp_ℝ]
    exact NormedSpace.expSeries_div_hasSum_exp y
  have h2 : ∑' k : ℕ, (y ^ (k + N) / (Nat.factorial (k + N) : ℝ)) =
      Real.exp y - ∑ k ∈ Finset.range N, y ^ k / (Nat.factorial k : ℝ) := by
    have := hexp.summable.sum_add_tsum_nat_add N
    rw [hexp.tsum_eq] at this
    linarith
  rw [tsum_mul_left, h2]
  apply mul_le_mul_of_nonneg_left _ hC
  have hcb := Complex.exp_bound' (x := (y : ℂ)) (n := N) (by
    rw [Complex.norm_real, Real.norm_eq_abs, abs_of_nonneg hy0]
    push_cast
    exact hN)
  rw [Complex.norm_real, Real.norm_eq_abs, abs_of_nonneg hy0] at hcb
  have h3 : Complex.exp (y : ℂ) - ∑ m ∈ Finset.range N, (y : ℂ) ^ m / (Nat.factorial m : ℂ) =
      ((Real.exp y - ∑ k ∈ Finset.range N, y ^ k / (Nat.factorial k : ℝ) : ℝ) : ℂ) := by
    push_cast; rfl
  rw [h3, Complex.norm_real, Real.norm_eq_abs] at hcb
  exact (le_abs_self _).trans hcb

end SciRs.Bessel

import Verif.Lemmas.Bessel.Series

/-!
# `exp (-x) I₀(x)` as a power series, and its differential equation
-/

namespace SciRs.Bessel

open SciRs.Spec

/-- The coefficients of `exp (-x) I₀(x)`. -/
def eCoef : ℕ → ℚ
  | 0 => 1
  | k + 1 => -((2 * k + 1 : ℕ) : ℚ) / (((k + 1) ^ 2 : ℕ) : ℚ) * eCoef k

/-- The same coefficients as real numbers. -/
noncomputable def eC (k : ℕ) : ℝ := (eCoef k : ℝ)

theorem eC_zero : eC 0 = 1 := by simp [eC, eCoef]

theorem eC_succ (k : ℕ) : ((k : ℝ) + 1) ^ 2 * eC (k + 1) = -(2 * k + 1) * eC k := by
  unfold eC
  rw [eCoef]
  push_cast
  have : ((k : ℝ) + 1) ≠ 0 := by positivity
  field_simp

theorem ent_eC : Ent 1 2 eC := by
  refine ⟨by norm_num, fun k => ?_⟩
  induction k with
  | zero => simp [eC_zero]
  | succ k ih =>
    have hk : (0 : ℝ) < (k : ℝ) + 1 := by positivity
    have h1 : eC (k + 1) = -(2 * k + 1) / ((k : ℝ) + 1) ^ 2 * eC k := by
      have := eC_succ k
      field_simp
      linarith
    rw [h1, abs_mul, abs_div, abs_neg, abs_of_pos (by positivity : (0 : ℝ) < 2 * k + 1),
      abs_of_pos (by positivity : (0 : ℝ) < ((k : ℝ) + 1) ^ 2)]
    have h2 : (2 * (k : ℝ) + 1) / ((k : ℝ) + 1) ^ 2 ≤ 2 / ((k : ℝ) + 1) := by
      rw [div_le_div_iff₀ (by positivity) hk]
      nlinarith
    refine (mul_le_mul h2 ih (abs_nonneg _) (by positivity)).trans (le_of_eq ?_)
    rw [Nat.factorial_succ]
    push_cast
    field_simp
    ring

/-- `exp (-x) I₀(x)` by its series. -/
noncomputable def eFun : ℝ → ℝ := powSer eC
/-- Its derivative. -/
noncomputable def eFun' : ℝ → ℝ := powSer (dcoef eC)
/-- Its second derivative. -/
noncomputable def eFun'' : ℝ → ℝ := powSer (dcoef (dcoef eC))

theorem eFun_deriv (x : ℝ) : HasDerivAt eFun (eFun' x) x := ent_eC.hasDerivAt x
theorem eFun'_deriv (x : ℝ) : HasDerivAt eFun' (eFun'' x) x := ent_eC.dcoef.hasDerivAt x

/-- Multiplication by `x` shifts the coefficients. -/
theorem mul_powSer {C R : ℝ} {c : ℕ → ℝ} (h : Ent C R c) (x : ℝ) :
    x * powSer (dcoef c) x = ∑' k : ℕ, (k : ℝ) * c k * x ^ k := by
  have hs : Summable (fun k : ℕ => (k : ℝ) * c k * x ^ k) := by
    rw [← summable_nat_add_iff 1]
    refine ((h.dcoef.summable x).mul_left x).congr (fun k => ?_)
    rw [dcoef]; push_cast; ring
  rw [hs.tsum_eq_zero_add]
  simp only [Nat.cast_zero, zero_mul, zero_add]
  rw [powSer, ← tsum_mul_left]
  refine tsum_congr (fun k => ?_)
  rw [dcoef]; push_cast; ring

theorem summable_mul {C R : ℝ} {c : ℕ → ℝ} (h : Ent C R c) (x : ℝ) :
    Summable (fun k : ℕ => (k : ℝ) * c k * x ^ k) := by
  rw [← summable_nat_add_iff 1]
  refine ((h.dcoef.summable x).mul_left x).congr (fun k => ?_)
  rw [dcoef]; push_cast; ring

theorem eFun_ode (x : ℝ) : x * eFun'' x + eFun' x + 2 * (x * eFun' x) + eFun x = 0 := by
  unfold eFun'' eFun' eFun
  rw [mul_powSer ent_eC.dcoef, mul_powSer ent_eC, powSer, powSer, ← tsum_mul_left,
    ← (summable_mul ent_eC.dcoef x).tsum_add (ent_eC.dcoef.summable x),
    ← ((summable_mul ent_eC.dcoef x).add (ent_eC.dcoef.summable x)).tsum_add
      ((summable_mul ent_eC x).mul_left 2),
    ← (((summable_mul ent_eC.dcoef x).add (ent_eC.dcoef.summable x)).add
      ((summable_mul ent_eC x).mul_left 2)).tsum_add (ent_eC.summable x)]
  rw [← tsum_zero (α := ℝ) (β := ℕ)]
  refine tsum_congr (fun k => ?_)
  have := eC_succ k
  rw [dcoef]
  linear_combination x ^ k * this

/-- The coefficients of `∑ t^k / (k!)²`. -/
noncomputable def gC (k : ℕ) : ℝ := 1 / (Nat.factorial k : ℝ) ^ 2

theorem gC_succ (k : ℕ) : ((k : ℝ) + 1) ^ 2 * gC (k + 1) = gC k := by
  unfold gC
  rw [Nat.factorial_succ]
  push_cast
  have h1 : ((k : ℝ) + 1) ≠ 0 := by positivity
  have h2 : (Nat.factorial k : ℝ) ≠ 0 := by positivity
  field_simp

theorem ent_gC : Ent 1 1 gC := by
  refine ⟨by norm_num, fun k => ?_⟩
  unfold gC
  rw [abs_of_pos (by positivity), one_pow, one_mul]
  have h2 : (1 : ℝ) ≤ Nat.factorial k := by exact_mod_cast Nat.factorial_pos k
  apply div_le_div_of_nonneg_left (by norm_num) (by positivity)
  nlinarith

/-- `∑ t^k / (k!)²` and its derivatives. -/
noncomputable def gFun : ℝ → ℝ := powSer gC
noncomputable def gFun' : ℝ → ℝ := powSer (dcoef gC)
noncomputable def gFun'' : ℝ → ℝ := powSer (dcoef (dcoef gC))

theorem gFun_deriv (x : ℝ) : HasDerivAt gFun (gFun' x) x := ent_gC.hasDerivAt x
theorem gFun'_deriv (x : ℝ) : HasDerivAt gFun' (gFun'' x) x := ent_gC.dcoef.hasDerivAt x

theorem gFun_ode (t : ℝ) : t * gFun'' t + gFun' t = gFun t := by
  unfold gFun'' gFun' gFun
  rw [mul_powSer ent_gC.dcoef, powSer, powSer,
    ← (summable_mul ent_gC.dcoef t).tsum_add (ent_gC.dcoef.summable t)]
  refine tsum_congr (fun k => ?_)
  have := gC_succ k
  rw [dcoef]
  linear_combination t ^ k * this

theorem besselI0_eq (x : ℝ) : besselI0 x = gFun (x ^ 2 / 4) := by
  unfold besselI0 gFun powSer gC
  exact tsum_congr (fun k => by ring)

theorem powSer_zero (c : ℕ → ℝ) : powSer c 0 = c 0 := by
  unfold powSer
  rw [tsum_eq_single 0 (fun k hk => by simp [hk])]
  simp

theorem gFun_pos {t : ℝ} (ht : 0 ≤ t) : 0 < gFun t := by
  unfold gFun powSer
  refine (ent_gC.summable t).tsum_pos (fun k => ?_) 0 ?_
  · unfold gC; positivity
  · simp [gC]

theorem besselI0_pos (x : ℝ) : 0 < besselI0 x := by
  rw [besselI0_eq]
  exact gFun_pos (by positivity)

/-- The derivative of `I₀`. -/
noncomputable def i0' (x : ℝ) : ℝ := gFun' (x ^ 2 / 4) * (x / 2)

theorem sq_deriv (x : ℝ) : HasDerivAt (fun x : ℝ => x ^ 2 / 4) (x / 2) x := by
  have := (hasDerivAt_pow 2 x).div_const 4
  refine this.congr_deriv ?_
  simp
  ring

theorem besselI0_deriv (x : ℝ) : HasDerivAt besselI0 (i0' x) x := by
  have h := (gFun_deriv (x ^ 2 / 4)).comp x (sq_deriv x)
  refine h.congr_of_eventuallyEq (Filter.Eventually.of_forall (fun y => ?_))
  exact besselI0_eq y

theorem i0'_deriv (x : ℝ) :
    HasDerivAt i0' (gFun'' (x ^ 2 / 4) * (x / 2) * (x / 2) + gFun' (x ^ 2 / 4) * (1 / 2)) x := by
  have h := (gFun'_deriv (x ^ 2 / 4)).comp x (sq_deriv x)
  exact h.mul ((hasDerivAt_id x).div_const 2)

theorem i0_ode (x : ℝ) :
    x * (gFun'' (x ^ 2 / 4) * (x / 2) * (x / 2) + gFun' (x ^ 2 / 4) * (1 / 2)) + i0' x =
      x * besselI0 x := by
  have := gFun_ode (x ^ 2 / 4)
  rw [besselI0_eq, ← this, i0']
  ring

/-- `exp x · eFun x` and its derivatives. -/
noncomputable def vFun (x : ℝ) : ℝ := Real.exp x * eFun x
noncomputable def vFun' (x : ℝ) : ℝ := Real.exp x * eFun x + Real.exp x * eFun' x
noncomputable def vFun'' (x : ℝ) : ℝ :=
  Real.exp x * eFun x + Real.exp x * eFun' x + (Real.exp x * eFun' x + Real.exp x * eFun'' x)

theorem vFun_deriv (x : ℝ) : HasDerivAt vFun (vFun' x) x := (Real.hasDerivAt_exp x).mul (eFun_deriv x)

theorem vFun'_deriv (x : ℝ) : HasDerivAt vFun' (vFun'' x) x :=
  ((Real.hasDerivAt_exp x).mul (eFun_deriv x)).add ((Real.hasDerivAt_exp x).mul (eFun'_deriv x))

theorem vFun_ode (x : ℝ) : x * vFun'' x + vFun' x = x * vFun x := by
  have := eFun_ode x
  unfold vFun'' vFun' vFun
  linear_combination Real.exp x * this

/-- The Wronskian vanishes. -/
theorem wronskian (x : ℝ) : vFun x * i0' x - vFun' x * besselI0 x = 0 := by
  have hconst : ∀ y : ℝ, y * (vFun y * i0' y - vFun' y * besselI0 y) = 0 := by
    intro y
    have hd : ∀ z : ℝ, HasDerivAt (fun y => y * (vFun y * i0' y - vFun' y * besselI0 y)) 0 z := by
      intro z
      have := (hasDerivAt_id z).mul (((vFun_deriv z).mul (i0'_deriv z)).sub
        ((vFun'_deriv z).mul (besselI0_deriv z)))
      refine this.congr_deriv ?_
      have h1 := vFun_ode z
      have h2 := i0_ode z
      simp only [id, Pi.mul_apply, Pi.sub_apply]
      linear_combination vFun z * h2 - besselI0 z * h1
    have := is_const_of_deriv_eq_zero (fun z => (hd z).differentiableAt) (fun z => (hd z).deriv) y 0
    simpa using this
  rcases eq_or_ne x 0 with rfl | hx
  · have h0 : eFun 0 = 1 := by unfold eFun; rw [powSer_zero, eC_zero]
    have h1 : eFun' 0 = -1 := by
      unfold eFun'
      rw [powSer_zero, dcoef]
      have := eC_succ 0
      rw [eC_zero] at this
      norm_num at this ⊢
      exact this
    simp [vFun', i0', h0, h1]
  · exact (mul_eq_zero.mp (hconst x)).resolve_left hx

/-- The series is that of `exp (-x) I₀(x)`. -/
theorem eFun_eq (x : ℝ) : eFun x = Real.exp (-x) * besselI0 x := by
  have hd : ∀ z : ℝ, HasDerivAt (fun z => vFun z / besselI0 z) 0 z := by
    intro z
    have := (vFun_deriv z).div (besselI0_deriv z) (besselI0_pos z).ne'
    refine this.congr_deriv ?_
    rw [div_eq_zero_iff]
    left
    have := wronskian z
    linarith
  have h := is_const_of_deriv_eq_zero (fun z => (hd z).differentiableAt) (fun z => (hd z).deriv) x 0
  have h0 : vFun 0 / besselI0 0 = 1 := by
    have e0 : eFun 0 = 1 := by unfold eFun; rw [powSer_zero, eC_zero]
    have b0 : besselI0 0 = 1 := by
      rw [besselI0_eq]; unfold gFun
      rw [show (0 : ℝ) ^ 2 / 4 = 0 by norm_num, powSer_zero]; simp [gC]
    simp [vFun, e0, b0]
  rw [h0, div_eq_one_iff_eq (besselI0_pos x).ne'] at h
  rw [← h, vFun, ← mul_assoc, ← Real.exp_add]
  simp

theorem eFun_pos (x : ℝ) : 0 < eFun x := by
  rw [eFun_eq]
  exact mul_pos (Real.exp_pos _) (besselI0_pos x)

end SciRs.Bessel

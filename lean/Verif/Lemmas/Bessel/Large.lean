import Verif.Lemmas.Bessel.Tables
import Mathlib.Analysis.SpecialFunctions.Sqrt
import Mathlib.Analysis.Calculus.Deriv.MeanValue
import Mathlib.Topology.Order.Compact

/-!
# The error for arguments above 8

`U(x) = √x exp (-x) I₀(x)` satisfies `U'' + 2 U' + U / (4 x²) = 0`.  The code's approximation `P` satisfies the
equation up to a residual whose integral is known exactly, so the difference stays bounded on `[8, ∞)`.
-/

namespace SciRs.Bessel

open Set

/-- `√x exp (-x) I₀(x)`. -/
noncomputable def uFun (x : ℝ) : ℝ := Real.sqrt x * eFun x
/-- Its derivative. -/
noncomputable def uFun' (x : ℝ) : ℝ := 1 / (2 * Real.sqrt x) * eFun x + Real.sqrt x * eFun' x

theorem uFun_deriv {x : ℝ} (hx : 0 < x) : HasDerivAt uFun (uFun' x) x :=
  (Real.hasDerivAt_sqrt hx.ne').mul (eFun_deriv x)

theorem uFun'_deriv {x : ℝ} (hx : 0 < x) :
    HasDerivAt (fun x => uFun' x + 2 * uFun x) (-uFun x / (4 * x ^ 2)) x := by
  have hs := Real.sqrt_pos.mpr hx
  have h1 : HasDerivAt (fun x => 1 / (2 * Real.sqrt x))
      (-(2 * (1 / (2 * Real.sqrt x))) / (2 * Real.sqrt x) ^ 2) x := by
    have := ((Real.hasDerivAt_sqrt hx.ne').const_mul 2).inv (by positivity)
    refine (this.congr_of_eventuallyEq (Filter.Eventually.of_forall (fun z => ?_)))
    simp
  have h2 := ((h1.mul (eFun_deriv x)).add ((Real.hasDerivAt_sqrt hx.ne').mul (eFun'_deriv x))).add
    ((uFun_deriv hx).const_mul 2)
  refine (h2.congr_of_eventuallyEq (Filter.Eventually.of_forall (fun z => rfl))).congr_deriv ?_
  have hode := eFun_ode x
  have hsq : Real.sqrt x ^ 2 = x := Real.sq_sqrt hx.le
  unfold uFun uFun'
  set s := Real.sqrt x with hs_def
  have hx2 : x = s ^ 2 := hsq.symm
  rw [hx2] at hode ⊢
  field_simp
  linear_combination 16 * s ^ 2 * hode

/-- The code's approximation of `uFun`. -/
noncomputable def pFun (x : ℝ) : ℝ := ev pB (32 / x - 2)
noncomputable def pFun' (x : ℝ) : ℝ := ev (der pB) (32 / x - 2) * (-32 / x ^ 2)
/-- An antiderivative of `pFun x / (4 x²)`. -/
noncomputable def qFun (x : ℝ) : ℝ := -1 / 128 * ev iB (32 / x - 2)

theorem w_deriv {x : ℝ} (hx : 0 < x) : HasDerivAt (fun x : ℝ => 32 / x - 2) (-32 / x ^ 2) x := by
  have h := (((hasDerivAt_inv hx.ne').const_mul 32).sub_const 2)
  refine (h.congr_of_eventuallyEq (Filter.Eventually.of_forall (fun z => ?_))).congr_deriv ?_
  · rfl
  · ring

theorem pFun_deriv {x : ℝ} (hx : 0 < x) : HasDerivAt pFun (pFun' x) x :=
  (ev_hasDerivAt pB (32 / x - 2)).comp x (w_deriv hx)

theorem qFun_deriv {x : ℝ} (hx : 0 < x) : HasDerivAt qFun (pFun x / (4 * x ^ 2)) x := by
  have h := ((iB_hasDerivAt (32 / x - 2)).comp x (w_deriv hx)).const_mul (-1 / 128 : ℝ)
  refine h.congr_deriv ?_
  unfold pFun
  field_simp
  ring

theorem sFun_eq {x : ℝ} (hx : 0 < x) : pFun' x + 2 * pFun x + qFun x = ev sB (32 / x - 2) := by
  unfold sB pFun' pFun qFun
  rw [ev_addL, ev_addL, ev_scaleL, ev_scaleL, ev_scaleL, ev_mulL]
  have : ev [4, 4, 1] (32 / x - 2) = 1024 / x ^ 2 := by
    simp only [ev]
    push_cast
    field_simp
    ring
  rw [this]
  push_cast
  ring

/-- A point of `[-2, 2]` is `2 cos θ`. -/
theorem exists_angle {w : ℝ} (h1 : -2 ≤ w) (h2 : w ≤ 2) : ∃ θ : ℝ, w = 2 * Real.cos θ :=
  ⟨Real.arccos (w / 2), by rw [Real.cos_arccos (by linarith) (by linarith)]; ring⟩

theorem w_range {x : ℝ} (hx : 8 ≤ x) : -2 ≤ 32 / x - 2 ∧ 32 / x - 2 ≤ 2 := by
  have hx0 : 0 < x := by linarith
  constructor
  · have : 0 ≤ 32 / x := by positivity
    linarith
  · have : 32 / x ≤ 4 := by rw [div_le_iff₀ hx0]; linarith
    linarith

theorem sB_near {x : ℝ} (hx : 8 ≤ x) : |ev sB (32 / x - 2) - ev sB 2| ≤ 2.75e-15 := by
  obtain ⟨θ, hθ⟩ := exists_angle (w_range hx).1 (w_range hx).2
  have h2 : ev sB 2 = (evQ sB 2 : ℝ) := by
    have := ev_cast sB 2
    push_cast at this
    exact this
  have h := abs_cev_le θ (toCheb 1 0 (addL sB [-evQ sB 2]))
  rw [cev_toCheb] at h
  push_cast at h
  rw [one_mul, add_zero, ← hθ, ev_addL] at h
  have h3 : ev [-evQ sB 2] (32 / x - 2) = -ev sB 2 := by simp [ev, h2]
  rw [h3, ← sub_eq_add_neg] at h
  refine h.trans ?_
  have hb : ((2 * absSum (toCheb 1 0 (addL sB [-evQ sB 2])) : ℚ) : ℝ) ≤ ((2.75e-15 : ℚ) : ℝ) :=
    Rat.cast_le.mpr sB_bound
  push_cast at hb
  exact hb

theorem pFun_lower {x : ℝ} (hx : 8 ≤ x) : 391 / 1000 ≤ pFun x := by
  obtain ⟨θ, hθ⟩ := exists_angle (w_range hx).1 (w_range hx).2
  unfold pFun
  rw [hθ, ev_pB, cev]
  have hb : ((391 / 1000 : ℚ) : ℝ) ≤
      ((2 * (codeCheb tableBQ).headD 0 - 2 * absSum (codeCheb tableBQ).tail : ℚ) : ℝ) :=
    Rat.cast_le.mpr pB_lower
  push_cast at hb
  rcases hc : codeCheb tableBQ with _ | ⟨c, l⟩
  · rw [hc] at hb
    norm_num [absSum] at hb
  · rw [hc] at hb
    simp only [List.headD_cons, List.tail_cons] at hb
    rw [cevFrom]
    have h := abs_le.mp (abs_cevFrom_le θ (0 + 1) l)
    simp only [Nat.cast_zero, zero_mul, Real.cos_zero]
    linarith [h.1]

/-! ### Values at 8 -/

theorem sqrt8_bounds : (r8 : ℝ) ≤ Real.sqrt 8 ∧ Real.sqrt 8 ≤ (r8 : ℝ) + 1e-29 := by
  constructor
  · apply Real.le_sqrt_of_sq_le
    norm_num [r8]
  · apply Real.sqrt_le_iff.mpr
    constructor <;> norm_num [r8]

theorem eFun8 : |eFun 8 - (e8 : ℝ)| ≤ 1e-22 := by
  have h := ent_eC.tail 8 nTrunc (by norm_num [nTrunc])
  have h2 : ∑ k ∈ Finset.range nTrunc, eC k * 8 ^ k = (e8 : ℝ) := by
    rw [e8, ← ev_cast, eList, ev_range]
    push_cast
    rfl
  rw [h2] at h
  refine h.trans ?_
  norm_num [nTrunc, Nat.factorial]

theorem der_range (c : ℕ → ℚ) (N : ℕ) (x : ℝ) :
    ev (der ((List.range (N + 1)).map c)) x = ∑ k ∈ Finset.range N, (((k : ℝ) + 1) * c (k + 1)) * x ^ k := by
  have h1 := ev_hasDerivAt ((List.range (N + 1)).map c) x
  have h2 : HasDerivAt (fun x : ℝ => ∑ k ∈ Finset.range (N + 1), (c k : ℝ) * x ^ k)
      (∑ k ∈ Finset.range (N + 1), (c k : ℝ) * ((k : ℝ) * x ^ (k - 1))) x := by
    have := HasDerivAt.sum (u := Finset.range (N + 1)) (A := fun k x => (c k : ℝ) * x ^ k)
      (A' := fun k => (c k : ℝ) * ((k : ℝ) * x ^ (k - 1))) (x := x)
      (fun k _ => (hasDerivAt_pow k x).const_mul (c k : ℝ))
    refine this.congr_of_eventuallyEq (Filter.Eventually.of_forall (fun z => ?_))
    simp
  have h3 : ev ((List.range (N + 1)).map c) = fun x : ℝ => ∑ k ∈ Finset.range (N + 1), (c k : ℝ) * x ^ k :=
    funext (fun y => ev_range c (N + 1) y)
  rw [h3] at h1
  rw [h1.unique h2, Finset.sum_range_succ']
  simp only [Nat.cast_zero, zero_mul, mul_zero, add_zero]
  refine Finset.sum_congr rfl (fun k _ => ?_)
  push_cast
  ring

theorem eFun'8 : |eFun' 8 - (e8' : ℝ)| ≤ 1e-20 := by
  have h := ent_eC.dcoef.tail 8 79 (by norm_num)
  have h2 : ∑ k ∈ Finset.range 79, dcoef eC k * 8 ^ k = (e8' : ℝ) := by
    have := der_range eCoef 79 8
    rw [e8', ← ev_cast]
    push_cast
    rw [eList, nTrunc, this]
    rfl
  rw [h2] at h
  refine h.trans ?_
  norm_num [Nat.factorial]

theorem pFun8 : pFun 8 = (p8 : ℝ) := by
  unfold pFun
  rw [p8, ← ev_cast]
  norm_num

theorem pFun'8 : pFun' 8 = (p8' : ℝ) := by
  have h := ev_cast (der pB) 2
  unfold pFun' p8'
  push_cast at h ⊢
  rw [← h]
  norm_num
  ring

theorem d8_le : |pFun 8 - uFun 8| ≤ 9.2e-18 := by
  rw [pFun8, uFun]
  have hb : ((|p8 - r8 * e8| : ℚ) : ℝ) ≤ ((9.1e-18 : ℚ) : ℝ) := Rat.cast_le.mpr d8_bound
  push_cast at hb
  obtain ⟨hr1, hr2⟩ := sqrt8_bounds
  have he := eFun8
  have he1 : ((e8 : ℚ) : ℝ) ≤ 1 := by exact_mod_cast e8_bound.2
  have he2 : 0 ≤ ((e8 : ℚ) : ℝ) := by
    have : (0 : ℚ) ≤ e8 := le_trans (by norm_num) e8_bound.1
    exact_mod_cast this
  have hrr : (r8 : ℝ) ≤ 3 := by norm_num [r8]
  have hr0 : (0 : ℝ) ≤ r8 := by norm_num [r8]
  have h1 : |Real.sqrt 8 * eFun 8 - r8 * e8| ≤ 1e-20 := by
    have hsplit : Real.sqrt 8 * eFun 8 - r8 * e8 =
        (Real.sqrt 8 - r8) * e8 + Real.sqrt 8 * (eFun 8 - e8) := by ring
    rw [hsplit]
    refine (abs_add_le _ _).trans ?_
    rw [abs_mul, abs_mul, abs_of_nonneg he2, abs_of_nonneg (Real.sqrt_nonneg 8),
      abs_of_nonneg (by linarith : (0 : ℝ) ≤ Real.sqrt 8 - r8)]
    have a1 : (Real.sqrt 8 - r8) * e8 ≤ 1e-29 * 1 :=
      mul_le_mul (by linarith) he1 he2 (by norm_num)
    have a2 : Real.sqrt 8 * |eFun 8 - e8| ≤ 4 * 1e-22 :=
      mul_le_mul (by norm_num at *; linarith) he (abs_nonneg _) (by norm_num)
    norm_num at *
    linarith
  have := abs_sub_le ((p8 : ℝ)) (r8 * e8) (Real.sqrt 8 * eFun 8)
  rw [abs_sub_comm (((r8 : ℚ) : ℝ) * e8)] at this
  norm_num at *
  linarith

theorem d8'_le : |pFun' 8 - uFun' 8 + 2 * (pFun 8 - uFun 8)| ≤ 1.403e-15 := by
  rw [pFun8, pFun'8, uFun, uFun']
  have hb : ((|p8' + 2 * p8 - r8 * (e8 / 16 + e8' + 2 * e8)| : ℚ) : ℝ) ≤ ((1.402e-15 : ℚ) : ℝ) :=
    Rat.cast_le.mpr d8'_bound
  push_cast at hb
  obtain ⟨hr1, hr2⟩ := sqrt8_bounds
  have he := eFun8
  have he' := eFun'8
  have he1 : ((e8 : ℚ) : ℝ) ≤ 1 := by exact_mod_cast e8_bound.2
  have he2 : 0 ≤ ((e8 : ℚ) : ℝ) := by
    have : (0 : ℚ) ≤ e8 := le_trans (by norm_num) e8_bound.1
    exact_mod_cast this
  have he3 : |((e8' : ℚ) : ℝ)| ≤ 1 := by exact_mod_cast e8'_bound
  have hrr : (r8 : ℝ) ≤ 3 := by norm_num [r8]
  have hr0 : (0 : ℝ) ≤ r8 := by norm_num [r8]
  have hs8 : 1 / (2 * Real.sqrt 8) = Real.sqrt 8 / 16 := by
    have h8 : Real.sqrt 8 ^ 2 = 8 := Real.sq_sqrt (by norm_num)
    have hp : 0 < Real.sqrt 8 := Real.sqrt_pos.mpr (by norm_num)
    field_simp
    linarith
  rw [hs8]
  set g : ℝ := eFun 8 / 16 + eFun' 8 + 2 * eFun 8 with hg
  set gq : ℝ := (e8 : ℝ) / 16 + e8' + 2 * e8 with hgq
  have hgg : |g - gq| ≤ 2e-20 := by
    have hsplit : g - gq = 33 / 16 * (eFun 8 - e8) + (eFun' 8 - e8') := by rw [hg, hgq]; ring
    rw [hsplit]
    refine (abs_add_le _ _).trans ?_
    rw [abs_mul, abs_of_pos (by norm_num : (0 : ℝ) < 33 / 16)]
    norm_num at *
    linarith
  have hgb : |gq| ≤ 4 := by
    rw [abs_le] at he3 ⊢
    constructor <;> rw [hgq] <;> linarith [he3.1, he3.2]
  have h1 : |Real.sqrt 8 * g - r8 * gq| ≤ 1e-19 := by
    have hsplit : Real.sqrt 8 * g - r8 * gq = (Real.sqrt 8 - r8) * gq + Real.sqrt 8 * (g - gq) := by ring
    rw [hsplit]
    refine (abs_add_le _ _).trans ?_
    rw [abs_mul, abs_mul, abs_of_nonneg (Real.sqrt_nonneg 8),
      abs_of_nonneg (by linarith : (0 : ℝ) ≤ Real.sqrt 8 - r8)]
    have a1 : (Real.sqrt 8 - r8) * |gq| ≤ 1e-29 * 4 :=
      mul_le_mul (by linarith) hgb (abs_nonneg _) (by norm_num)
    have a2 : Real.sqrt 8 * |g - gq| ≤ 4 * 2e-20 :=
      mul_le_mul (by norm_num at *; linarith) hgg (abs_nonneg _) (by norm_num)
    norm_num at *
    linarith
  have hfin : (p8' : ℝ) - (Real.sqrt 8 / 16 * eFun 8 + Real.sqrt 8 * eFun' 8) +
      2 * ((p8 : ℝ) - Real.sqrt 8 * eFun 8) =
      ((p8' : ℝ) + 2 * p8 - r8 * gq) - (Real.sqrt 8 * g - r8 * gq) := by rw [hg]; ring
  rw [hfin]
  refine (abs_sub _ _).trans ?_
  norm_num at *
  linarith

/-! ### The bound -/

/-- The error. -/
noncomputable def dFun (x : ℝ) : ℝ := pFun x - uFun x
noncomputable def dFun' (x : ℝ) : ℝ := pFun' x - uFun' x

theorem dFun_deriv {x : ℝ} (hx : 0 < x) : HasDerivAt dFun (dFun' x) x :=
  (pFun_deriv hx).sub (uFun_deriv hx)

/-- `D' + 2 D - S`. -/
noncomputable def fFun (x : ℝ) : ℝ := -(uFun' x + 2 * uFun x) - qFun x

theorem fFun_deriv {x : ℝ} (hx : 0 < x) : HasDerivAt fFun (-dFun x / (4 * x ^ 2)) x := by
  have h := (uFun'_deriv hx).neg.sub (qFun_deriv hx)
  refine h.congr_deriv ?_
  unfold dFun
  ring

theorem dFun'_eq {x : ℝ} (hx : 0 < x) : dFun' x + 2 * dFun x = ev sB (32 / x - 2) + fFun x := by
  rw [← sFun_eq hx]
  unfold dFun' dFun fFun
  ring

theorem inv_deriv (k : ℝ) {x : ℝ} (hx : 0 < x) : HasDerivAt (fun x : ℝ => k / (4 * x)) (-k / (4 * x ^ 2)) x := by
  have h := (hasDerivAt_inv hx.ne').const_mul (k / 4)
  refine (h.congr_of_eventuallyEq (Filter.Eventually.of_forall (fun z => ?_))).congr_deriv ?_
  · simp only
    rw [div_mul_eq_div_div]
    rfl
  · field_simp

theorem antitone_of_hasDerivAt {f f' : ℝ → ℝ} {X : ℝ} (h : ∀ x, 8 ≤ x → HasDerivAt f (f' x) x)
    (hle : ∀ x, 8 ≤ x → x ≤ X → f' x ≤ 0) {x : ℝ} (h8 : 8 ≤ x) (hX : x ≤ X) : f x ≤ f 8 := by
  have hanti : AntitoneOn f (Icc 8 X) := by
    apply antitoneOn_of_deriv_nonpos (convex_Icc 8 X)
    · exact fun y hy => (h y hy.1).continuousAt.continuousWithinAt
    · intro y hy
      rw [interior_Icc] at hy
      exact (h y hy.1.le).differentiableAt.differentiableWithinAt
    · intro y hy
      rw [interior_Icc] at hy
      rw [(h y hy.1.le).deriv]
      exact hle y hy.1.le hy.2.le
  exact hanti (left_mem_Icc.mpr (h8.trans hX)) ⟨h8, hX⟩ h8

theorem bound_step {X M : ℝ} (hM : ∀ x, 8 ≤ x → x ≤ X → |dFun x| ≤ M) (hM0 : 0 ≤ M) {x : ℝ} (h8 : 8 ≤ x)
    (hX : x ≤ X) : |dFun x| ≤ (2.75e-15 + 1.403e-15 + M / 32) / 2 + 9.2e-18 := by
  -- `fFun` moves by at most `M / 32`
  have hF : ∀ y, 8 ≤ y → y ≤ X → |fFun y - fFun 8| ≤ M / 32 := by
    intro y hy8 hyX
    have hy0 : 0 < y := by linarith
    have h1 := antitone_of_hasDerivAt (f := fun x => fFun x + M / (4 * x))
      (f' := fun x => -dFun x / (4 * x ^ 2) + -M / (4 * x ^ 2)) (X := X)
      (fun z hz => (fFun_deriv (by linarith)).add (inv_deriv M (by linarith)))
      (fun z hz hzX => by
        rw [← add_div]
        apply div_nonpos_of_nonpos_of_nonneg _ (by positivity)
        have := (abs_le.mp (hM z hz hzX)).1
        linarith) hy8 hyX
    have h2 := antitone_of_hasDerivAt (f := fun x => -fFun x + M / (4 * x))
      (f' := fun x => -(-dFun x / (4 * x ^ 2)) + -M / (4 * x ^ 2)) (X := X)
      (fun z hz => (fFun_deriv (by linarith)).neg.add (inv_deriv M (by linarith)))
      (fun z hz hzX => by
        rw [← neg_div, ← add_div]
        apply div_nonpos_of_nonpos_of_nonneg _ (by positivity)
        have := (abs_le.mp (hM z hz hzX)).2
        linarith) hy8 hyX
    have h3 : 0 ≤ M / (4 * y) := by positivity
    rw [abs_le]
    constructor <;> norm_num at h1 h2 ⊢ <;> linarith
  set A : ℝ := 2.75e-15 + 1.403e-15 + M / 32 with hA
  have hG : ∀ y, 8 ≤ y → y ≤ X → |dFun' y + 2 * dFun y| ≤ A := by
    intro y hy8 hyX
    have e1 := dFun'_eq (x := y) (by linarith)
    have e2 := dFun'_eq (x := 8) (by norm_num)
    have hw : (32 : ℝ) / 8 - 2 = 2 := by norm_num
    rw [hw] at e2
    have b1 := sB_near hy8
    have b2 := hF y hy8 hyX
    have b3 := d8'_le
    have : dFun' y + 2 * dFun y = (ev sB (32 / y - 2) - ev sB 2) + (fFun y - fFun 8) +
        (pFun' 8 - uFun' 8 + 2 * (pFun 8 - uFun 8)) := by
      rw [e1]
      unfold dFun' dFun at e2
      rw [e2]
      ring
    rw [this]
    refine (abs_add_le _ _).trans ((add_le_add ((abs_add_le _ _).trans (add_le_add b1 b2)) b3).trans ?_)
    rw [hA]
    linarith
  have hA0 : 0 ≤ A := by rw [hA]; positivity
  have hexp : ∀ z : ℝ, HasDerivAt (fun x : ℝ => Real.exp (2 * x)) (Real.exp (2 * z) * 2) z := by
    intro z
    have := ((hasDerivAt_id z).const_mul 2).exp
    simpa using this
  have k1 := antitone_of_hasDerivAt (f := fun x => Real.exp (2 * x) * (dFun x - A / 2))
    (f' := fun x => Real.exp (2 * x) * 2 * (dFun x - A / 2) + Real.exp (2 * x) * dFun' x) (X := X)
    (fun z hz => (hexp z).mul ((dFun_deriv (by linarith)).sub_const _))
    (fun z hz hzX => by
      have := (abs_le.mp (hG z hz hzX)).2
      have : Real.exp (2 * z) * 2 * (dFun z - A / 2) + Real.exp (2 * z) * dFun' z =
        Real.exp (2 * z) * (dFun' z + 2 * dFun z - A) := by ring
      rw [this]
      exact mul_nonpos_of_nonneg_of_nonpos (Real.exp_pos _).le (by linarith)) h8 hX
  have k2 := antitone_of_hasDerivAt (f := fun x => Real.exp (2 * x) * (-dFun x - A / 2))
    (f' := fun x => Real.exp (2 * x) * 2 * (-dFun x - A / 2) + Real.exp (2 * x) * -dFun' x) (X := X)
    (fun z hz => (hexp z).mul ((dFun_deriv (by linarith)).neg.sub_const _))
    (fun z hz hzX => by
      have := (abs_le.mp (hG z hz hzX)).1
      have : Real.exp (2 * z) * 2 * (-dFun z - A / 2) + Real.exp (2 * z) * -dFun' z =
        Real.exp (2 * z) * (-(dFun' z + 2 * dFun z) - A) := by ring
      rw [this]
      exact mul_nonpos_of_nonneg_of_nonpos (Real.exp_pos _).le (by linarith)) h8 hX
  have h88 : |dFun 8| ≤ 9.2e-18 := d8_le
  have hmono : Real.exp (2 * 8) ≤ Real.exp (2 * x) := Real.exp_le_exp.mpr (by linarith)
  have hx0 := Real.exp_pos (2 * x)
  have h80 := Real.exp_pos (2 * 8)
  have hfin : ∀ d d0 : ℝ, d0 ≤ 9.2e-18 →
      Real.exp (2 * x) * (d - A / 2) ≤ Real.exp (2 * 8) * (d0 - A / 2) → d ≤ A / 2 + 9.2e-18 := by
    intro d d0 hd h
    by_contra hc
    push Not at hc
    have h1 : Real.exp (2 * x) * 9.2e-18 < Real.exp (2 * x) * (d - A / 2) :=
      mul_lt_mul_of_pos_left (by linarith) hx0
    have h2 : Real.exp (2 * 8) * (d0 - A / 2) ≤ Real.exp (2 * x) * 9.2e-18 :=
      (mul_le_mul_of_nonneg_left (by linarith : d0 - A / 2 ≤ 9.2e-18) h80.le).trans
        (mul_le_mul_of_nonneg_right hmono (by norm_num))
    linarith
  rw [abs_le]
  constructor
  · have := hfin (-dFun x) (-dFun 8) (by linarith [(abs_le.mp h88).1]) k2
    linarith
  · exact hfin (dFun x) (dFun 8) (abs_le.mp h88).2 k1

/-- The error of the code's approximation of `√x exp (-x) I₀(x)` for `x ≥ 8`. -/
theorem dFun_le {x : ℝ} (hx : 8 ≤ x) : |pFun x - uFun x| ≤ 2.2e-15 := by
  have hcont : ContinuousOn (fun x => |dFun x|) (Icc 8 x) := fun y hy =>
    ((dFun_deriv (by linarith [hy.1])).continuousAt.abs).continuousWithinAt
  obtain ⟨x0, hx0, hmax⟩ := isCompact_Icc.exists_isMaxOn ⟨8, left_mem_Icc.mpr hx⟩ hcont
  have h := bound_step (X := x) (M := |dFun x0|) (fun y h8 hX => hmax ⟨h8, hX⟩) (abs_nonneg _) hx0.1 hx0.2
  have hle : |dFun x| ≤ |dFun x0| := hmax ⟨hx, le_refl x⟩
  unfold dFun at hle h
  norm_num at *
  linarith

end SciRs.Bessel

import Verif.Model.Bessel
import Verif.Spec.ChebSeries
import Mathlib.Analysis.SpecialFunctions.Trigonometric.Chebyshev.Basic
import Mathlib.Analysis.SpecialFunctions.Trigonometric.Inverse
import Mathlib.Data.List.GetD
import Mathlib.Algebra.BigOperators.Field
import Mathlib.Tactic.Ring
import Mathlib.Tactic.Linarith
import Mathlib.Tactic.NormNum

/-!
# C17, C18: the Chebyshev evaluator and the modified Bessel function
-/

namespace SciRs.Props

open SciRs SciRs.Bessel SciRs.Spec Polynomial

/-! ### Clenshaw's recurrence -/

/-- `∑ r_j f_j` for a list of coefficients. -/
noncomputable def ser (f : ℕ → ℝ) : List ℝ → ℝ
  | [] => 0
  | e :: r => e * f 0 + ser (fun j => f (j + 1)) r

theorem ser_eq_sum (f : ℕ → ℝ) (r : List ℝ) :
    ser f r = ∑ j ∈ Finset.range r.length, r.getD j 0 * f j := by
  induction r generalizing f with
  | nil => simp [ser]
  | cons e r ih =>
    rw [ser, ih, List.length_cons, Finset.sum_range_succ']
    simp [add_comm]

theorem ser_comb (a : ℝ) (f g h : ℕ → ℝ) (hfg : ∀ j, h j = a * f j - g j) (r : List ℝ) :
    ser h r = a * ser f r - ser g r := by
  induction r generalizing f g h with
  | nil => simp [ser]
  | cons e r ih =>
    rw [ser, ser, ser, ih _ _ _ (fun j => hfg (j + 1)), hfg 0]; ring

/-- `U_j(x/2)`, with the index shifted by `s`. -/
noncomputable def uu (x : ℝ) (s : ℤ) (j : ℕ) : ℝ := (Chebyshev.U ℝ (j + s)).eval (x / 2)

theorem uu_succ (x : ℝ) (s : ℤ) (j : ℕ) : uu x (s + 1) j = x * uu x s j - uu x (s - 1) j := by
  unfold uu
  rw [← add_assoc, Chebyshev.U_add_one, add_sub_assoc]
  simp only [eval_sub, eval_mul, eval_ofNat, eval_X]
  ring

theorem ser_shift (f : ℕ → ℝ) (r : List ℝ) (h0 : f 0 = 0) :
    ser f r = ser (fun j => f (j + 1)) r.tail := by
  cases r with
  | nil => rfl
  | cons e r => simp [ser, h0]

theorem uu_shift (x : ℝ) (s : ℤ) : (fun j => uu x s (j + 1)) = uu x (s + 1) := by
  funext j
  unfold uu
  push_cast
  rw [show (j : ℤ) + 1 + s = j + (s + 1) by ring]

/-- The state of the fold after the coefficients `l`, from the zero state. -/
theorem clenshaw (x : ℝ) (l : List ℝ) :
    l.foldl (chbStep x) (0, 0, 0) =
      (ser (uu x 0) l.reverse, ser (uu x 0) l.reverse.tail, ser (uu x 0) l.reverse.tail.tail) := by
  induction l using List.reverseRecOn with
  | nil => simp [ser]
  | append_singleton l e ih =>
    rw [List.foldl_append, ih, List.foldl_cons, List.foldl_nil, chbStep, List.reverse_append]
    simp only [List.reverse_cons, List.reverse_nil, List.nil_append, List.cons_append,
      List.tail_cons]
    ext
    · simp only
      rw [ser, uu_shift, ser_comb x (uu x 0) (uu x (0 - 1)) (uu x (0 + 1)) (uu_succ x 0)]
      have h1 : ser (uu x (0 - 1)) l.reverse = ser (uu x 0) l.reverse.tail := by
        rw [ser_shift _ _ (by simp [uu]), uu_shift]; norm_num
      rw [h1]
      simp [uu]
      ring
    · rfl
    · rfl

theorem ser_diff (x : ℝ) (r : List ℝ) :
    ser (uu x 0) r - ser (uu x 0) r.tail.tail =
      r.getD 0 0 + ∑ i ∈ Finset.Ico 1 r.length,
        2 * (r.getD i 0 * (Chebyshev.T ℝ i).eval (x / 2)) := by
  rcases r with _ | ⟨e, _ | ⟨e', r⟩⟩
  · simp [ser]
  · simp [ser, uu]
  · rw [ser, ser, List.tail_cons, List.tail_cons]
    have h : (fun j => uu x 0 (j + 1 + 1)) = uu x 2 := by
      funext j; unfold uu; push_cast; congr 1
    simp only [h]
    have h2 := ser_comb (1 : ℝ) (uu x 2) (uu x 0) (fun j => 2 * (Chebyshev.T ℝ (j + 2)).eval (x / 2))
      (fun j => by
        unfold uu
        have := congrArg (eval (x / 2)) (Chebyshev.two_mul_T_eq_U_sub_U ℝ (j : ℤ))
        simp at this
        simp [this]) r
    rw [one_mul] at h2
    have h3 : ∑ i ∈ Finset.Ico 1 (e :: e' :: r).length,
        2 * ((e :: e' :: r).getD i 0 * (Chebyshev.T ℝ i).eval (x / 2)) =
        e' * x + ser (fun j => 2 * (Chebyshev.T ℝ (j + 2)).eval (x / 2)) r := by
      rw [Finset.sum_Ico_eq_sum_range, ser_eq_sum,
        show (e :: e' :: r).length - 1 = r.length + 1 by simp, Finset.sum_range_succ', add_comm]
      congr 1
      · simp; ring
      · refine Finset.sum_congr rfl (fun i _ => ?_)
        rw [show 1 + (i + 1) = i + 2 by ring]
        simp only [List.getD_cons_succ]
        push_cast
        ring
    rw [h3, h2]
    simp [uu]
    ring

/-- The textbook evaluation (each coefficient consumed once) is the specified series. -/
theorem clenshaw_series (x : ℝ) (l : List ℝ) :
    ((l.foldl (chbStep x) (0, 0, 0)).1 - (l.foldl (chbStep x) (0, 0, 0)).2.2) / 2 =
      chebSeries x l := by
  rw [clenshaw, ser_diff]
  unfold chebSeries
  rw [List.length_reverse, add_div, Finset.sum_div]
  congr 1
  refine Finset.sum_congr rfl (fun i _ => ?_)
  ring

/-- The code consumes the first coefficient twice: it evaluates the series of the list with the first
coefficient repeated. -/
theorem chbevl_eq (x c0 : ℝ) (cs : List ℝ) :
    chbevl x (c0 :: cs) = chebSeries x (c0 :: c0 :: cs) := by
  rw [← clenshaw_series, List.foldl_cons (l := c0 :: cs)]
  have : chbStep x (0, 0, 0) c0 = (c0, 0, 0) := by simp [chbStep]
  rw [this]
  rfl

theorem chebSeries_cons (x c0 c1 : ℝ) (cs : List ℝ) :
    chebSeries x (c0 :: c1 :: cs) = chebSeries x (c1 :: cs) +
      c0 * (Chebyshev.T ℝ ((c1 :: cs).length : ℕ)).eval (x / 2) := by
  unfold chebSeries
  have hr : (c0 :: c1 :: cs).reverse = (c1 :: cs).reverse ++ [c0] := by simp
  have hl : (c0 :: c1 :: cs).length = (c1 :: cs).length + 1 := by simp
  rw [hr, hl, Finset.sum_Ico_succ_top (by simp), List.getD_append _ _ _ _ (by simp), ← add_assoc]
  congr 1
  · congr 1
    refine Finset.sum_congr rfl (fun i hi => ?_)
    have := (Finset.mem_Ico.mp hi).2
    rw [List.getD_append _ _ _ _ (by simpa using this)]
  · rw [List.getD_append_right _ _ _ _ (by simp)]
    simp

/-- **C18 (partial)** The full claim is that the evaluator returns the specified Chebyshev series.  It is
false of the code; what the code returns, for every coefficient list and every `x`, is the series plus the
first coefficient times `T_n(x/2)` with `n` the number of coefficients. -/
theorem C18_value_partial (x : ℝ) (coef : List ℝ) :
    chbevl x coef = chebSeries x coef +
      coef.getD 0 0 * (Chebyshev.T ℝ (coef.length : ℕ)).eval (x / 2) := by
  rcases coef with _ | ⟨c0, cs⟩
  · simp [chbevl, chebSeries]
  · rw [chbevl_eq, chebSeries_cons]; rfl

/-- **C18** The claim fails: a single coefficient `c` at `x` stands for the constant `c/2`, the code returns
`c/2 + c x/2`. -/
theorem C18_wrong : chebSeries 2 [1] = 1 / 2 ∧ chbevl 2 [(1 : ℝ)] = 3 / 2 := by
  refine ⟨?_, ?_⟩
  · simp [chebSeries]
  · norm_num [chbevl, chbStep]

theorem abs_T_le (n : ℤ) (t : ℝ) (h1 : -1 ≤ t) (h2 : t ≤ 1) : |(Chebyshev.T ℝ n).eval t| ≤ 1 := by
  rw [← Real.cos_arccos h1 h2, Chebyshev.T_real_cos]
  exact Real.abs_cos_le_one _

/-- **C18** On `[-2, 2]` the error is at most the absolute value of the first coefficient. -/
theorem C18_error (x : ℝ) (h1 : -2 ≤ x) (h2 : x ≤ 2) (coef : List ℝ) :
    |chbevl x coef - chebSeries x coef| ≤ |coef.getD 0 0| := by
  rw [C18_value_partial, add_sub_cancel_left, abs_mul]
  exact mul_le_of_le_one_right (abs_nonneg _) (abs_T_le _ _ (by linarith) (by linarith))

theorem i0e_small {x : ℝ} (h : |x| ≤ 8) : i0e realEnv x = chbevl (|x| / 2 - 2) tableA :=
  if_pos (show realEnv.abs x ≤ 8 from h)

theorem i0e_large {x : ℝ} (h : ¬ |x| ≤ 8) :
    i0e realEnv x = chbevl (32 / |x| - 2) tableB / Real.sqrt |x| :=
  if_neg (show ¬ realEnv.abs x ≤ 8 from h)

/-- **C18** Consequence for `i0e`: the evaluation point always lies in `[-2, 2]`, and the doubled first
coefficient changes the result by less than `10⁻¹⁷`, whatever the argument. -/
theorem C18_i0e_error (x : ℝ) :
    |i0e realEnv x - (if |x| ≤ 8 then chebSeries (|x| / 2 - 2) tableA
      else chebSeries (32 / |x| - 2) tableB / Real.sqrt |x|)| < 1 / 10 ^ 17 := by
  have h0 := abs_nonneg x
  by_cases h : |x| ≤ 8
  · rw [i0e_small h, if_pos h]
    refine lt_of_le_of_lt (C18_error _ (by linarith) (by linarith) _) ?_
    simp only [tableA, List.getD_cons_zero]
    rw [abs_lt]; constructor <;> norm_num
  · rw [i0e_large h, if_neg h]
    push Not at h
    have hx : 0 < |x| := by linarith
    rw [← sub_div, abs_div]
    have hs : 1 ≤ Real.sqrt |x| := by
      rw [Real.one_le_sqrt]; linarith
    rw [abs_of_nonneg (Real.sqrt_nonneg _)]
    have hb := C18_error (32 / |x| - 2) (by have := div_pos (by norm_num : (0 : ℝ) < 32) hx; linarith)
      (by rw [sub_le_iff_le_add, div_le_iff₀ hx]; linarith) tableB
    refine lt_of_le_of_lt (div_le_self (abs_nonneg _) hs) (lt_of_le_of_lt hb ?_)
    simp only [tableB, List.getD_cons_zero]
    rw [abs_lt]; constructor <;> norm_num

/-! ### C17 -/

/-- **C17** (any arithmetic) Both functions are even, bit for bit: they only depend on the absolute
value. -/
theorem C17_even {F : Type} [Zero F] [Add F] [Sub F] [Mul F] [Div F] [OfNat F 2] [LE F]
    [DecidableLE F] [OfNat F 8] [OfNat F 32] [Neg F] (env : Env F)
    (habs : ∀ x, env.abs (-x) = env.abs x) (x : F) :
    i0 env (-x) = i0 env x ∧ i0e env (-x) = i0e env x := by
  simp only [i0, i0e, habs, and_self]

example : ∀ x, realEnv.abs (-x) = realEnv.abs x := fun x => abs_neg x

/-- **C17** `i0(x) = exp(|x|) · i0e(x)` for every real `x`. -/
theorem C17_scaled (x : ℝ) : i0 realEnv x = Real.exp |x| * i0e realEnv x := by
  by_cases h : |x| ≤ 8
  · rw [i0e_small h]
    exact if_pos (show realEnv.abs x ≤ 8 from h)
  · rw [i0e_large h, ← mul_div_assoc]
    exact if_neg (show ¬ realEnv.abs x ≤ 8 from h)

/-- **C17** The regimes: the first table is used for `|x| ≤ 8` at `|x|/2 - 2`, the second one otherwise at
`32/|x| - 2` with the factor `1/√|x|`. -/
theorem C17_regimes (x : ℝ) :
    (|x| ≤ 8 → i0e realEnv x = chebSeries (|x| / 2 - 2) (tableA.headD 0 :: tableA)) ∧
    (8 < |x| → i0e realEnv x = chebSeries (32 / |x| - 2) (tableB.headD 0 :: tableB) / Real.sqrt |x|) := by
  constructor
  · intro h
    rw [i0e_small h]
    exact chbevl_eq _ _ _
  · intro h
    rw [i0e_large (not_le.mpr h)]
    congr 1
    exact chbevl_eq _ _ _

/-- **C17** (any arithmetic) On vectors the functions keep the length and act on entry `i` alone. -/
theorem C17_vec {F : Type} [Zero F] [Add F] [Sub F] [Mul F] [Div F] [OfNat F 2] [LE F]
    [DecidableLE F] [OfNat F 8] [OfNat F 32] (env : Env F) (v : List F) :
    (i0Vec env v).length = v.length ∧ (i0eVec env v).length = v.length ∧
    ∀ i (h : i < v.length), (i0Vec env v)[i]? = some (i0 env v[i]) ∧
      (i0eVec env v)[i]? = some (i0e env v[i]) := by
  refine ⟨by simp [i0Vec], by simp [i0eVec], fun i h => ⟨?_, ?_⟩⟩ <;> simp [i0Vec, i0eVec, h]

end SciRs.Props

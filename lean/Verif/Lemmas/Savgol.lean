import Verif.Model.Savgol
import Verif.Lemmas.Iter
import Verif.Spec.LeastSquares
import Mathlib.Data.List.GetD
import Mathlib.LinearAlgebra.Vandermonde
import Mathlib.LinearAlgebra.Matrix.NonsingularInverse
import Mathlib.Algebra.Polynomial.Derivative
import Mathlib.Algebra.Polynomial.Eval.Degree
import Mathlib.Algebra.BigOperators.Intervals
import Mathlib.Algebra.Order.BigOperators.Group.Finset
import Mathlib.Tactic.Linarith
import Mathlib.Tactic.Ring
import Mathlib.Tactic.FieldSimp
import Mathlib.Tactic.NormNum

/-! # Lemmas about the Savitzky-Golay filter -/

namespace SciRs.Savgol

open SciRs.Spec Polynomial

@[simp] theorem ofUsize_real (n : ℕ) : (SavNum.ofUsize n : ℝ) = n := rfl
@[simp] theorem half_real : (SavNum.half : ℝ) = 1 / 2 := rfl
@[simp] theorem powi_real (x : ℝ) (n : ℕ) : SavNum.powi x n = x ^ n := rfl

/-! ### Padding and windows -/

theorem padNearest_length {F : Type} [Zero F] (h : ℕ) (y0 : F) (ys : List F) :
    (padNearest (2 * h + 1) y0 ys).length = (y0 :: ys).length + 2 * h := by
  simp [padNearest]; omega

theorem getLastD_pad {F : Type} [Zero F] (n : ℕ) (y0 : F) (ys : List F) :
    (List.replicate (n + 1) y0 ++ ys).getLastD 0 = (y0 :: ys).getLastD 0 := by
  rw [List.replicate_succ', List.append_assoc, List.singleton_append]
  rw [List.getLastD_eq_getLast?, List.getLastD_eq_getLast?, List.getLast?_append,
    List.getLast?_eq_some_getLast (List.cons_ne_nil y0 ys)]
  rfl

theorem padNearest_getD (h : ℕ) (y0 : ℝ) (ys : List ℝ) (k : ℕ)
    (hk : k < (y0 :: ys).length + 2 * h) :
    (padNearest (2 * h + 1) y0 ys).getD k 0 = extendNearest (y0 :: ys) ((k : ℤ) - h) := by
  have hw : (2 * h + 1) / 2 = h := by omega
  unfold padNearest
  dsimp only
  rw [hw, getLastD_pad]
  have hlen : (y0 :: ys).length = ys.length + 1 := rfl
  unfold extendNearest
  rw [hlen] at hk ⊢
  have hl : (List.replicate (h + 1) y0 ++ ys).length = h + 1 + ys.length := by simp
  by_cases h1 : (k : ℤ) - h < 0
  · rw [if_pos h1, List.getD_append _ _ _ _ (by omega), List.getD_append _ _ _ _ (by simp; omega),
      List.getD_eq_getElem _ _ (by simp; omega), List.getElem_replicate]
    rfl
  · rw [if_neg h1]
    by_cases h2 : (k : ℤ) - h < ((ys.length + 1 : ℕ) : ℤ)
    · rw [if_pos h2, List.getD_append _ _ _ _ (by omega)]
      rw [show ((k : ℤ) - h).toNat = k - h by omega]
      by_cases h3 : k = h
      · rw [h3, Nat.sub_self, List.getD_append _ _ _ _ (by simp),
          List.getD_eq_getElem _ _ (by simp), List.getElem_replicate]
        rfl
      · rw [List.getD_append_right _ _ _ _ (by simp; omega), List.length_replicate,
          show k - h = (k - (h + 1)) + 1 by omega, List.getD_cons_succ]
    · rw [if_neg h2, List.getD_append_right _ _ _ _ (by omega), hl,
        List.getD_eq_getElem _ _ (by simp; omega), List.getElem_replicate]

theorem dot_eq (a b : List ℝ) (n : ℕ) (ha : a.length = n) (hb : b.length = n) :
    dot a b = ∑ j ∈ Finset.range n, a.getD j 0 * b.getD j 0 := by
  unfold dot
  rw [sumIter_eq_sum]
  induction n generalizing a b with
  | zero =>
    rw [List.length_eq_zero_iff.mp ha]; simp
  | succ n ih =>
    match a, b, ha, hb with
    | x :: xs, y :: ys, ha, hb =>
      rw [Finset.sum_range_succ', List.zip_cons_cons, List.map_cons, List.sum_cons,
        ih xs ys (by simpa using ha) (by simpa using hb)]
      simp [add_comm]

theorem windows_dot_length {F : Type} [Zero F] [Add F] [Mul F] (h : ℕ) (y0 : F) (ys fir : List F) :
    ((windows (2 * h + 1) (padNearest (2 * h + 1) y0 ys)).map (fun w => dot w fir.reverse)).length
      = (y0 :: ys).length := by
  simp only [windows, List.length_map, List.length_range, padNearest_length]; omega

/-- The output of the filter, in terms of its coefficients. -/
theorem windows_dot (h : ℕ) (y0 : ℝ) (ys fir : List ℝ) (hf : fir.length = 2 * h + 1) :
    let out := (windows (2 * h + 1) (padNearest (2 * h + 1) y0 ys)).map (fun w => dot w fir.reverse)
    out.length = (y0 :: ys).length ∧ ∀ i, i < (y0 :: ys).length →
      out.getD i 0 = ∑ j ∈ Finset.range (2 * h + 1),
        fir.getD j 0 * extendNearest (y0 :: ys) ((i : ℤ) + h - j) := by
  intro out
  have hpl := padNearest_length h y0 ys
  have hl : out.length = (y0 :: ys).length := by
    simp only [out, windows, List.length_map, List.length_range, hpl]; omega
  refine ⟨hl, fun i hi => ?_⟩
  rw [List.getD_eq_getElem _ _ (by omega)]
  simp only [out, windows, List.map_map, List.getElem_map, List.getElem_range, Function.comp]
  rw [dot_eq _ _ (2 * h + 1) (by simp only [List.length_take, List.length_drop, hpl]; omega)
    (by simpa using hf), ← Finset.sum_range_reflect]
  refine Finset.sum_congr rfl (fun j hj => ?_)
  have hj := Finset.mem_range.mp hj
  have e1 : fir.reverse.getD (2 * h + 1 - 1 - j) 0 = fir.getD j 0 := by
    rw [List.getD_eq_getElem _ _ (by rw [List.length_reverse]; omega), List.getD_eq_getElem _ _ (by omega),
      List.getElem_reverse]
    congr 1; omega
  have e2 : (((padNearest (2 * h + 1) y0 ys).drop i).take (2 * h + 1)).getD (2 * h + 1 - 1 - j) 0 =
      (padNearest (2 * h + 1) y0 ys).getD (i + (2 * h + 1 - 1 - j)) 0 := by
    simp [List.getD_eq_getElem?_getD, show 2 * h - j < 2 * h + 1 by omega]
  rw [e1, e2, padNearest_getD _ _ _ _ (by omega), mul_comm]
  congr 2
  omega

/-! ### Solving the Vandermonde system -/

theorem pos_odd (h j : ℕ) : pos (2 * h + 1) j = (h : ℝ) - j := by
  unfold pos
  rw [if_neg (by omega), show (2 * h + 1) / 2 = h by omega, ofUsize_real, ofUsize_real]

theorem pos_inj (w i j : ℕ) (hij : (pos w i : ℝ) = pos w j) : i = j := by
  unfold pos at hij
  simp only [ofUsize_real, half_real] at hij
  have : (i : ℝ) = j := by split_ifs at hij <;> linarith
  exact_mod_cast this

/-- The system has an exact solution, because the positions are distinct and there are enough of them. -/
theorem exists_exact (w p : ℕ) (hp : p < w) (b : ℕ → ℝ) :
    ∃ c : ℕ → ℝ, ∀ i, i < p + 1 → ∑ j ∈ Finset.range w, pos w j ^ i * c j = b i := by
  let V : Matrix (Fin (p + 1)) (Fin (p + 1)) ℝ := Matrix.vandermonde (fun k => pos w k)
  have hdet : IsUnit V.transpose.det := by
    rw [Matrix.det_transpose, isUnit_iff_ne_zero, Matrix.det_vandermonde_ne_zero_iff]
    intro a b hab
    exact Fin.ext (pos_inj w _ _ hab)
  let s : Fin (p + 1) → ℝ := V.transpose⁻¹.mulVec (fun i => b i)
  have hs : V.transpose.mulVec s = fun i : Fin (p + 1) => b i := by
    simp only [s, Matrix.mulVec_mulVec, Matrix.mul_nonsing_inv _ hdet, Matrix.one_mulVec]
  refine ⟨fun j => if hj : j < p + 1 then s ⟨j, hj⟩ else 0, fun i hi => ?_⟩
  have h1 := congrFun hs ⟨i, hi⟩
  simp only [Matrix.mulVec, dotProduct, V, Matrix.transpose_apply, Matrix.vandermonde_apply] at h1
  rw [← h1, ← Finset.sum_subset (s₁ := Finset.range (p + 1)), Finset.sum_range]
  · refine Finset.sum_congr rfl (fun k _ => ?_)
    dsimp only
    rw [dif_pos k.2]
  · intro k; simp only [Finset.mem_range]; omega
  · intro k _ hk
    simp only [Finset.mem_range] at hk
    simp [hk]

theorem exact_of_leastSquares {solve : Solver ℝ} (hs : SolvesLeastSquares solve) (w p : ℕ) (hp : p < w)
    (b : ℕ → ℝ) (i : ℕ) (hi : i < p + 1) :
    ∑ j ∈ Finset.range w, pos w j ^ i *
      (solve (p + 1) w (fun i j => pos w j ^ i) b).getD j 0 = b i := by
  obtain ⟨c, hc⟩ := exists_exact w p hp b
  have h1 := (hs (p + 1) w (fun i j => pos w j ^ i) b).2 c
  have h2 : residual (p + 1) w (fun i j => pos w j ^ i) b c = 0 := by
    unfold residual
    refine Finset.sum_eq_zero (fun k hk => ?_)
    rw [hc k (Finset.mem_range.mp hk), sub_self]; ring
  rw [h2] at h1
  unfold residual at h1
  have h3 := (Finset.sum_eq_zero_iff_of_nonneg (fun k _ => sq_nonneg _)).mp
    (le_antisymm h1 (Finset.sum_nonneg (fun k _ => sq_nonneg _))) i (Finset.mem_range.mpr hi)
  have h4 := pow_eq_zero_iff (two_ne_zero) |>.mp h3
  linarith

/-- A polynomial of degree at most `p`, weighted with coefficients that solve the system. -/
theorem sum_eval_of_exact (w p : ℕ) (f b : ℕ → ℝ)
    (hf : ∀ i, i < p + 1 → ∑ j ∈ Finset.range w, pos w j ^ i * f j = b i)
    (P : ℝ[X]) (hP : P.natDegree ≤ p) :
    ∑ j ∈ Finset.range w, f j * P.eval (pos w j) = ∑ i ∈ Finset.range (p + 1), P.coeff i * b i := by
  have e : ∀ x : ℝ, P.eval x = ∑ i ∈ Finset.range (p + 1), P.coeff i * x ^ i :=
    fun x => Polynomial.eval_eq_sum_range' (by omega) x
  have e1 : ∀ j, f j * P.eval (pos w j) =
      ∑ i ∈ Finset.range (p + 1), P.coeff i * (pos w j ^ i * f j) := by
    intro j
    rw [e, Finset.mul_sum]
    exact Finset.sum_congr rfl (fun i _ => by ring)
  rw [Finset.sum_congr rfl (fun j _ => e1 j), Finset.sum_comm]
  refine Finset.sum_congr rfl (fun i hi => ?_)
  rw [← Finset.mul_sum, hf i (Finset.mem_range.mp hi)]

/-! ### Derivatives of polynomials -/

theorem iterate_derivative_comp_linear (q : ℝ[X]) (a δ : ℝ) (d : ℕ) :
    derivative^[d] (q.comp (C a + C δ * X)) = C (δ ^ d) * (derivative^[d] q).comp (C a + C δ * X) := by
  induction d with
  | zero => simp
  | succ d ih =>
    rw [Function.iterate_succ_apply', ih, Function.iterate_succ_apply', derivative_mul, derivative_C,
      derivative_comp, pow_succ, C_mul]
    simp only [derivative_add, derivative_C, derivative_mul, derivative_X]
    ring

theorem coeff_mul_factorial (P : ℝ[X]) (d : ℕ) :
    P.coeff d * (d.factorial : ℝ) = (derivative^[d] P).eval 0 := by
  rw [← Polynomial.coeff_zero_eq_eval_zero, Polynomial.coeff_iterate_derivative, Nat.zero_add,
    Nat.descFactorial_self]
  simp [mul_comm]

/-! ### The factorial -/

theorem factorial_ok (c : Cfg) (n : ℕ) (h : ((n.factorial : ℕ) : ℤ) ≤ c.usizeMax) :
    factorial c n = .ok n.factorial := by
  unfold factorial
  induction n with
  | zero => rfl
  | succ n ih =>
    have h' : ((n.factorial : ℕ) : ℤ) ≤ c.usizeMax :=
      le_trans (by exact_mod_cast Nat.factorial_le (Nat.le_succ n)) h
    rw [List.range_succ, List.foldlM_append, ih h', ok_bind]
    simp only [List.foldlM_cons, List.foldlM_nil, usizeMul]
    rw [mul_comm, ← Nat.factorial_succ, if_pos h]
    rfl

theorem factorial_overflow (c : Cfg) (hc : c.checked = true) (n : ℕ)
    (h : ¬ ((n.factorial : ℕ) : ℤ) ≤ c.usizeMax) : factorial c n = .error Err.overflow := by
  unfold factorial
  induction n with
  | zero =>
    exfalso
    apply h
    have : (2 : ℤ) ^ 1 ≤ 2 ^ c.ptrBits := pow_le_pow_right₀ (by norm_num) (by have := c.h16; omega)
    simp [Cfg.usizeMax]
    omega
  | succ n ih =>
    rw [List.range_succ, List.foldlM_append]
    by_cases h' : ((n.factorial : ℕ) : ℤ) ≤ c.usizeMax
    · have := factorial_ok c n h'
      unfold factorial at this
      rw [this, ok_bind]
      simp only [List.foldlM_cons, List.foldlM_nil, usizeMul]
      rw [mul_comm, ← Nat.factorial_succ, if_neg h, if_pos hc]
      rfl
    · rw [ih h', error_bind]

theorem factorial_unchecked (c : Cfg) (hc : c.checked = false) (n : ℕ) :
    ∃ f, factorial c n = .ok f ∧ f % 2 ^ c.ptrBits = n.factorial % 2 ^ c.ptrBits ∧ f < 2 ^ c.ptrBits := by
  have h1 : 1 < 2 ^ c.ptrBits := Nat.one_lt_two_pow (by have := c.h16; omega)
  unfold factorial
  induction n with
  | zero => exact ⟨1, rfl, rfl, h1⟩
  | succ n ih =>
    obtain ⟨f, hf, hm, hlt⟩ := ih
    rw [List.range_succ, List.foldlM_append, hf, ok_bind]
    simp only [List.foldlM_cons, List.foldlM_nil, usizeMul, hc, Bool.false_eq_true, if_false]
    split_ifs with h
    · refine ⟨f * (n + 1), rfl, ?_, ?_⟩
      · rw [Nat.mul_mod, hm, ← Nat.mul_mod, mul_comm, Nat.factorial_succ]
      · unfold Cfg.usizeMax at h
        have : ((f * (n + 1) : ℕ) : ℤ) < ((2 ^ c.ptrBits : ℕ) : ℤ) := by push_cast at h ⊢; omega
        exact_mod_cast this
    · refine ⟨f * (n + 1) % 2 ^ c.ptrBits, rfl, ?_, Nat.mod_lt _ (by positivity)⟩
      rw [Nat.mod_mod, Nat.mul_mod, hm, ← Nat.mul_mod, mul_comm, Nat.factorial_succ]

end SciRs.Savgol

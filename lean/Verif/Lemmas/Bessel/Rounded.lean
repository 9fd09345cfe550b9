import Verif.Props.Bessel
import Verif.Spec.Rounding
import Mathlib.Tactic.Positivity

/-!
# Clenshaw's recurrence in rounded arithmetic

The computed recurrence is the exact one with perturbed coefficients.
-/

namespace SciRs.Bessel

open SciRs SciRs.Spec SciRs.Props Polynomial

/-- `|U_j(t)| ≤ j + 1` on `[-1, 1]`. -/
theorem abs_U_le (j : ℕ) (t : ℝ) (h1 : -1 ≤ t) (h2 : t ≤ 1) : |(Chebyshev.U ℝ j).eval t| ≤ j + 1 := by
  induction j with
  | zero => simp
  | succ j ih =>
    push_cast
    rw [Chebyshev.U_eq_X_mul_U_add_T, eval_add, eval_mul, eval_X]
    refine (abs_add_le _ _).trans ?_
    have := abs_T_le ((j : ℤ) + 1) t h1 h2
    rw [abs_mul]
    have ht : |t| ≤ 1 := abs_le.mpr ⟨h1, h2⟩
    have := mul_le_mul ht ih (abs_nonneg _) zero_le_one
    linarith

/-- `∑ (j + 1) |r_j|`. -/
def wsum : ℕ → List ℝ → ℝ
  | _, [] => 0
  | n, e :: r => (n + 1) * |e| + wsum (n + 1) r

theorem wsum_nonneg (n : ℕ) (r : List ℝ) : 0 ≤ wsum n r := by
  induction r generalizing n with
  | nil => simp [wsum]
  | cons e r ih => rw [wsum]; have := ih (n + 1); positivity

/-- `∑ |r_j|`. -/
def vsum (r : List ℝ) : ℝ := (r.map fun e => |e|).sum

theorem wsum_succ (n : ℕ) (r : List ℝ) : wsum (n + 1) r = wsum n r + vsum r := by
  induction r generalizing n with
  | nil => simp [wsum, vsum]
  | cons e r ih =>
    rw [wsum, wsum, ih (n + 1)]
    simp only [vsum, List.map_cons, List.sum_cons]
    push_cast
    ring

theorem wsum_cons (e : ℝ) (r : List ℝ) : wsum 0 (e :: r) = wsum 0 r + vsum (e :: r) := by
  rw [wsum, wsum_succ]
  simp only [vsum, List.map_cons, List.sum_cons]
  push_cast
  ring

theorem vsum_nonneg (r : List ℝ) : 0 ≤ vsum r := by
  unfold vsum
  apply List.sum_nonneg
  intro x hx
  obtain ⟨y, _, rfl⟩ := List.mem_map.mp hx
  exact abs_nonneg _

theorem wsum_tail (r : List ℝ) : wsum 0 r.tail ≤ wsum 0 r := by
  cases r with
  | nil => simp
  | cons e r =>
    rw [wsum_cons, List.tail_cons]
    linarith [vsum_nonneg (e :: r)]

theorem ser_le (x : ℝ) (h1 : -2 ≤ x) (h2 : x ≤ 2) (n : ℕ) (r : List ℝ) : |ser (uu x n) r| ≤ wsum n r := by
  induction r generalizing n with
  | nil => simp [ser, wsum]
  | cons e r ih =>
    rw [ser, wsum, uu_shift]
    refine (abs_add_le _ _).trans ?_
    have h := ih (n + 1)
    push_cast at h
    refine add_le_add ?_ h
    rw [abs_mul, mul_comm]
    refine mul_le_mul_of_nonneg_right ?_ (abs_nonneg _)
    have := abs_U_le n (x / 2) (by linarith) (by linarith)
    simpa [uu] using this

/-- The bounds: the sum of the weighted coefficients, the sum of the coefficients, and the sum of the
perturbations in units of `u`. -/
structure Bnd where
  w : ℚ
  v : ℚ
  d : ℚ

/-- The next coefficient. -/
def Bnd.next (ub : ℚ) (b : Bnd) (c : ℚ) : Bnd :=
  let δ := 16 * b.w + 3 * |c| + 1 / 100
  let v := b.v + |c| + ub * δ
  ⟨b.w + v, v, b.d + δ⟩

/-- The bounds for a table whose first coefficient is used twice. -/
def Bnd.table (ub : ℚ) (l : List ℚ) : Bnd := (l.head?.toList ++ l).foldl (Bnd.next ub) ⟨0, 0, 0⟩

/-- An arithmetic that is precise enough. -/
structure Precise (r : Rounding) : Prop where
  u_le : r.u ≤ 1 / 2 ^ 20
  t_le : r.t ≤ r.u / 1000
  int : ∀ n : ℤ, |n| ≤ 32 → r.rnd n = n

variable {r : Rounding}

/-- One rounded step is an exact step with a perturbed coefficient. -/
theorem step_perturb (hr : Precise r) (x x' b1 b2 c W : ℝ) (hx : |x' - x| ≤ 7 * r.u) (h2 : |x'| ≤ 2)
    (hb1 : |b1| ≤ W) (hb2 : |b2| ≤ W) :
    |r.rnd (r.rnd (r.rnd (x' * b1) - b2) + r.rnd c) - (x * b1 - b2 + c)| ≤
      r.u * (16 * W + 3 * |c| + 1 / 100) := by
  have hu := r.u_nonneg
  have ht := r.t_nonneg
  have hul := hr.u_le
  have htl := hr.t_le
  have hW : 0 ≤ W := (abs_nonneg _).trans hb1
  have hc := abs_nonneg c
  norm_num at hul
  have htiny : r.t ≤ 1 / 10 ^ 8 := by norm_num; linarith
  obtain ⟨p, hp⟩ : ∃ p, p = r.rnd (x' * b1) := ⟨_, rfl⟩
  obtain ⟨s, hs⟩ : ∃ s, s = r.rnd (p - b2) := ⟨_, rfl⟩
  obtain ⟨c', hc'⟩ : ∃ c', c' = r.rnd c := ⟨_, rfl⟩
  rw [← hp, ← hs, ← hc']
  have uW : 0 ≤ r.u * W := mul_nonneg hu hW
  have uc : 0 ≤ r.u * |c| := mul_nonneg hu hc
  have ut : 0 ≤ r.u * r.t := mul_nonneg hu ht
  have uuW : r.u * (r.u * W) ≤ 1 / 10 ^ 5 * (r.u * W) := mul_le_mul_of_nonneg_right (by norm_num; linarith) uW
  have uuc : r.u * (r.u * |c|) ≤ 1 / 10 ^ 5 * (r.u * |c|) := mul_le_mul_of_nonneg_right (by norm_num; linarith) uc
  have uut : r.u * r.t ≤ 1 / 10 ^ 5 * r.t := mul_le_mul_of_nonneg_right (by norm_num; linarith) ht
  have e1 : |p - x' * b1| ≤ 2 * (r.u * W) + r.t := by
    rw [hp]
    refine (r.err _).trans ?_
    have : |x' * b1| ≤ 2 * W := by
      rw [abs_mul]; exact mul_le_mul h2 hb1 (abs_nonneg _) (by norm_num)
    nlinarith
  have e1' : |x' * b1 - x * b1| ≤ 7 * (r.u * W) := by
    rw [← sub_mul, abs_mul]
    have := mul_le_mul hx hb1 (abs_nonneg _) (by positivity)
    linarith
  have p1 : |p| ≤ 2 * W + 2 * (r.u * W) + r.t := by
    have h0 : |x' * b1| ≤ 2 * W := by
      rw [abs_mul]; exact mul_le_mul h2 hb1 (abs_nonneg _) (by norm_num)
    have := abs_sub_abs_le_abs_sub p (x' * b1)
    linarith
  have a2 : |p - b2| ≤ 3 * W + 2 * (r.u * W) + r.t := by
    refine (abs_sub p b2).trans ?_
    linarith
  have e2 : |s - (p - b2)| ≤ r.u * (3 * W + 2 * (r.u * W) + r.t) + r.t := by
    rw [hs]
    refine (r.err _).trans ?_
    have := mul_le_mul_of_nonneg_left a2 hu
    linarith
  have s1 : |s| ≤ 3 * W + 2 * (r.u * W) + r.t + (r.u * (3 * W + 2 * (r.u * W) + r.t) + r.t) := by
    have := abs_sub_abs_le_abs_sub s (p - b2)
    linarith
  have ec : |c' - c| ≤ r.u * |c| + r.t := by rw [hc']; exact r.err c
  have c1 : |c'| ≤ |c| + r.u * |c| + r.t := by
    have := abs_sub_abs_le_abs_sub c' c
    linarith
  have a3 : |s + c'| ≤ 3 * W + 6 * (r.u * W) + 4 * r.t + |c| + r.u * |c| := by
    refine (abs_add_le s c').trans ?_
    nlinarith
  have e3 : |r.rnd (s + c') - (s + c')| ≤ r.u * (3 * W + 6 * (r.u * W) + 4 * r.t + |c| + r.u * |c|) + r.t := by
    refine (r.err _).trans ?_
    have := mul_le_mul_of_nonneg_left a3 hu
    linarith
  rw [abs_le] at *
  constructor <;> nlinarith

/-- The values of a state. -/
def vals (s : Fl r × Fl r × Fl r) : ℝ × ℝ × ℝ := (s.1.val, s.2.1.val, s.2.2.val)

theorem vals_step (x' : ℝ) (s : Fl r × Fl r × Fl r) (e : Fl r) :
    vals (chbStep ⟨x'⟩ s e) =
      (r.rnd (r.rnd (r.rnd (x' * s.1.val) - s.2.1.val) + e.val), s.1.val, s.2.1.val) := rfl

theorem vsum_snoc (l : List ℝ) (e : ℝ) : vsum (l ++ [e]).reverse = vsum l.reverse + |e| := by
  simp [vsum, add_comm]

theorem wsum_snoc (l : List ℝ) (e : ℝ) : wsum 0 (l ++ [e]).reverse = wsum 0 l.reverse + (vsum l.reverse + |e|) := by
  have : (l ++ [e]).reverse = e :: l.reverse := by simp
  rw [this, wsum_cons]
  simp only [vsum, List.map_cons, List.sum_cons]
  ring

/-- The rounded recurrence is the exact recurrence with perturbed coefficients. -/
theorem fold_perturb (hr : Precise r) (ub : ℚ) (hub : r.u ≤ ub) (x x' : ℝ) (hx : |x' - x| ≤ 7 * r.u)
    (h2 : |x'| ≤ 2) (hx2 : |x| ≤ 2) (c0 : ℚ) (rest : List ℚ) :
    ∃ pl : List (ℝ × ℝ), pl.map Prod.fst = (c0 :: rest).map (fun q : ℚ => (q : ℝ)) ∧
      vals ((rest.map fun q : ℚ => (⟨r.rnd q⟩ : Fl r)).foldl (chbStep ⟨x'⟩) (⟨r.rnd c0⟩, 0, 0)) =
        (pl.map fun p => p.1 + p.2).foldl (chbStep x) (0, 0, 0) ∧
      wsum 0 (pl.map fun p => p.1 + p.2).reverse ≤ (((c0 :: rest).foldl (Bnd.next ub) ⟨0, 0, 0⟩).w : ℝ) ∧
      vsum (pl.map fun p => p.1 + p.2).reverse ≤ (((c0 :: rest).foldl (Bnd.next ub) ⟨0, 0, 0⟩).v : ℝ) ∧
      (pl.map fun p => |p.2|).sum ≤ r.u * (((c0 :: rest).foldl (Bnd.next ub) ⟨0, 0, 0⟩).d : ℝ) := by
  have hu := r.u_nonneg
  have ht := r.t_nonneg
  have hub0 : (0 : ℝ) ≤ ub := hu.trans hub
  induction rest using List.reverseRecOn with
  | nil =>
    have herr := r.err c0
    have htl := hr.t_le
    have hd : |r.rnd c0 - c0| ≤ r.u * (3 * |(c0 : ℝ)| + 1 / 100) := by
      have : 0 ≤ r.u * |(c0 : ℝ)| := by positivity
      linarith
    have hdu : |r.rnd c0 - c0| ≤ ub * (3 * |(c0 : ℝ)| + 1 / 100) :=
      hd.trans (mul_le_mul_of_nonneg_right hub (by positivity))
    have hv : |r.rnd c0| ≤ |(c0 : ℝ)| + ub * (3 * |(c0 : ℝ)| + 1 / 100) := by
      have := abs_sub_abs_le_abs_sub (r.rnd c0) (c0 : ℝ)
      linarith
    refine ⟨[((c0 : ℝ), r.rnd c0 - c0)], by simp, ?_, ?_, ?_, ?_⟩
    · simp [vals, chbStep]
    · simp only [List.map_cons, List.map_nil, List.reverse_singleton, add_sub_cancel, wsum, List.foldl_cons,
        List.foldl_nil, Bnd.next]
      push_cast
      linarith
    · simp only [List.map_cons, List.map_nil, List.reverse_singleton, add_sub_cancel, vsum, List.foldl_cons,
        List.foldl_nil, Bnd.next, List.sum_cons, List.sum_nil]
      push_cast
      linarith
    · simp only [List.map_cons, List.map_nil, List.foldl_cons,
        List.foldl_nil, Bnd.next, List.sum_cons, List.sum_nil]
      push_cast
      linarith
  | append_singleton rest c ih =>
    obtain ⟨pl, e1, e2, hw, hv, hd⟩ := ih
    obtain ⟨B, hB⟩ : ∃ B, B = (c0 :: rest).foldl (Bnd.next ub) ⟨0, 0, 0⟩ := ⟨_, rfl⟩
    obtain ⟨st, hst⟩ : ∃ st, st =
      (rest.map fun q : ℚ => (⟨r.rnd q⟩ : Fl r)).foldl (chbStep ⟨x'⟩) (⟨r.rnd c0⟩, 0, 0) := ⟨_, rfl⟩
    have hB' : (c0 :: (rest ++ [c])).foldl (Bnd.next ub) ⟨0, 0, 0⟩ = Bnd.next ub B c := by
      rw [hB, ← List.cons_append, List.foldl_append]; rfl
    have hst' : ((rest ++ [c]).map fun q : ℚ => (⟨r.rnd q⟩ : Fl r)).foldl (chbStep ⟨x'⟩) (⟨r.rnd c0⟩, 0, 0) =
        chbStep ⟨x'⟩ st ⟨r.rnd c⟩ := by
      rw [hst, List.map_append, List.foldl_append]; rfl
    rw [hB', hst']
    rw [← hB] at hw hv hd
    rw [← hst] at e2
    rw [clenshaw] at e2
    have hx' := abs_le.mp hx2
    have b1 : |st.1.val| ≤ (B.w : ℝ) := by
      have : st.1.val = ser (uu x 0) (pl.map fun p => p.1 + p.2).reverse := congrArg Prod.fst e2
      rw [this]
      refine (ser_le x hx'.1 hx'.2 0 _).trans hw
    have b2 : |st.2.1.val| ≤ (B.w : ℝ) := by
      have : st.2.1.val = ser (uu x 0) (pl.map fun p => p.1 + p.2).reverse.tail := congrArg (fun q => q.2.1) e2
      rw [this]
      exact ((ser_le x hx'.1 hx'.2 0 _).trans (wsum_tail _)).trans hw
    have hstep := step_perturb hr x x' st.1.val st.2.1.val c B.w hx h2 b1 b2
    obtain ⟨b0, hb0⟩ : ∃ b0, b0 = r.rnd (r.rnd (r.rnd (x' * st.1.val) - st.2.1.val) + r.rnd c) := ⟨_, rfl⟩
    rw [← hb0] at hstep
    obtain ⟨ε, hε⟩ : ∃ ε, ε = b0 - (x * st.1.val - st.2.1.val + c) := ⟨_, rfl⟩
    rw [← hε] at hstep
    have hBw : (0 : ℝ) ≤ B.w := (abs_nonneg _).trans b1
    have hεu : |ε| ≤ ub * (16 * B.w + 3 * |(c : ℝ)| + 1 / 100) :=
      hstep.trans (mul_le_mul_of_nonneg_right hub (by positivity))
    have hce : |(c : ℝ) + ε| ≤ |(c : ℝ)| + ub * (16 * B.w + 3 * |(c : ℝ)| + 1 / 100) :=
      (abs_add_le _ _).trans (by linarith)
    have hmap : (pl ++ [((c : ℝ), ε)]).map (fun p : ℝ × ℝ => p.1 + p.2) = pl.map (fun p => p.1 + p.2) ++ [(c : ℝ) + ε] := by
      simp
    refine ⟨pl ++ [((c : ℝ), ε)], by simp [e1], ?_, ?_, ?_, ?_⟩
    · rw [hmap, List.foldl_append, clenshaw, ← e2, vals_step, List.foldl_cons, List.foldl_nil]
      simp only [chbStep, vals]
      rw [← hb0, hε]
      congr 1
      ring
    · rw [hmap, wsum_snoc]
      simp only [Bnd.next]
      push_cast
      linarith
    · rw [hmap, vsum_snoc]
      simp only [Bnd.next]
      push_cast
      linarith
    · rw [List.map_append, List.sum_append]
      simp only [List.map_cons, List.map_nil, List.sum_cons, List.sum_nil, Bnd.next]
      push_cast
      linarith

/-- The Chebyshev series of a sum. -/
theorem chebSeries_add (x : ℝ) (pl : List (ℝ × ℝ)) :
    chebSeries x (pl.map fun p => p.1 + p.2) = chebSeries x (pl.map Prod.fst) + chebSeries x (pl.map Prod.snd) := by
  unfold chebSeries
  simp only [List.length_map, ← List.map_reverse]
  obtain ⟨q, hq⟩ : ∃ q, q = pl.reverse := ⟨_, rfl⟩
  have hl : pl.length = q.length := by rw [hq]; simp
  rw [← hq, hl]
  have hg : ∀ i, (q.map fun p => p.1 + p.2).getD i 0 = (q.map Prod.fst).getD i 0 + (q.map Prod.snd).getD i 0 := by
    intro i
    simp only [List.getD_eq_getElem?_getD, List.getElem?_map]
    cases q[i]? <;> simp
  rw [hg 0]
  simp only [hg, add_mul, Finset.sum_add_distrib]
  ring

theorem sum_range_vsum (l : List ℝ) : ∑ i ∈ Finset.range l.length, |l.getD i 0| = vsum l := by
  induction l with
  | nil => simp [vsum]
  | cons e l ih =>
    rw [List.length_cons, Finset.sum_range_succ']
    simp only [List.getD_cons_succ, List.getD_cons_zero, ih]
    simp [vsum, add_comm]

theorem chebSeries_le (x : ℝ) (h1 : -2 ≤ x) (h2 : x ≤ 2) (l : List ℝ) :
    |chebSeries x l| ≤ vsum l := by
  have hrev : vsum l.reverse = vsum l := by
    unfold vsum
    rw [List.map_reverse, List.sum_reverse]
  rw [← hrev, ← sum_range_vsum]
  unfold chebSeries
  by_cases h0 : l.length = 0
  · have : l = [] := List.length_eq_zero_iff.mp h0
    subst this
    simp
  have hsplit : ∑ i ∈ Finset.range l.reverse.length, |l.reverse.getD i 0| =
      |l.reverse.getD 0 0| + ∑ i ∈ Finset.Ico 1 l.length, |l.reverse.getD i 0| := by
    rw [List.length_reverse, Finset.range_eq_Ico, Finset.sum_eq_sum_Ico_succ_bot (by omega)]
  rw [hsplit]
  refine (abs_add_le _ _).trans (add_le_add ?_ ?_)
  · rw [abs_div, abs_of_pos (by norm_num : (0 : ℝ) < 2)]
    linarith [abs_nonneg (l.reverse.getD 0 0)]
  · refine (Finset.abs_sum_le_sum_abs _ _).trans (Finset.sum_le_sum fun i _ => ?_)
    rw [abs_mul]
    exact mul_le_of_le_one_right (abs_nonneg _) (abs_T_le _ _ (by linarith) (by linarith))

/-- `chbevl` in rounded arithmetic at a rounded argument. -/
theorem chbevl_err (hr : Precise r) (ub : ℚ) (hub : r.u ≤ ub) (x x' : ℝ) (hx : |x' - x| ≤ 7 * r.u)
    (h2 : |x'| ≤ 2) (hx2 : |x| ≤ 2) (l : List ℚ) (hl : l ≠ []) :
    |(chbevl (⟨x'⟩ : Fl r) (l.map fun q : ℚ => ⟨r.rnd q⟩)).val - chbevl x (l.map fun q : ℚ => (q : ℝ))| ≤
      r.u * ((Bnd.table ub l).d + 3 * (Bnd.table ub l).v + 1 / 100 : ℚ) := by
  obtain ⟨c0, cs, rfl⟩ := List.exists_cons_of_ne_nil hl
  obtain ⟨pl, e1, e2, hw, hv, hd⟩ := fold_perturb hr ub hub x x' hx h2 hx2 c0 (c0 :: cs)
  have hB : Bnd.table ub (c0 :: cs) = (c0 :: c0 :: cs).foldl (Bnd.next ub) ⟨0, 0, 0⟩ := rfl
  rw [hB]
  obtain ⟨B, hBB⟩ : ∃ B, B = (c0 :: c0 :: cs).foldl (Bnd.next ub) ⟨0, 0, 0⟩ := ⟨_, rfl⟩
  rw [← hBB] at hw hv hd ⊢
  obtain ⟨st, hst⟩ : ∃ st, st = ((c0 :: cs).map fun q : ℚ => (⟨r.rnd q⟩ : Fl r)).foldl (chbStep ⟨x'⟩)
    (⟨r.rnd c0⟩, 0, 0) := ⟨_, rfl⟩
  rw [← hst] at e2
  have hval : (chbevl (⟨x'⟩ : Fl r) ((c0 :: cs).map fun q : ℚ => ⟨r.rnd q⟩)).val =
      r.rnd (r.rnd (st.1.val - st.2.2.val) / 2) := by
    have : chbevl (⟨x'⟩ : Fl r) ((c0 :: cs).map fun q : ℚ => ⟨r.rnd q⟩) = (st.1 - st.2.2) / 2 := by
      rw [hst]; rfl
    have h22 : r.rnd ((2 : ℕ) : ℝ) = 2 := by
      have := hr.int 2 (by norm_num)
      exact_mod_cast this
    rw [this, Fl.val_div, Fl.val_sub, Fl.val_ofNat, h22]
  have hx' := abs_le.mp hx2
  have hS := clenshaw_series x (pl.map fun p => p.1 + p.2)
  rw [← e2] at hS
  simp only [vals] at hS
  have hexact : chbevl x ((c0 :: cs).map fun q : ℚ => (q : ℝ)) = chebSeries x (pl.map Prod.fst) := by
    rw [e1, List.map_cons, chbevl_eq]; rfl
  obtain ⟨S, hSS⟩ : ∃ S, S = chebSeries x (pl.map fun p => p.1 + p.2) := ⟨_, rfl⟩
  have hdiff : |S - chebSeries x (pl.map Prod.fst)| ≤ r.u * B.d := by
    rw [hSS, chebSeries_add, add_sub_cancel_left]
    refine (chebSeries_le x hx'.1 hx'.2 _).trans ?_
    refine le_trans (le_of_eq ?_) hd
    unfold vsum
    rw [List.map_map]
    rfl
  have hSV : |S| ≤ B.v := by
    rw [hSS]
    refine (chebSeries_le x hx'.1 hx'.2 _).trans (le_trans (le_of_eq ?_) hv)
    unfold vsum
    rw [List.map_reverse, List.sum_reverse]
  rw [hval, hexact]
  have h2S : st.1.val - st.2.2.val = 2 * S := by rw [hSS]; linarith
  rw [h2S]
  have hu := r.u_nonneg
  have ht := r.t_nonneg
  have hul := hr.u_le
  have htl := hr.t_le
  norm_num at hul
  have hS0 := abs_nonneg S
  obtain ⟨p, hp⟩ : ∃ p, p = r.rnd (2 * S) := ⟨_, rfl⟩
  rw [← hp]
  have uS : 0 ≤ r.u * |S| := mul_nonneg hu hS0
  have ep : |p - 2 * S| ≤ 2 * (r.u * |S|) + r.t := by
    rw [hp]
    refine (r.err _).trans ?_
    rw [abs_mul, abs_of_pos (by norm_num : (0 : ℝ) < 2)]
    linarith
  have p1 : |p| ≤ 2 * |S| + 2 * (r.u * |S|) + r.t := by
    have := abs_sub_abs_le_abs_sub p (2 * S)
    rw [abs_mul, abs_of_pos (by norm_num : (0 : ℝ) < 2)] at this
    linarith
  have eq : |r.rnd (p / 2) - p / 2| ≤ r.u * (|S| + r.u * |S| + r.t / 2) + r.t := by
    refine (r.err _).trans ?_
    rw [abs_div, abs_of_pos (by norm_num : (0 : ℝ) < 2)]
    have := mul_le_mul_of_nonneg_left p1 hu
    linarith
  have uuS : r.u * (r.u * |S|) ≤ 1 / 10 ^ 5 * (r.u * |S|) := mul_le_mul_of_nonneg_right (by norm_num; linarith) uS
  have uut : r.u * r.t ≤ 1 / 10 ^ 5 * r.t := mul_le_mul_of_nonneg_right (by norm_num; linarith) ht
  have uSV : r.u * |S| ≤ r.u * B.v := mul_le_mul_of_nonneg_left hSV hu
  push_cast
  rw [abs_le] at *
  constructor <;> nlinarith

end SciRs.Bessel

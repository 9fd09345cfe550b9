import Verif.Lemmas.Moments
import Verif.Lemmas.PrimInt
import Mathlib.Tactic.NormNum

/-!
# C03 to C08: moments, autocorrelation, differences and z-scores, over the reals
-/

namespace SciRs.Props

open SciRs SciRs.Spec SciRs.Stats

/-! ### C03 -/

/-- **C03** `mean` of a non-empty sequence is the sum divided by the count, with the count. -/
theorem C03_mean (y : List ℝ) (_ : y ≠ []) : mean y = (y.sum / y.length, y.length) := mean_eq y

/-- **C03** `variance` of a non-empty sequence is the population variance, with the count. -/
theorem C03_variance (y : List ℝ) (_ : y ≠ []) :
    variance y = (avg (y.map (fun v => (v - avg y) ^ 2)), y.length) := variance_eq y

/-- **C03** `variance` is the mean of the squares minus the square of the mean. -/
theorem C03_variance_alt (y : List ℝ) (hne : y ≠ []) :
    (variance y).1 = avg (y.map (fun v => v ^ 2)) - avg y ^ 2 := by
  rw [variance_eq]
  have h0 := (length_pos_real hne).ne'
  have key : ∀ (l : List ℝ) (c : ℝ), (l.map (fun v => (v - c) ^ 2)).sum =
      (l.map (fun v => v ^ 2)).sum - 2 * c * l.sum + l.length * c ^ 2 := by
    intro l c
    induction l with
    | nil => simp
    | cons v vs ih => simp only [List.map_cons, List.sum_cons, ih, List.length_cons]; push_cast; ring
  simp only [pvar]
  rw [avg, key, List.length_map]
  simp only [avg, List.length_map]
  field_simp
  ring

/-- **C03** `stdev` is the non-negative square root of the variance. -/
theorem C03_stdev (y : List ℝ) (hne : y ≠ []) :
    ∃ s, stdev Real.sqrt y = (s, y.length) ∧ 0 ≤ s ∧ s ^ 2 = (variance y).1 := by
  have h0 := List.length_pos_iff.mpr hne
  refine ⟨Real.sqrt (pvar y), ?_, Real.sqrt_nonneg _, ?_⟩
  · unfold stdev
    rw [variance_eq]
    simp [h0.ne', hne]
  · rw [variance_eq, Real.sq_sqrt (pvar_nonneg y)]

/-- **C03** The empty sequence gives `(0, 0)` in all three functions. -/
theorem C03_empty : mean ([] : List ℝ) = (0, 0) ∧ variance ([] : List ℝ) = (0, 0) ∧
    stdev Real.sqrt ([] : List ℝ) = (0, 0) := by
  refine ⟨?_, ?_, ?_⟩ <;> simp [mean, variance, stdev]

/-- **C03** The variance is non-negative, and zero exactly when no two samples differ. -/
theorem C03_variance_nonneg (y : List ℝ) :
    0 ≤ (variance y).1 ∧ ((variance y).1 = 0 ↔ ∀ u ∈ y, ∀ v ∈ y, u = v) := by
  rw [variance_eq]
  refine ⟨pvar_nonneg y, ?_⟩
  rw [pvar_eq_zero_iff, NonConstant]
  push Not
  rfl

/-- **C03** `v ↦ a v + b` maps the mean accordingly and multiplies the variance by `a²`. -/
theorem C03_affine (y : List ℝ) (hne : y ≠ []) (a b : ℝ) :
    (mean (y.map (fun v => a * v + b))).1 = a * (mean y).1 + b ∧
    (variance (y.map (fun v => a * v + b))).1 = a ^ 2 * (variance y).1 := by
  rw [mean_eq, mean_eq, variance_eq, variance_eq]
  exact ⟨avg_affine y hne a b, pvar_affine y hne a b⟩

/-- **C03** (any arithmetic) The count reported by `mean` is the number of samples. -/
theorem C03_count {F : Type} [Zero F] [Add F] [Div F] [NatCast F] (y : List F) :
    (mean y).2 = y.length := by
  have : ∀ (a : F) (n : ℕ), (y.foldl (fun (acc : F × ℕ) yi => (acc.1 + yi, acc.2 + 1)) (a, n)).2 =
      n + y.length := by
    induction y with
    | nil => simp
    | cons v vs ih => intro a n; rw [List.foldl_cons, ih, List.length_cons]; omega
  unfold mean
  dsimp only
  rw [this 0 0, Nat.zero_add]
  split
  · rfl
  · omega

example : NonConstant [1, 2, 3, 4, 5] ∧ mean [1, 2, 3, 4, (5 : ℝ)] = (3, 5) ∧
    (variance [1, 2, 3, 4, (5 : ℝ)]).1 = 2 := by
  refine ⟨⟨1, by simp, 2, by simp, by norm_num⟩, ?_, ?_⟩
  · rw [mean_eq]; norm_num [avg]
  · rw [variance_eq]; norm_num [pvar, avg]

/-! ### C04 -/

theorem autocorr_eq (y : List ℝ) (k : ℕ) :
    autocorr y k = lagSum y k (y.length - k) / y.length / pvar y := by
  unfold autocorr
  rw [mean_eq, variance_eq]
  dsimp only
  rw [sum_eq, sum_zip_map (fun u v => (u - avg y) * (v - avg y)) y (y.drop k) (y.length - k)
    (by omega) (by simp) (by right; simp)]
  unfold lagSum
  congr 2
  refine Finset.sum_congr rfl (fun j _ => ?_)
  rw [getD_drop', Nat.add_comm k j]

/-- **C04** For a non-constant signal, the value is the lag-`k` autocovariance (1/N formulation) divided by
the variance. -/
theorem C04_value (y : List ℝ) (_ : NonConstant y) (k : ℕ) :
    autocorr y k = ((∑ j ∈ Finset.range (y.length - k),
      (y.getD j 0 - avg y) * (y.getD (j + k) 0 - avg y)) / y.length) / pvar y :=
  autocorr_eq y k

theorem lagSum_zero (y : List ℝ) (hne : y ≠ []) : lagSum y 0 y.length = y.length * pvar y := by
  have h0 := (length_pos_real hne).ne'
  have e := sum_zip_map (fun u _ => (u - avg y) ^ 2) y y y.length le_rfl le_rfl (Or.inl rfl)
  have e2 : ((y.zip y).map (fun p => (p.1 - avg y) ^ 2)).sum =
      (y.map (fun v => (v - avg y) ^ 2)).sum := by
    have : ∀ l : List ℝ, (l.zip l).map (fun p => (p.1 - avg y) ^ 2) =
        l.map (fun v => (v - avg y) ^ 2) := by
      intro l
      induction l with
      | nil => rfl
      | cons v vs ih => simp [ih]
    rw [this]
  rw [lagSum, pvar, avg.eq_def (y.map _), List.length_map, ← e2, e]
  field_simp
  refine Finset.sum_congr rfl (fun j _ => ?_)
  rw [Nat.add_zero]; ring

/-- **C04** Lag 0 gives 1. -/
theorem C04_lag_zero (y : List ℝ) (h : NonConstant y) : autocorr y 0 = 1 := by
  have hne := nonConstant_ne h
  have h0 := (length_pos_real hne).ne'
  have hv := (pvar_pos y h).ne'
  rw [autocorr_eq, Nat.sub_zero, lagSum_zero y hne]
  field_simp

/-- **C04** A lag of at least the length gives 0. -/
theorem C04_large_lag (y : List ℝ) (_ : NonConstant y) (k : ℕ) (hk : y.length ≤ k) :
    autocorr y k = 0 := by
  rw [autocorr_eq, Nat.sub_eq_zero_of_le hk]
  simp [lagSum]

/-- **C04** Every value lies between -1 and 1. -/
theorem C04_bounded (y : List ℝ) (h : NonConstant y) (k : ℕ) : |autocorr y k| ≤ 1 := by
  have hne := nonConstant_ne h
  have h0 := length_pos_real hne
  have hv := pvar_pos y h
  rcases Nat.le_total y.length k with hk | hk
  · rw [C04_large_lag y h k hk]; simp
  have key : |lagSum y k (y.length - k)| ≤ y.length * pvar y := by
    rw [← lagSum_zero y hne]
    set d : ℕ → ℝ := fun j => y.getD j 0 - avg y with hd
    have e0 : lagSum y 0 y.length = ∑ j ∈ Finset.range y.length, d j ^ 2 := by
      refine Finset.sum_congr rfl (fun j _ => ?_)
      rw [Nat.add_zero, pow_two]
    have a1 : |lagSum y k (y.length - k)| ≤
        ∑ j ∈ Finset.range (y.length - k), (d j ^ 2 / 2 + d (j + k) ^ 2 / 2) := by
      refine (Finset.abs_sum_le_sum_abs _ _).trans (Finset.sum_le_sum (fun j _ => ?_))
      show |d j * d (j + k)| ≤ _
      rw [abs_le]
      constructor
      · nlinarith [sq_nonneg (d j + d (j + k))]
      · nlinarith [sq_nonneg (d j - d (j + k))]
    have a2 : ∑ j ∈ Finset.range (y.length - k), d j ^ 2 / 2 ≤
        ∑ j ∈ Finset.range y.length, d j ^ 2 / 2 :=
      Finset.sum_le_sum_of_subset_of_nonneg
        (Finset.range_subset_range.mpr (by omega)) (fun _ _ _ => by positivity)
    have a3 : ∑ j ∈ Finset.range (y.length - k), d (j + k) ^ 2 / 2 ≤
        ∑ j ∈ Finset.range y.length, d j ^ 2 / 2 := by
      have : ∑ j ∈ Finset.range y.length, d j ^ 2 / 2 =
          ∑ j ∈ Finset.range k, d j ^ 2 / 2 +
          ∑ j ∈ Finset.range (y.length - k), d (j + k) ^ 2 / 2 := by
        conv_lhs => rw [show y.length = k + (y.length - k) by omega, Finset.sum_range_add]
        congr 1
        exact Finset.sum_congr rfl (fun j _ => by rw [Nat.add_comm])
      rw [this]
      have : 0 ≤ ∑ j ∈ Finset.range k, d j ^ 2 / 2 :=
        Finset.sum_nonneg (fun _ _ => by positivity)
      linarith
    rw [Finset.sum_add_distrib] at a1
    rw [e0]
    have : ∑ j ∈ Finset.range y.length, d j ^ 2 =
        ∑ j ∈ Finset.range y.length, d j ^ 2 / 2 + ∑ j ∈ Finset.range y.length, d j ^ 2 / 2 := by
      rw [← Finset.sum_add_distrib]
      exact Finset.sum_congr rfl (fun j _ => by ring)
    linarith
  rw [autocorr_eq, abs_div, abs_div, abs_of_pos hv, abs_of_pos h0, div_div, div_le_one (by positivity)]
  exact key

theorem lagSum_affine (y : List ℝ) (hne : y ≠ []) (a b : ℝ) (h n : ℕ) (hn : n + h ≤ y.length) :
    lagSum (y.map (fun v => a * v + b)) h n = a ^ 2 * lagSum y h n := by
  unfold lagSum
  rw [avg_affine y hne, Finset.mul_sum]
  refine Finset.sum_congr rfl (fun j hj => ?_)
  have hj := Finset.mem_range.mp hj
  have e : ∀ i, i < y.length → (y.map (fun v => a * v + b)).getD i 0 = a * y.getD i 0 + b := by
    intro i hi
    rw [List.getD_eq_getElem _ _ (by simpa using hi), List.getD_eq_getElem _ _ hi]
    simp
  rw [e j (by omega), e (j + h) (by omega)]
  ring

/-- **C04** The value does not change under `v ↦ a v + b`, `a ≠ 0`. -/
theorem C04_affine (y : List ℝ) (h : NonConstant y) (k : ℕ) (a b : ℝ) (ha : a ≠ 0) :
    autocorr (y.map (fun v => a * v + b)) k = autocorr y k := by
  have hne := nonConstant_ne h
  rcases Nat.le_total y.length k with hk | hk
  · rw [autocorr_eq, autocorr_eq, List.length_map, Nat.sub_eq_zero_of_le hk]
    simp [lagSum]
  have h0 := (length_pos_real hne).ne'
  have hv := (pvar_pos y h).ne'
  rw [autocorr_eq, autocorr_eq, List.length_map, pvar_affine y hne,
    lagSum_affine y hne a b k _ (by omega)]
  field_simp

/-! ### C05 -/

theorem autocorrLag_eq (y : List ℝ) (avg' : ℝ) (h : ℕ) (hh : h ≤ y.length) :
    autocorrLag (y.map (fun v => v - avg')) h =
      ∑ j ∈ Finset.range (4 * ((y.length - h) / 4)),
        (y.getD j 0 - avg') * (y.getD (j + h) 0 - avg') := by
  unfold autocorrLag
  dsimp only
  rw [tiles_eq _ _ (by simp)]
  have hl : ((y.map (fun v => v - avg')).take ((y.map (fun v => v - avg')).length - h)).length =
      y.length - h := by simp
  rw [hl]
  refine Finset.sum_congr rfl (fun j hj => ?_)
  have hj := Finset.mem_range.mp hj
  have hj' : j < y.length - h := by omega
  rw [List.getD_eq_getElem _ _ (by rw [hl]; exact hj'),
    List.getD_eq_getElem (l := (y.map (fun v => v - avg')).drop h) _ (by simpa using hj'),
    List.getD_eq_getElem _ _ (by omega), List.getD_eq_getElem _ _ (by omega)]
  simp [Nat.add_comm]

/-- **C05** The exact effect of a call that satisfies the length condition, in every build: the buffer `y`
holds the deviations from the mean, the returned value is the variance, and entry `i` of `x` is the sum
of the products of deviations at lag `SKIP + i` over the complete tiles of four only, i.e. over the first
`4·⌊(N - lag)/4⌋` of the `N - lag` products. -/
theorem C05_value (c : Cfg) (skip : ℕ) (y x : List ℝ) (hne : y ≠ [])
    (hfit : ((x.length + skip : ℕ) : ℤ) ≤ c.usizeMax) (h : x.length + skip ≤ y.length) :
    ∃ x', autocorrFast32 c skip y x = .ok ((variance y).1, y.map (fun v => v - avg y), x') ∧
      x'.length = x.length ∧ ∀ i, i < x.length →
        x'.getD i 0 = lagSum y (skip + i) (4 * ((y.length - (skip + i)) / 4)) := by
  refine ⟨((List.range' skip (y.length - skip)).zip x).map
    (fun p => autocorrLag (y.map (fun v => v - avg y)) p.1), ?_, ?_, ?_⟩
  · unfold autocorrFast32
    rw [usizeAdd_ok c hfit]
    simp only [ok_bind, check_true h, List.length_map]
    have hd : x.drop (List.range' skip (y.length - skip)).length = [] := by
      rw [List.drop_eq_nil_iff, List.length_range']; omega
    rw [hd, List.append_nil, sum_eq, sum_eq, variance_eq]
    have : (List.map (fun yi => yi * yi) (List.map (fun yi => yi - y.sum / ↑y.length) y)).sum /
        ↑y.length = pvar y := by
      rw [List.map_map, pvar, avg.eq_def (y.map _), List.length_map]
      congr 2
      refine List.map_congr_left (fun v _ => ?_)
      simp only [Function.comp, avg]; ring
    rw [this]
    rfl
  · simp; omega
  · intro i hi
    have hlen : i < (((List.range' skip (y.length - skip)).zip x).map
        (fun p => autocorrLag (y.map (fun v => v - avg y)) p.1)).length := by simp; omega
    rw [List.getD_eq_getElem _ _ hlen]
    simp only [List.getElem_map, List.getElem_zip, List.getElem_range', Nat.one_mul]
    rw [autocorrLag_eq y (avg y) (skip + i) (by omega)]
    rfl

/-- **C05 (partial)** The full claim is: entry `i` of the output is the unscaled autocovariance
`∑_{j < N - lag} (y_j - ȳ)(y_{j+lag} - ȳ)` at lag `SKIP + i`, so that dividing it by `N` and by the
returned variance gives `autocorr`.  Proved for the lags for which `N - lag` is a multiple of 4.  For other
lags it is false of the code, see `C05_wrong`: the last `(N - lag) % 4` products are lost. -/
theorem C05_exact_partial (c : Cfg) (skip : ℕ) (y x : List ℝ) (hne : y ≠ [])
    (hfit : ((x.length + skip : ℕ) : ℤ) ≤ c.usizeMax) (h : x.length + skip ≤ y.length) :
    ∃ v y' x', autocorrFast32 c skip y x = .ok (v, y', x') ∧ ∀ i, i < x.length →
      (y.length - (skip + i)) % 4 = 0 →
        x'.getD i 0 = lagSum y (skip + i) (y.length - (skip + i)) ∧
        x'.getD i 0 / y.length / v = autocorr y (skip + i) := by
  obtain ⟨x', h1, _, h3⟩ := C05_value c skip y x hne hfit h
  refine ⟨_, _, x', h1, fun i hi h4 => ?_⟩
  have e := h3 i hi
  rw [show 4 * ((y.length - (skip + i)) / 4) = y.length - (skip + i) by omega] at e
  refine ⟨e, ?_⟩
  rw [e, autocorr_eq, variance_eq]

example : ∃ v y' x', autocorrFast32 ⟨64, true, by decide⟩ 1 [1, 2, 3, 4, (10 : ℝ)] [0, 0] =
    .ok (v, y', x') ∧ x'.getD 0 0 = lagSum [1, 2, 3, 4, 10] 1 4 := by
  obtain ⟨v, y', x', h, h'⟩ := C05_exact_partial ⟨64, true, by decide⟩ 1 [1, 2, 3, 4, (10 : ℝ)] [0, 0]
    (by simp) (by decide) (by simp)
  exact ⟨v, y', x', h, (h' 0 (by simp) (by simp)).1⟩

/-- **C05** Losing the remainder of the tiles matters: for `y = [0, 0, 0, 0, 5]` the unscaled autocovariance
at lag 0 is 20 and the code leaves 4 in the output. -/
theorem C05_wrong : ∃ v y' x', autocorrFast32 ⟨64, true, by decide⟩ 0 [0, 0, 0, 0, (5 : ℝ)] [0] =
      .ok (v, y', [x']) ∧ lagSum [0, 0, 0, 0, 5] 0 5 = 20 ∧ x' = 4 := by
  obtain ⟨x', h1, h2, h3⟩ := C05_value ⟨64, true, by decide⟩ 0 [0, 0, 0, 0, (5 : ℝ)] [0] (by simp)
    (by decide) (by simp)
  obtain ⟨w, rfl⟩ := List.length_eq_one_iff.mp h2
  have := h3 0 (by simp)
  refine ⟨_, _, w, h1, ?_, ?_⟩
  · norm_num [lagSum, Finset.sum_range_succ, avg]
  · simp only [List.getD_cons_zero] at this
    rw [this]
    norm_num [lagSum, Finset.sum_range_succ, avg]

/-- **C05** With overflow checks the call panics exactly when `M + SKIP > N` (`N` is a `usize`). -/
theorem C05_panics_iff (c : Cfg) (hc : c.checked = true) (skip : ℕ) (y x : List ℝ)
    (hN : (y.length : ℤ) ≤ c.usizeMax) :
    Panics (autocorrFast32 c skip y x) ↔ y.length < x.length + skip := by
  unfold autocorrFast32
  by_cases hfit : ((x.length + skip : ℕ) : ℤ) ≤ c.usizeMax
  · rw [usizeAdd_ok c hfit]
    by_cases h : x.length + skip ≤ y.length
    · simp only [ok_bind, check_true h]
      simp only [pure, Except.pure, panics_ok, false_iff]
      omega
    · simp only [ok_bind, check_false h, error_bind]
      simp; omega
  · have : c.usizeAdd x.length skip = .error Err.overflow := by
      simp only [Cfg.usizeAdd, hfit, if_false, hc, if_true]
    rw [this]
    simp only [error_bind]
    simp
    push_cast at hfit; omega

/-! ### C06 -/

/-- **C06** `rms_fast32` is the non-negative root of the mean of the squares, whatever the length. -/
theorem C06_rms (y : List ℝ) (hne : y ≠ []) :
    0 ≤ rmsFast32 Real.sqrt y ∧
      rmsFast32 Real.sqrt y ^ 2 = (y.map (fun v => v ^ 2)).sum / y.length := by
  unfold rmsFast32
  dsimp only
  rw [tiles_sq]
  refine ⟨Real.sqrt_nonneg _, Real.sq_sqrt (div_nonneg ?_ (by positivity))⟩
  exact sum_sq_nonneg y id

example : rmsFast32 Real.sqrt [1, -7, 1, 1, -1, 1, (-1 : ℝ)] ^ 2 = 55 / 7 := by
  rw [(C06_rms _ (by simp)).2]; norm_num

/-! ### C07 -/

/-- **C07** (any arithmetic) `lag_diff` of `n` samples has `n - 1` entries. -/
theorem C07_length {F : Type} [Sub F] (y : List F) : (lagDiff y).length = y.length - 1 := by
  simp [lagDiff]

/-- **C07** (any arithmetic) Entry `i` is `y[i+1] - y[i]`. -/
theorem C07_entry {F : Type} [Sub F] (y : List F) (i : ℕ) (h : i + 1 < y.length) :
    (lagDiff y)[i]'(by rw [C07_length]; omega) = y[i + 1] - y[i] := by
  simp [lagDiff, Nat.add_comm]

/-- **C07** The first sample and the differences determine the signal. -/
theorem C07_reconstruct (y : List ℝ) (i : ℕ) (h : i < y.length) :
    y[i] = y[0]'(by omega) + ∑ j ∈ Finset.range i, (lagDiff y).getD j 0 := by
  induction i with
  | zero => simp
  | succ i ih =>
    rw [Finset.sum_range_succ, ← add_assoc, ← ih (by omega),
      List.getD_eq_getElem _ _ (by rw [C07_length]; omega), C07_entry y i h]
    ring

theorem tupleWindows_eq (y : List ℝ) : tupleWindows y = y.zip (y.drop 1) := by
  induction y with
  | nil => rfl
  | cons a l ih =>
    cases l with
    | nil => rfl
    | cons b l => rw [tupleWindows, ih]; rfl

/-- **C07** `rmssd` of at least two samples is the non-negative root of the mean of the squared successive
differences. -/
theorem C07_rmssd (y : List ℝ) (h : 2 ≤ y.length) :
    0 ≤ rmssd Real.sqrt y ∧ rmssd Real.sqrt y ^ 2 =
      (∑ i ∈ Finset.range (y.length - 1), (y.getD (i + 1) 0 - y.getD i 0) ^ 2) /
        ((y.length - 1 : ℕ) : ℝ) := by
  have e : (mean ((tupleWindows y).map (fun p => (p.2 - p.1) * (p.2 - p.1)))).1 =
      (∑ i ∈ Finset.range (y.length - 1), (y.getD (i + 1) 0 - y.getD i 0) ^ 2) /
        ((y.length - 1 : ℕ) : ℝ) := by
    rw [mean_eq, tupleWindows_eq]
    dsimp only
    rw [avg, sum_zip_map (fun u v => (v - u) * (v - u)) y (y.drop 1) (y.length - 1) (by omega)
      (by simp) (by right; simp)]
    congr 1
    · refine Finset.sum_congr rfl (fun j _ => ?_)
      rw [getD_drop', Nat.add_comm 1 j]; ring
    · simp
  unfold rmssd
  dsimp only
  rw [e]
  refine ⟨Real.sqrt_nonneg _, Real.sq_sqrt (div_nonneg ?_ (by positivity))⟩
  exact Finset.sum_nonneg (fun _ _ => by positivity)

example : 2 ≤ [1, 2, (4 : ℝ)].length ∧ rmssd Real.sqrt [1, 2, (4 : ℝ)] ^ 2 = 5 / 2 := by
  refine ⟨by simp, ?_⟩
  rw [(C07_rmssd _ (by simp)).2]
  norm_num [Finset.sum_range_succ]

/-- **C07** Adding a constant to the signal changes neither the differences nor `rmssd`. -/
theorem C07_shift (y : List ℝ) (b : ℝ) :
    lagDiff (y.map (fun v => v + b)) = lagDiff y ∧
    rmssd Real.sqrt (y.map (fun v => v + b)) = rmssd Real.sqrt y := by
  have key : ∀ f : ℝ → ℝ, ((y.map (fun v => v + b)).zip ((y.map (fun v => v + b)).drop 1)).map
      (fun p => f (p.2 - p.1)) = (y.zip (y.drop 1)).map (fun p => f (p.2 - p.1)) := by
    intro f
    rw [← List.map_drop, List.zip_map, List.map_map]
    refine List.map_congr_left (fun p _ => ?_)
    simp [Prod.map]
  refine ⟨key id, ?_⟩
  unfold rmssd
  rw [tupleWindows_eq, tupleWindows_eq]
  have := key (fun d => d * d)
  rw [this]

/-! ### C08 -/

theorem zscore_eq (y : List ℝ) (hne : y ≠ []) :
    zscore Real.sqrt y = y.map (fun v => (v - avg y) / Real.sqrt (pvar y)) := by
  have h0 := List.length_pos_iff.mpr hne
  unfold zscore stdev
  rw [mean_eq, variance_eq]
  simp [hne]

/-- **C08** `zscore` keeps number and order of the samples: entry `i` is the standardised sample `i`. -/
theorem C08_entry (y : List ℝ) (hne : y ≠ []) :
    (zscore Real.sqrt y).length = y.length ∧ ∀ i, i < y.length →
      (zscore Real.sqrt y).getD i 0 =
        (y.getD i 0 - (mean y).1) / (stdev Real.sqrt y).1 := by
  have h0 := List.length_pos_iff.mpr hne
  refine ⟨by simp [zscore], fun i hi => ?_⟩
  rw [List.getD_eq_getElem _ _ (by simpa [zscore] using hi), List.getD_eq_getElem _ _ hi]
  simp [zscore]

/-- **C08** The scores of a non-constant signal have mean 0 and variance 1. -/
theorem C08_standard (y : List ℝ) (h : NonConstant y) :
    (mean (zscore Real.sqrt y)).1 = 0 ∧ (variance (zscore Real.sqrt y)).1 = 1 := by
  have hne := nonConstant_ne h
  have hv := pvar_pos y h
  have hs : Real.sqrt (pvar y) ≠ 0 := (Real.sqrt_pos.mpr hv).ne'
  have e : zscore Real.sqrt y =
      y.map (fun v => (1 / Real.sqrt (pvar y)) * v + -(avg y / Real.sqrt (pvar y))) := by
    rw [zscore_eq y hne]
    exact List.map_congr_left (fun v _ => by field_simp; ring)
  rw [mean_eq, variance_eq, e]
  refine ⟨?_, ?_⟩
  · show avg _ = 0
    rw [avg_affine y hne]; field_simp; ring
  · show pvar _ = 1
    rw [pvar_affine y hne, div_pow, Real.sq_sqrt hv.le]; field_simp

/-- **C08** `v ↦ a v + b` with `a > 0` does not change the scores. -/
theorem C08_affine (y : List ℝ) (h : NonConstant y) (a b : ℝ) (ha : 0 < a) :
    zscore Real.sqrt (y.map (fun v => a * v + b)) = zscore Real.sqrt y := by
  have hne := nonConstant_ne h
  have hv := pvar_pos y h
  have hs : Real.sqrt (pvar y) ≠ 0 := (Real.sqrt_pos.mpr hv).ne'
  rw [zscore_eq y hne, zscore_eq _ (by simpa using hne), avg_affine y hne, pvar_affine y hne,
    Real.sqrt_mul (by positivity), Real.sqrt_sq ha.le, List.map_map]
  refine List.map_congr_left (fun v _ => ?_)
  simp only [Function.comp]
  field_simp
  ring

end SciRs.Props

import Verif.Props.StatsRobust
import Mathlib.Analysis.SpecialFunctions.Trigonometric.Basic

/-!
# C110: how the statistics relate to each other

In exact arithmetic: the mean and the median as best approximations, statistics of joined data, the distance between
mean and median, how large scores can be, the spectrum of the autocorrelation.
-/

namespace SciRs.Props

open SciRs SciRs.Spec SciRs.Stats

/-! ### Helpers -/

theorem stdev_fst (y : List ℝ) (hne : y ≠ []) : (stdev Real.sqrt y).1 = √(pvar y) := by
  have h0 := List.length_pos_iff.mpr hne
  unfold stdev
  rw [variance_eq]
  simp [hne]

theorem sum_sq_about (y : List ℝ) (c : ℝ) (hne : y ≠ []) :
    (y.map (fun v => (v - c) ^ 2)).sum = y.length * pvar y + y.length * (avg y - c) ^ 2 := by
  have h0 := (length_pos_real hne).ne'
  have key : ∀ (l : List ℝ) (a : ℝ), (l.map (fun v => (v - c) ^ 2)).sum =
      (l.map (fun v => (v - a) ^ 2)).sum + 2 * (a - c) * (l.sum - l.length * a) + l.length * (a - c) ^ 2 := by
    intro l a
    induction l with
    | nil => simp
    | cons v vs ih => simp only [List.map_cons, List.sum_cons, ih, List.length_cons]; push_cast; ring
  have e : y.length * pvar y = (y.map (fun v => (v - avg y) ^ 2)).sum := by
    rw [pvar, avg.eq_def (y.map _), List.length_map]; field_simp
  have e2 : y.sum - y.length * avg y = 0 := by rw [avg]; field_simp; ring
  rw [key y (avg y), e, e2]
  ring

theorem sq_sum_le (l : List ℝ) : l.sum ^ 2 ≤ l.length * (l.map (fun v => v ^ 2)).sum := by
  by_cases hne : l = []
  · subst hne; simp
  have h0 := length_pos_real hne
  have h1 := sum_sq_about l 0 hne
  have h2 := pvar_nonneg l
  simp only [sub_zero] at h1
  rw [h1]
  have h3 : l.sum = l.length * avg l := by rw [avg]; field_simp
  rw [h3]
  nlinarith [mul_nonneg (mul_nonneg h0.le h0.le) h2]

theorem countP_drop_ge (s : List ℝ) (p : ℝ → Bool) (i : ℕ) (h : ∀ j (hj : j < s.length), i ≤ j → p s[j] = true) :
    s.length - i ≤ s.countP p := by
  have e : s.countP p = (s.take i).countP p + (s.drop i).countP p := by
    rw [← List.countP_append, List.take_append_drop]
  have h0 : (s.drop i).countP p = (s.drop i).length := by
    rw [List.countP_eq_length]
    intro a ha
    obtain ⟨j, hj, rfl⟩ := List.mem_iff_getElem.mp ha
    rw [List.getElem_drop]
    exact h _ _ (Nat.le_add_right _ _)
  rw [List.length_drop] at h0
  omega

theorem countP_take_ge (s : List ℝ) (p : ℝ → Bool) (i : ℕ) (hi : i ≤ s.length)
    (h : ∀ j (hj : j < s.length), j < i → p s[j] = true) : i ≤ s.countP p := by
  have e : s.countP p = (s.take i).countP p + (s.drop i).countP p := by
    rw [← List.countP_append, List.take_append_drop]
  have h0 : (s.take i).countP p = (s.take i).length := by
    rw [List.countP_eq_length]
    intro a ha
    obtain ⟨j, hj, rfl⟩ := List.mem_iff_getElem.mp ha
    rw [List.length_take] at hj
    rw [List.getElem_take]
    exact h _ _ (by omega)
  rw [List.length_take] at h0
  omega

/-- At least half of the samples are at most the median, and at least half are at least the median. -/
theorem isMedianOf_counts {y : List ℝ} {m : ℝ} (hm : IsMedianOf m y) :
    y.length ≤ 2 * y.countP (fun v => v ≤ m) ∧ y.length ≤ 2 * y.countP (fun v => m ≤ v) := by
  obtain ⟨s, hs, rfl⟩ := hm
  rw [← hs.1.countP_eq, ← hs.1.countP_eq, ← hs.1.length_eq]
  by_cases h0 : s = []
  · subst h0; simp
  have hpos := List.length_pos_iff.mpr h0
  have mono : ∀ i j (hi : i < s.length) (hj : j < s.length), i ≤ j → s[i] ≤ s[j] := by
    intro i j hi hj hij
    rcases Nat.lt_or_ge i j with h | h
    · exact List.pairwise_iff_getElem.mp hs.2 i j hi hj h
    · have : i = j := by omega
      subst this; exact le_rfl
  have h2 : s.length / 2 < s.length := by omega
  have bounds : ∀ j (hj : j < s.length), (s.length / 2 ≤ j → middle s ≤ s[j]) ∧
      (j < s.length - s.length / 2 → s[j] ≤ middle s) := by
    intro j hj
    unfold middle
    by_cases h : s.length % 2 = 1
    · rw [if_pos h, List.getD_eq_getElem _ _ h2]
      exact ⟨fun k => mono _ _ _ _ k, fun k => mono _ _ _ _ (by omega)⟩
    · rw [if_neg h, List.getD_eq_getElem _ _ h2, List.getD_eq_getElem _ _ (by omega)]
      have a := mono (s.length / 2 - 1) (s.length / 2) (by omega) h2 (by omega)
      refine ⟨fun k => ?_, fun k => ?_⟩
      · have := mono (s.length / 2) j h2 hj k
        linarith
      · have := mono j (s.length / 2 - 1) hj (by omega) (by omega)
        linarith
  constructor
  · have := countP_take_ge s (fun v => decide (v ≤ middle s)) (s.length - s.length / 2) (by omega)
      (fun j hj hji => by simpa using (bounds j hj).2 hji)
    omega
  · have := countP_drop_ge s (fun v => decide (middle s ≤ v)) (s.length / 2)
      (fun j hj hji => by simpa using (bounds j hj).1 hji)
    omega

theorem sum_abs_about_ge (y : List ℝ) (m c : ℝ) (h : m ≤ c) :
    (y.map (fun v => |v - m|)).sum + (c - m) * (2 * y.countP (fun v => v ≤ m) - y.length) ≤
      (y.map (fun v => |v - c|)).sum := by
  induction y with
  | nil => simp
  | cons v vs ih =>
    simp only [List.map_cons, List.sum_cons, List.countP_cons, List.length_cons]
    by_cases hv : v ≤ m
    · simp only [hv, decide_true, if_true]
      rw [abs_of_nonpos (by linarith : v - m ≤ 0), abs_of_nonpos (by linarith : v - c ≤ 0)]
      push_cast
      nlinarith
    · simp only [hv, decide_false]
      have a1 := abs_sub_abs_le_abs_sub (v - m) (v - c)
      have a2 : |v - m - (v - c)| = c - m := by
        rw [show v - m - (v - c) = c - m by ring, abs_of_nonneg (by linarith)]
      rw [a2] at a1
      push_cast
      simp only [Bool.false_eq_true, if_false, Nat.cast_zero, add_zero]
      nlinarith

theorem sum_abs_about_ge' (y : List ℝ) (m c : ℝ) (h : c ≤ m) :
    (y.map (fun v => |v - m|)).sum + (m - c) * (2 * y.countP (fun v => m ≤ v) - y.length) ≤
      (y.map (fun v => |v - c|)).sum := by
  induction y with
  | nil => simp
  | cons v vs ih =>
    simp only [List.map_cons, List.sum_cons, List.countP_cons, List.length_cons]
    by_cases hv : m ≤ v
    · simp only [hv, decide_true, if_true]
      rw [abs_of_nonneg (by linarith : 0 ≤ v - m), abs_of_nonneg (by linarith : 0 ≤ v - c)]
      push_cast
      nlinarith
    · simp only [hv, decide_false]
      have a1 := abs_sub_abs_le_abs_sub (v - m) (v - c)
      have a2 : |v - m - (v - c)| = m - c := by
        rw [show v - m - (v - c) = -(m - c) by ring, abs_neg, abs_of_nonneg (by linarith)]
      rw [a2] at a1
      push_cast
      simp only [Bool.false_eq_true, if_false, Nat.cast_zero, add_zero]
      nlinarith

theorem abs_sum_le (l : List ℝ) : |l.sum| ≤ (l.map (fun v => |v|)).sum := by
  induction l with
  | nil => simp
  | cons v vs ih =>
    simp only [List.map_cons, List.sum_cons]
    exact (abs_add_le _ _).trans (by linarith)

theorem count_sq_le_sum (l : List ℝ) (t : ℝ) (ht : 0 ≤ t) :
    l.countP (fun v => t ≤ |v|) * t ^ 2 ≤ (l.map (fun v => v ^ 2)).sum := by
  induction l with
  | nil => simp
  | cons v vs ih =>
    simp only [List.map_cons, List.sum_cons, List.countP_cons]
    by_cases hv : t ≤ |v|
    · have := pow_le_pow_left₀ ht hv 2
      rw [sq_abs] at this
      simp only [hv, decide_true, if_true]
      push_cast
      linarith
    · simp only [hv, decide_false]
      push_cast
      simp only [Bool.false_eq_true, if_false, Nat.cast_zero, add_zero]
      nlinarith [sq_nonneg v]

/-! ### Best approximations -/

/-- **C110** The sum of squared distances of the samples from a number `c` is `n` times the variance plus `n` times the
square of the distance of `c` from the mean: the mean is the one number that makes it smallest. -/
theorem C110_mean_least_squares (y : List ℝ) (hne : y ≠ []) (c : ℝ) :
    (y.map (fun v => (v - c) ^ 2)).sum = y.length * (variance y).1 + y.length * ((mean y).1 - c) ^ 2 := by
  rw [variance_eq, mean_eq]
  exact sum_sq_about y c hne

/-- **C110** The median makes the sum of the distances of the samples from one number smallest. -/
theorem C110_median_least_distance (y : List ℝ) (hne : y ≠ []) (m : ℝ)
    (hm : RunReturns (median y) (m, y.length)) (c : ℝ) :
    (y.map (fun v => |v - m|)).sum ≤ (y.map (fun v => |v - c|)).sum := by
  obtain ⟨h1, h2⟩ := isMedianOf_counts ((returns_iff_isMedianOf y hne m _).mp hm).1
  have h1' : (y.length : ℝ) ≤ 2 * y.countP (fun v => v ≤ m) := by exact_mod_cast h1
  have h2' : (y.length : ℝ) ≤ 2 * y.countP (fun v => m ≤ v) := by exact_mod_cast h2
  rcases le_total m c with h | h
  · have := sum_abs_about_ge y m c h
    nlinarith [mul_nonneg (sub_nonneg.mpr h) (sub_nonneg.mpr h1')]
  · have := sum_abs_about_ge' y m c h
    nlinarith [mul_nonneg (sub_nonneg.mpr h) (sub_nonneg.mpr h2')]

/-! ### Joined data -/

/-- **C110** The mean and the variance of joined data follow from the means, variances and counts of the parts. -/
theorem C110_joined (x y : List ℝ) (hx : x ≠ []) (hy : y ≠ []) :
    (mean (x ++ y)).1 = (x.length * (mean x).1 + y.length * (mean y).1) / (x.length + y.length) ∧
    (variance (x ++ y)).1 = (x.length * (variance x).1 + y.length * (variance y).1) / (x.length + y.length) +
      x.length * y.length * ((mean x).1 - (mean y).1) ^ 2 / (x.length + y.length) ^ 2 := by
  have h1 := length_pos_real hx
  have h2 := length_pos_real hy
  have hxy : x ++ y ≠ [] := by simp [hx]
  have e1 : avg (x ++ y) = (x.length * avg x + y.length * avg y) / (x.length + y.length) := by
    unfold avg
    rw [List.sum_append, List.length_append]
    push_cast
    field_simp
  simp only [mean_eq, variance_eq]
  refine ⟨e1, ?_⟩
  have k := sum_sq_about (x ++ y) (avg (x ++ y)) hxy
  rw [List.map_append, List.sum_append, sum_sq_about x _ hx, sum_sq_about y _ hy, sub_self, List.length_append] at k
  push_cast at k
  have e2 : pvar (x ++ y) = (x.length * pvar x + x.length * (avg x - avg (x ++ y)) ^ 2 +
      (y.length * pvar y + y.length * (avg y - avg (x ++ y)) ^ 2)) / (x.length + y.length) := by
    rw [eq_div_iff (by positivity)]; linarith
  rw [e2, e1]
  field_simp
  ring

/-! ### Sizes -/

/-- **C110** The mean lies between the bounds of the samples, and the standard deviation is at most half of their
distance. -/
theorem C110_bounds (y : List ℝ) (hne : y ≠ []) (a b : ℝ) (h : ∀ v ∈ y, a ≤ v ∧ v ≤ b) :
    a ≤ (mean y).1 ∧ (mean y).1 ≤ b ∧ (stdev Real.sqrt y).1 ≤ (b - a) / 2 := by
  have h0 := length_pos_real hne
  have s : ∀ (l : List ℝ), (∀ v ∈ l, a ≤ v ∧ v ≤ b) → l.length * a ≤ l.sum ∧ l.sum ≤ l.length * b ∧
      (l.map (fun v => (v - (a + b) / 2) ^ 2)).sum ≤ l.length * ((b - a) / 2) ^ 2 := by
    intro l hl
    induction l with
    | nil => simp
    | cons v vs ih =>
      obtain ⟨i1, i2, i3⟩ := ih (fun u hu => hl u (List.mem_cons_of_mem _ hu))
      obtain ⟨j1, j2⟩ := hl v List.mem_cons_self
      simp only [List.map_cons, List.sum_cons, List.length_cons]
      push_cast
      refine ⟨by linarith, by linarith, ?_⟩
      nlinarith [mul_nonneg (sub_nonneg.mpr j1) (sub_nonneg.mpr j2)]
  obtain ⟨s1, s2, s3⟩ := s y h
  have hab : a ≤ b := by
    obtain ⟨v, hv⟩ := List.exists_mem_of_ne_nil y hne
    exact (h v hv).1.trans (h v hv).2
  rw [mean_eq, stdev_fst y hne]
  refine ⟨?_, ?_, ?_⟩
  · show a ≤ avg y
    rw [avg, le_div_iff₀ h0]; linarith
  · show avg y ≤ b
    rw [avg, div_le_iff₀ h0]; linarith
  · refine Real.sqrt_le_iff.mpr ⟨by linarith, ?_⟩
    rw [sum_sq_about y _ hne] at s3
    have : y.length * pvar y ≤ y.length * ((b - a) / 2) ^ 2 := by
      nlinarith [mul_nonneg h0.le (sq_nonneg (avg y - (a + b) / 2))]
    exact le_of_mul_le_mul_left this h0

/-- **C110** The median and the mean differ by at most one standard deviation. -/
theorem C110_mean_median (y : List ℝ) (hne : y ≠ []) (m : ℝ) (hm : RunReturns (median y) (m, y.length)) :
    |(mean y).1 - m| ≤ (stdev Real.sqrt y).1 := by
  have h0 := length_pos_real hne
  rw [mean_eq, stdev_fst y hne]
  refine Real.le_sqrt_of_sq_le ?_
  rw [sq_abs]
  have a1 : y.length * |avg y - m| ≤ (y.map (fun v => |v - avg y|)).sum := by
    have := abs_sum_le (y.map (fun v => v - m))
    rw [sum_map_sub, List.map_map] at this
    have e : y.sum - y.length * m = y.length * (avg y - m) := by rw [avg]; field_simp
    rw [e, abs_mul, abs_of_pos h0] at this
    exact this.trans (C110_median_least_distance y hne m hm (avg y))
  have a2 := sq_sum_le (y.map (fun v => |v - avg y|))
  rw [List.map_map, List.length_map] at a2
  have e : (fun v : ℝ => v ^ 2) ∘ (fun v => |v - avg y|) = fun v => (v - avg y) ^ 2 := by
    funext v; simp [sq_abs]
  rw [e, sum_sq_about y _ hne, sub_self] at a2
  have a3 := pow_le_pow_left₀ (mul_nonneg h0.le (abs_nonneg _)) a1 2
  rw [mul_pow, sq_abs] at a3
  have a4 : (y.length : ℝ) ^ 2 * (avg y - m) ^ 2 ≤ (y.length : ℝ) ^ 2 * pvar y := by
    refine a3.trans (a2.trans (le_of_eq ?_))
    ring
  exact le_of_mul_le_mul_left a4 (by positivity)

/-- **C110** The median absolute deviation is at most two standard deviations. -/
theorem C110_mad_stdev (y : List ℝ) (hne : y ≠ []) (r : ℝ)
    (hr : RunReturns (medianAbsDeviation (fun v => |v|) y) (r, y.length)) : r ≤ 2 * (stdev Real.sqrt y).1 := by
  have h0 := length_pos_real hne
  have hr0 := C09_mad_nonneg y hne r hr
  obtain ⟨med, h1, h2⟩ := (isMad_iff y hne r).mp hr
  have h3 := C110_mean_median y hne med ((returns_iff_isMedianOf y hne med _).mpr ⟨h1, rfl⟩)
  rw [mean_eq, stdev_fst y hne] at h3
  rw [stdev_fst y hne]
  have h4 := pow_le_pow_left₀ (abs_nonneg _) h3 2
  rw [sq_abs, Real.sq_sqrt (pvar_nonneg y)] at h4
  have h4' : (avg y - med) ^ 2 ≤ pvar y := h4
  have h5 := (isMedianOf_counts h2).2
  rw [List.length_map] at h5
  have h5' : (y.length : ℝ) ≤ 2 * (y.map (fun v => |v - med|)).countP (fun v => r ≤ v) := by exact_mod_cast h5
  have h6 := count_sq_le_sum (y.map (fun v => |v - med|)) r hr0
  have e1 : (y.map (fun v => |v - med|)).countP (fun v => r ≤ |v|) =
      (y.map (fun v => |v - med|)).countP (fun v => r ≤ v) := by
    rw [List.countP_map, List.countP_map]
    refine List.countP_congr (fun v _ => ?_)
    simp
  have e2 : (fun v : ℝ => v ^ 2) ∘ (fun v => |v - med|) = fun v => (v - med) ^ 2 := by
    funext v; simp [sq_abs]
  rw [e1, List.map_map, e2, sum_sq_about y _ hne] at h6
  have h7 : y.length * r ^ 2 ≤ y.length * (4 * pvar y) := by
    have := mul_le_mul_of_nonneg_right h5' (sq_nonneg r)
    have := mul_le_mul_of_nonneg_left h4' h0.le
    linarith
  have h8 := le_of_mul_le_mul_left h7 h0
  have h9 : r ≤ √(4 * pvar y) := Real.le_sqrt_of_sq_le h8
  rw [Real.sqrt_mul (by norm_num), show (4 : ℝ) = 2 ^ 2 by norm_num, Real.sqrt_sq (by norm_num)] at h9
  exact h9

/-- **C110** The square of the root mean square is the square of the mean plus the variance. -/
theorem C110_rms (y : List ℝ) (hne : y ≠ []) :
    rmsFast32 Real.sqrt y ^ 2 = (mean y).1 ^ 2 + (variance y).1 := by
  have h0 := (length_pos_real hne).ne'
  have := C110_mean_least_squares y hne 0
  simp only [sub_zero] at this
  rw [(C06_rms y hne).2, this]
  field_simp
  ring

/-! ### Scores -/

theorem zscore_sums (y : List ℝ) (h : NonConstant y) :
    (zscore Real.sqrt y).sum = 0 ∧ ((zscore Real.sqrt y).map (fun v => v ^ 2)).sum = (y.length : ℝ) ∧
      (zscore Real.sqrt y).length = y.length := by
  have hne := nonConstant_ne h
  have hl := (C08_entry y hne).1
  have hz : zscore Real.sqrt y ≠ [] := by
    intro h0; rw [h0] at hl; simp at hl; exact hne (List.length_eq_zero_iff.mp hl.symm)
  have h0 := length_pos_real hz
  obtain ⟨a, b⟩ := C08_standard y h
  rw [mean_eq] at a
  rw [variance_eq] at b
  have a' : avg (zscore Real.sqrt y) = 0 := a
  have b' : pvar (zscore Real.sqrt y) = 1 := b
  refine ⟨?_, ?_, hl⟩
  · rw [avg, div_eq_zero_iff] at a'
    exact a'.resolve_right h0.ne'
  · have := sum_sq_about (zscore Real.sqrt y) 0 hz
    rw [a', b', hl] at this
    simpa using this

/-- **C110** Chebyshev's inequality: at most a fraction `1/t²` of the samples have a z-score of `t` or more in absolute
value. -/
theorem C110_zscore_count (y : List ℝ) (h : NonConstant y) (t : ℝ) (ht : 0 ≤ t) :
    (zscore Real.sqrt y).countP (fun z => t ≤ |z|) * t ^ 2 ≤ y.length := by
  rw [← (zscore_sums y h).2.1]
  exact count_sq_le_sum _ t ht

/-- **C110** No z-score of `n` samples exceeds `√(n-1)` in absolute value: an alarm at `|z| > 3` is never raised by ten
or fewer samples. -/
theorem C110_zscore_max (y : List ℝ) (h : NonConstant y) (z : ℝ) (hz : z ∈ zscore Real.sqrt y) :
    |z| ≤ √((y.length : ℝ) - 1) := by
  obtain ⟨s1, s2, s3⟩ := zscore_sums y h
  have hp := List.perm_cons_erase hz
  rw [hp.sum_eq, List.sum_cons] at s1
  rw [(hp.map _).sum_eq, List.map_cons, List.sum_cons] at s2
  have hl := hp.length_eq
  rw [List.length_cons, s3] at hl
  have k := sq_sum_le ((zscore Real.sqrt y).erase z)
  have hn : ((((zscore Real.sqrt y).erase z).length : ℕ) : ℝ) = (y.length : ℝ) - 1 := by
    rw [hl]; push_cast; ring
  rw [hn] at k
  have e1 : ((zscore Real.sqrt y).erase z).sum = -z := by linarith
  have e2 : (((zscore Real.sqrt y).erase z).map (fun v => v ^ 2)).sum = y.length - z ^ 2 := by linarith
  rw [e1, e2] at k
  refine Real.le_sqrt_of_sq_le ?_
  rw [sq_abs]
  have hpos := length_pos_real (nonConstant_ne h)
  have : (y.length : ℝ) * z ^ 2 ≤ y.length * (y.length - 1) := by nlinarith
  exact le_of_mul_le_mul_left this hpos

/-- **C110** The bound is attained: one sample that differs from `k` equal ones has the score `√k`. -/
theorem C110_zscore_max_attained (k : ℕ) (hk : 0 < k) :
    (zscore Real.sqrt ((1 : ℝ) :: List.replicate k 0)).head? = some √(k : ℝ) := by
  have hk0 : (0 : ℝ) < k := by exact_mod_cast hk
  have a : avg ((1 : ℝ) :: List.replicate k 0) = 1 / (k + 1) := by
    simp [avg]
  have v : pvar ((1 : ℝ) :: List.replicate k 0) = k / (k + 1) ^ 2 := by
    rw [pvar, a]
    simp only [avg, List.map_cons, List.map_replicate, List.sum_cons, List.sum_replicate, List.length_cons,
      List.length_replicate, nsmul_eq_mul]
    push_cast
    field_simp
    ring
  rw [zscore_eq _ (by simp), List.map_cons, List.head?_cons, a, v, Real.sqrt_div hk0.le,
    Real.sqrt_sq (by positivity)]
  congr 1
  have hs : √(k : ℝ) ≠ 0 := (Real.sqrt_pos.mpr hk0).ne'
  have hs2 : √(k : ℝ) ^ 2 = k := Real.sq_sqrt hk0.le
  field_simp
  rw [hs2]
  ring

/-- **C110** At least half of the modified z-scores are at most the constant 0.6745 in absolute value. -/
theorem C110_mod_zscore_half (c : ℝ) (hc : 0 ≤ c) (y : List ℝ) (hne : y ≠ []) (r : ℝ)
    (hr : RunReturns (medianAbsDeviation (fun v => |v|) y) (r, y.length)) (hr0 : r ≠ 0) (w : List ℝ)
    (hw : RunReturns (modZscore (fun v => |v|) c y) w) :
    y.length ≤ 2 * w.countP (fun v => |v| ≤ c) := by
  have hpos : 0 < r := lt_of_le_of_ne (C09_mad_nonneg y hne r hr) (Ne.symm hr0)
  obtain ⟨med, h1, h2⟩ := (isMad_iff y hne r).mp hr
  have e := endsWith_unique hw (C09_mod_zscore c y hne med r h1 h2)
  injection e with e
  subst e
  have h3 := (isMedianOf_counts h2).1
  rw [List.length_map, List.countP_map] at h3
  refine h3.trans (Nat.mul_le_mul_left 2 ?_)
  rw [List.countP_map]
  refine List.countP_mono_left (fun v _ hv => ?_)
  simp only [Function.comp, decide_eq_true_eq] at hv ⊢
  rw [abs_div, abs_mul, abs_of_pos hpos, abs_of_nonneg hc, div_le_iff₀ hpos]
  nlinarith

/-! ### Autocorrelation -/

theorem sum_diagonals (f : ℕ → ℕ → ℝ) (hf : ∀ i j, f i j = f j i) (n : ℕ) :
    ∑ i ∈ Finset.range n, ∑ j ∈ Finset.range n, f i j =
      ∑ i ∈ Finset.range n, f i i +
        2 * ∑ k ∈ Finset.range n, ∑ j ∈ Finset.range (n - (k + 1)), f j (j + (k + 1)) := by
  induction n with
  | zero => simp
  | succ n ih =>
    have l : ∑ i ∈ Finset.range (n + 1), ∑ j ∈ Finset.range (n + 1), f i j =
        (∑ i ∈ Finset.range n, ∑ j ∈ Finset.range n, f i j) + 2 * (∑ i ∈ Finset.range n, f i n) + f n n := by
      rw [Finset.sum_range_succ]
      simp only [Finset.sum_range_succ (fun j => f _ j)]
      rw [Finset.sum_add_distrib, Finset.sum_congr rfl (fun j _ => hf n j)]
      ring
    have r : ∑ k ∈ Finset.range (n + 1), ∑ j ∈ Finset.range (n + 1 - (k + 1)), f j (j + (k + 1)) =
        (∑ k ∈ Finset.range n, ∑ j ∈ Finset.range (n - (k + 1)), f j (j + (k + 1))) +
          ∑ i ∈ Finset.range n, f i n := by
      rw [Finset.sum_range_succ]
      simp only [Nat.sub_self, Finset.range_zero, Finset.sum_empty, add_zero]
      rw [← Finset.sum_range_reflect (fun i => f i n) n, ← Finset.sum_add_distrib]
      refine Finset.sum_congr rfl (fun k hk => ?_)
      have hk := Finset.mem_range.mp hk
      rw [show n + 1 - (k + 1) = (n - (k + 1)) + 1 by omega, Finset.sum_range_succ]
      congr 2 <;> omega
    rw [l, r, ih, Finset.sum_range_succ (fun i => f i i)]
    ring

/-- **C110** The cosine series of the autocorrelation is the power spectrum of the deviations from the mean, divided
by `n` times the variance.  In particular it is never negative. -/
theorem C110_power_spectrum (y : List ℝ) (h : NonConstant y) (ω : ℝ) :
    1 + 2 * ∑ k ∈ Finset.range y.length, autocorr y (k + 1) * Real.cos ((k + 1 : ℕ) * ω) =
      ((∑ j ∈ Finset.range y.length, (y.getD j 0 - (mean y).1) * Real.cos (j * ω)) ^ 2 +
        (∑ j ∈ Finset.range y.length, (y.getD j 0 - (mean y).1) * Real.sin (j * ω)) ^ 2) /
        (y.length * (variance y).1) := by
  have hne := nonConstant_ne h
  have h0 := (length_pos_real hne).ne'
  have hv := (pvar_pos y h).ne'
  rw [mean_eq, variance_eq]
  dsimp only
  obtain ⟨d, hd⟩ : ∃ d : ℕ → ℝ, d = fun j => y.getD j 0 - avg y := ⟨_, rfl⟩
  obtain ⟨f, hf⟩ : ∃ f : ℕ → ℕ → ℝ, f = fun i j => d i * d j * Real.cos ((i : ℝ) * ω - j * ω) := ⟨_, rfl⟩
  have key := sum_diagonals f (fun i j => by
    rw [hf]
    dsimp only
    rw [← Real.cos_neg, neg_sub]; ring) y.length
  have e1 : ∑ i ∈ Finset.range y.length, ∑ j ∈ Finset.range y.length, f i j =
      (∑ j ∈ Finset.range y.length, d j * Real.cos (j * ω)) ^ 2 +
        (∑ j ∈ Finset.range y.length, d j * Real.sin (j * ω)) ^ 2 := by
    rw [sq, sq, Finset.sum_mul_sum, Finset.sum_mul_sum, ← Finset.sum_add_distrib]
    refine Finset.sum_congr rfl (fun i _ => ?_)
    rw [← Finset.sum_add_distrib]
    refine Finset.sum_congr rfl (fun j _ => ?_)
    rw [hf]
    dsimp only
    rw [Real.cos_sub]
    ring
  have e2 : ∑ i ∈ Finset.range y.length, f i i = y.length * pvar y := by
    rw [← lagSum_zero y hne, lagSum]
    refine Finset.sum_congr rfl (fun i _ => ?_)
    rw [hf, hd]
    simp
  have e3 : ∀ k, ∑ j ∈ Finset.range (y.length - (k + 1)), f j (j + (k + 1)) =
      y.length * pvar y * (autocorr y (k + 1) * Real.cos ((k + 1 : ℕ) * ω)) := by
    intro k
    have : ∑ j ∈ Finset.range (y.length - (k + 1)), f j (j + (k + 1)) =
        lagSum y (k + 1) (y.length - (k + 1)) * Real.cos ((k + 1 : ℕ) * ω) := by
      rw [lagSum, Finset.sum_mul]
      refine Finset.sum_congr rfl (fun j _ => ?_)
      rw [hf, hd]
      dsimp only
      have : (j : ℝ) * ω - ((j + (k + 1) : ℕ) : ℝ) * ω = -(((k + 1 : ℕ) : ℝ) * ω) := by push_cast; ring
      rw [this, Real.cos_neg]
    rw [this, autocorr_eq]
    field_simp
  rw [e1, e2, Finset.sum_congr rfl (fun k _ => e3 k), ← Finset.mul_sum] at key
  rw [hd] at key
  beta_reduce at key
  rw [key, eq_div_iff (mul_ne_zero h0 hv)]
  ring

/-- **C110** The autocorrelations at the lags from one on add up to `-1/2`, whatever the signal. -/
theorem C110_autocorr_sum (y : List ℝ) (h : NonConstant y) :
    ∑ k ∈ Finset.range y.length, autocorr y (k + 1) = -(1 / 2) := by
  have hne := nonConstant_ne h
  have h0 := (length_pos_real hne).ne'
  have k := C110_power_spectrum y h 0
  have e : ∑ j ∈ Finset.range y.length, (y.getD j 0 - (mean y).1) = 0 := by
    have := sum_zip_map (fun u _ => u - (mean y).1) y y y.length le_rfl le_rfl (Or.inl rfl)
    rw [← this]
    have e2 : ∀ l : List ℝ, (l.zip l).map (fun p => p.1 - (mean y).1) = l.map (fun v => v - (mean y).1) := by
      intro l
      induction l with
      | nil => rfl
      | cons v vs ih => simp [ih]
    rw [e2, sum_map_sub, mean_eq]
    show y.sum - y.length * avg y = 0
    rw [avg]; field_simp; ring
  simp only [mul_zero, Real.cos_zero, Real.sin_zero, mul_one, Finset.sum_const_zero, e] at k
  simp at k
  linarith

/-- **C110** A signal read backwards has the same autocorrelations. -/
theorem C110_autocorr_reverse (y : List ℝ) (k : ℕ) : autocorr y.reverse k = autocorr y k := by
  have ha : avg y.reverse = avg y := by simp [avg, List.sum_reverse]
  have hv : pvar y.reverse = pvar y := by
    rw [pvar, pvar, ha, List.map_reverse]
    simp [avg, List.sum_reverse]
  rw [autocorr_eq, autocorr_eq, hv, List.length_reverse]
  congr 2
  unfold lagSum
  rw [ha, ← Finset.sum_range_reflect]
  refine Finset.sum_congr rfl (fun j hj => ?_)
  have hj := Finset.mem_range.mp hj
  have g : ∀ i, i < y.length → y.reverse.getD i 0 = y.getD (y.length - 1 - i) 0 := by
    intro i hi
    rw [List.getD_eq_getElem _ _ (by simpa using hi), List.getD_eq_getElem _ _ (by omega), List.getElem_reverse]
  rw [g _ (by omega), g _ (by omega), mul_comm]
  congr 3 <;> omega

/-- **C110** `rmssd` against the autocorrelation at lag one: von Neumann's identity. -/
theorem C110_rmssd_autocorr (y : List ℝ) (h : NonConstant y) :
    ((y.length : ℝ) - 1) * rmssd Real.sqrt y ^ 2 =
      2 * y.length * (variance y).1 * (1 - autocorr y 1) - (y.getD 0 0 - (mean y).1) ^ 2 -
        (y.getD (y.length - 1) 0 - (mean y).1) ^ 2 := by
  have hne := nonConstant_ne h
  have h0 := (length_pos_real hne).ne'
  have hv := (pvar_pos y h).ne'
  have h2 : 2 ≤ y.length := by
    obtain ⟨u, hu, v, hv, huv⟩ := h
    rcases y with _ | ⟨a, _ | ⟨b, l⟩⟩
    · simp at hu
    · simp at hu hv; exact absurd (hu.trans hv.symm) huv
    · simp
  obtain ⟨n, hn⟩ : ∃ n, y.length = n + 1 := ⟨y.length - 1, by omega⟩
  have hn0 : (n : ℝ) ≠ 0 := by
    have : n ≠ 0 := by omega
    exact_mod_cast this
  rw [(C07_rmssd y h2).2, variance_eq, mean_eq, autocorr_eq]
  dsimp only
  obtain ⟨d, hd⟩ : ∃ d : ℕ → ℝ, d = fun j => y.getD j 0 - avg y := ⟨_, rfl⟩
  have e0 : ∑ j ∈ Finset.range (n + 1), d j ^ 2 = y.length * pvar y := by
    rw [← lagSum_zero y hne, lagSum, hn, hd]
    exact Finset.sum_congr rfl (fun j _ => by rw [Nat.add_zero]; ring)
  have e0' := e0
  rw [Finset.sum_range_succ] at e0
  rw [Finset.sum_range_succ'] at e0'
  have e1 : 2 * (y.length : ℝ) * pvar y * (1 - lagSum y 1 (y.length - 1) / y.length / pvar y) =
      2 * (y.length * pvar y) - 2 * lagSum y 1 (y.length - 1) := by
    field_simp
  have e2 : lagSum y 1 (y.length - 1) = ∑ j ∈ Finset.range n, d j * d (j + 1) := by
    rw [lagSum, hn, Nat.add_sub_cancel, hd]
  have e3 : ∑ i ∈ Finset.range (y.length - 1), (y.getD (i + 1) 0 - y.getD i 0) ^ 2 =
      ∑ j ∈ Finset.range n, d j ^ 2 + ∑ j ∈ Finset.range n, d (j + 1) ^ 2 - 2 * ∑ j ∈ Finset.range n, d j * d (j + 1) := by
    rw [hn, Nat.add_sub_cancel, Finset.mul_sum, ← Finset.sum_add_distrib, ← Finset.sum_sub_distrib, hd]
    exact Finset.sum_congr rfl (fun j _ => by ring)
  have e4 : y.getD 0 0 - avg y = d 0 := by rw [hd]
  have e5 : y.getD (y.length - 1) 0 - avg y = d n := by rw [hn, Nat.add_sub_cancel, hd]
  rw [e1, e2, e3, e4, e5]
  have e6 : ((y.length - 1 : ℕ) : ℝ) = n := by rw [hn, Nat.add_sub_cancel]
  have e7 : (y.length : ℝ) - 1 = n := by rw [hn]; push_cast; ring
  rw [e6, e7, mul_div_cancel₀ _ hn0]
  linarith

/-- The hypotheses are met: for `[1, 2, 4, 9]` the median is 3, the mean 4. -/
example : RunReturns (median [1, 2, 4, (9 : ℝ)]) (3, 4) ∧ (mean [1, 2, 4, (9 : ℝ)]).1 = 4 ∧
    NonConstant [1, 2, 4, (9 : ℝ)] ∧ |(mean [1, 2, 4, (9 : ℝ)]).1 - 3| ≤ (stdev Real.sqrt [1, 2, 4, (9 : ℝ)]).1 := by
  have h : RunReturns (median [1, 2, 4, (9 : ℝ)]) (3, 4) := by
    have := C01_median [1, 2, 4, (9 : ℝ)] [1, 2, 4, 9] ⟨List.Perm.refl _, by norm_num⟩ (by simp)
    norm_num [middle] at this
    exact this
  refine ⟨h, ?_, ⟨1, by simp, 2, by simp, by norm_num⟩, C110_mean_median _ (by simp) 3 h⟩
  rw [mean_eq]
  norm_num [avg]

end SciRs.Props

import Verif.Lemmas.Scaling
import Verif.Lemmas.Quickselect
import Verif.Props.RoundedStatsMore
import Verif.Lemmas.Rounded.Lawful
import Verif.Model.Savgol

/-!
# C114: a change of units by an exact factor, and a change of sign, go through unchanged in floating point

Not up to rounding errors: the results are the same floating-point numbers.
-/

namespace SciRs.Props

open SciRs SciRs.Spec SciRs.Stats

/-! ### Which factors are exact -/

/-- **C114** Powers of two and their negatives are exact as long as nothing overflows or underflows. -/
theorem C114_powers_of_two (p : ℕ) (hp : 1 ≤ p) (k : ℤ) :
    ExactFactor (Binary.unbounded p hp) (2 ^ k) ∧ ExactFactor (Binary.unbounded p hp) (-2 ^ k) := by
  have h2 : (0 : ℝ) < 2 ^ k := by positivity
  have hm : ∀ x, (Binary.unbounded p hp).rnd ((2 : ℝ) ^ k * x) = 2 ^ k * (Binary.unbounded p hp).rnd x :=
    Binary.rndUnbounded_mul p k
  have hn : ∀ x, (Binary.unbounded p hp).rnd (-x) = -(Binary.unbounded p hp).rnd x := Binary.rndUnbounded_neg p
  refine ⟨⟨h2.ne', hm, by rw [abs_of_pos h2]; exact hm⟩, ⟨by simpa using h2.ne', fun x => ?_, ?_⟩⟩
  · rw [neg_mul, hn, hm, neg_mul]
  · rw [abs_neg, abs_of_pos h2]; exact hm

/-- **C114** Away from underflow, `f64` and `f32` round as if exponents were unbounded. -/
theorem C114_no_underflow (p : ℕ) (hp : 1 ≤ p) (emin : ℤ) (x : ℝ) (hx : (2 : ℝ) ^ (emin + p - 1) ≤ |x|) :
    (Binary.rounding p emin hp).rnd x = (Binary.unbounded p hp).rnd x := by
  refine Binary.rnd_eq_unbounded p ?_
  have h := (Int.zpow_le_iff_le_log (R := ℝ) (b := 2) (by norm_num) (x := emin + p - 1)
    (lt_of_lt_of_le (by positivity) hx)).mp (by push_cast; exact hx)
  omega

/-- **C114** The change of sign is exact for every rounding to nearest, underflow or not. -/
theorem C114_minus_one {r : Rounding} (hr : r.Nearest) : ExactFactor r (-1) :=
  ⟨by norm_num, fun x => by rw [neg_one_mul, hr.odd, neg_one_mul], fun x => by norm_num⟩

/-! ### Arithmetic -/

section arithmetic

variable {r : Rounding} {c : ℝ}

theorem Fl.ext_val {a b : Fl r} (h : a.val = b.val) : a = b := by cases a; cases b; cases h; rfl

theorem _root_.SciRs.Spec.ExactFactor.abs (H : ExactFactor r c) : ExactFactor r |c| :=
  ⟨abs_ne_zero.mpr H.ne_zero, H.abs_mul, by rw [abs_abs]; exact H.abs_mul⟩

theorem _root_.SciRs.Spec.ExactFactor.sq (H : ExactFactor r c) : ExactFactor r (c * c) := by
  have : ∀ x, r.rnd (c * c * x) = c * c * r.rnd x := fun x => by rw [mul_assoc, H.mul, H.mul, mul_assoc]
  exact ⟨mul_ne_zero H.ne_zero H.ne_zero, this, by rw [abs_mul_self]; exact this⟩

/-- The sign of an exact factor is exact. -/
theorem _root_.SciRs.Spec.ExactFactor.sign (H : ExactFactor r c) (x : ℝ) : r.rnd (c / |c| * x) = c / |c| * r.rnd x := by
  have h0 := abs_ne_zero.mpr H.ne_zero
  have h1 := H.mul (x / |c|)
  have h2 := H.abs_mul (x / |c|)
  rw [mul_div_cancel₀ _ h0] at h2
  rw [div_mul_eq_mul_div, mul_div_assoc, h1, h2]
  field_simp

theorem scaled_zero (c : ℝ) : scaled c (0 : Fl r) = 0 := Fl.ext_val (mul_zero c)

theorem scaled_add (H : ExactFactor r c) (a b : Fl r) : scaled c a + scaled c b = scaled c (a + b) :=
  Fl.ext_val (by simp [scaled, ← mul_add, H.mul])

theorem scaled_sub (H : ExactFactor r c) (a b : Fl r) : scaled c a - scaled c b = scaled c (a - b) :=
  Fl.ext_val (by simp [scaled, ← mul_sub, H.mul])

theorem mul_scaled (H : ExactFactor r c) (a b : Fl r) : a * scaled c b = scaled c (a * b) :=
  Fl.ext_val (by simp [scaled, mul_left_comm a.val c, H.mul])

theorem scaled_mul (H : ExactFactor r c) (a b : Fl r) : scaled c a * b = scaled c (a * b) :=
  Fl.ext_val (by simp [scaled, mul_assoc, H.mul])

theorem scaled_div (H : ExactFactor r c) (a b : Fl r) : scaled c a / b = scaled c (a / b) :=
  Fl.ext_val (by simp [scaled, mul_div_assoc, H.mul])

theorem scaled_mul_scaled (H : ExactFactor r c) (a b : Fl r) : scaled c a * scaled c b = scaled (c * c) (a * b) :=
  Fl.ext_val (by simp [scaled, mul_mul_mul_comm, H.sq.mul])

theorem scaled_div_scaled (H : ExactFactor r c) (a b : Fl r) : scaled c a / scaled c b = a / b :=
  Fl.ext_val (by simp [scaled, mul_div_mul_left _ _ H.ne_zero])

theorem scaled_div_abs (H : ExactFactor r c) (a b : Fl r) : scaled c a / scaled |c| b = scaled (c / |c|) (a / b) :=
  Fl.ext_val (by simp [scaled, mul_div_mul_comm, H.sign])

theorem sqrt_scaled (H : ExactFactor r c) (a : Fl r) : Fl.sqrt (scaled (c * c) a) = scaled |c| (Fl.sqrt a) :=
  Fl.ext_val (by
    simp only [scaled, Fl.val_sqrt]
    rw [Real.sqrt_mul (mul_self_nonneg c), Real.sqrt_mul_self_eq_abs, H.abs_mul])

theorem sum_scaled (H : ExactFactor r c) (l : List (Fl r)) : Stats.sum (l.map (scaled c)) = scaled c (Stats.sum l) := by
  have key : ∀ (l : List (Fl r)) (a : Fl r), (l.map (scaled c)).foldl (· + ·) (scaled c a) =
      scaled c (l.foldl (· + ·) a) := by
    intro l
    induction l with
    | nil => intro a; rfl
    | cons v l ih => intro a; rw [List.map_cons, List.foldl_cons, List.foldl_cons, scaled_add H, ih]
  have := key l 0
  rwa [scaled_zero] at this

end arithmetic

/-! ### Statistics -/

section stats

variable {r : Rounding} {c : ℝ}

theorem mean_fold {F : Type} [Add F] (l : List F) (a : F) (n : ℕ) :
    l.foldl (fun (acc : F × ℕ) yi => (acc.1 + yi, acc.2 + 1)) (a, n) = (l.foldl (· + ·) a, n + l.length) := by
  induction l generalizing a n with
  | nil => rfl
  | cons v l ih => rw [List.foldl_cons, ih, List.foldl_cons, List.length_cons]; congr 1; omega

/-- The mean as a quotient. -/
theorem mean_closed {F : Type} [Zero F] [Add F] [Div F] [NatCast F] (y : List F) :
    mean y = if y.length > 0 then (Stats.sum y / (y.length : F), y.length) else (0, 0) := by
  unfold mean
  rw [mean_fold]
  simp [Stats.sum]

/-- **C114** The mean of `c y` is `c` times the mean of `y`. -/
theorem C114_mean (H : ExactFactor r c) (y : List (Fl r)) :
    mean (y.map (scaled c)) = (scaled c (mean y).1, (mean y).2) := by
  rw [mean_closed, mean_closed, List.length_map, sum_scaled H]
  split
  · rw [scaled_div H]
  · rw [scaled_zero]

/-- **C114** The variance of `c y` is `c²` times the variance of `y`. -/
theorem C114_variance (H : ExactFactor r c) (y : List (Fl r)) :
    variance (y.map (scaled c)) = (scaled (c * c) (variance y).1, (variance y).2) := by
  unfold variance
  dsimp only
  rw [C114_mean H, List.map_map]
  have : (fun f => (f - scaled c (mean y).1) * (f - scaled c (mean y).1)) ∘ scaled c =
      scaled (c * c) ∘ fun f => (f - (mean y).1) * (f - (mean y).1) := by
    funext f
    simp only [Function.comp_apply]
    rw [scaled_sub H, scaled_mul_scaled H]
  rw [this, ← List.map_map, sum_scaled H.sq]
  dsimp only
  split
  · rw [scaled_div H.sq]
  · rw [scaled_zero]

/-- **C114** The standard deviation of `c y` is `|c|` times that of `y`. -/
theorem C114_stdev (H : ExactFactor r c) (y : List (Fl r)) :
    stdev Fl.sqrt (y.map (scaled c)) = (scaled |c| (stdev Fl.sqrt y).1, (stdev Fl.sqrt y).2) := by
  unfold stdev
  rw [C114_variance H]
  dsimp only
  split
  · rw [scaled_zero]
  · rw [sqrt_scaled H]

theorem zip_scaled (l l' : List (Fl r)) :
    (l.map (scaled c)).zip (l'.map (scaled c)) = (l.zip l').map fun p => (scaled c p.1, scaled c p.2) := by
  rw [List.zip_map]
  rfl

/-- **C114** `lag_diff` of `c y` is `c` times that of `y`. -/
theorem C114_lag_diff (H : ExactFactor r c) (y : List (Fl r)) :
    lagDiff (y.map (scaled c)) = (lagDiff y).map (scaled c) := by
  unfold lagDiff
  rw [← List.map_drop, zip_scaled, List.map_map, List.map_map]
  exact List.map_congr_left fun p _ => scaled_sub H _ _

/-- **C114** `autocorr` does not change. -/
theorem C114_autocorr (H : ExactFactor r c) (y : List (Fl r)) (k : ℕ) :
    autocorr (y.map (scaled c)) k = autocorr y k := by
  unfold autocorr
  dsimp only
  rw [C114_mean H, C114_variance H, ← List.map_drop, zip_scaled, List.map_map]
  have : ((fun p : Fl r × Fl r => (p.1 - scaled c (mean y).1) * (p.2 - scaled c (mean y).1)) ∘
      fun p : Fl r × Fl r => (scaled c p.1, scaled c p.2)) =
      scaled (c * c) ∘ fun p : Fl r × Fl r => (p.1 - (mean y).1) * (p.2 - (mean y).1) := by
    funext p
    simp only [Function.comp_apply]
    rw [scaled_sub H, scaled_sub H, scaled_mul_scaled H]
  rw [this, ← List.map_map, sum_scaled H.sq]
  dsimp only
  rw [scaled_div H.sq, scaled_div_scaled H.sq]

/-- **C114** `zscore` of `c y` is that of `y`, with the sign of `c`. -/
theorem C114_zscore (H : ExactFactor r c) (y : List (Fl r)) :
    zscore Fl.sqrt (y.map (scaled c)) = (zscore Fl.sqrt y).map (scaled (c / |c|)) := by
  unfold zscore
  dsimp only
  rw [C114_mean H, C114_stdev H, List.map_map, List.map_map]
  refine List.map_congr_left fun v _ => ?_
  simp only [Function.comp_apply]
  rw [scaled_sub H, scaled_div_abs H]

theorem chunks4_map (g : Fl r → Fl r) (y : List (Fl r)) : chunks4 (y.map g) = (chunks4 y).map (List.map g) := by
  induction y using chunks4.induct with
  | case1 a b c d rest ih => simp [chunks4, ih]
  | case2 l h =>
    match l, h with
    | [], _ => rfl
    | [_], _ => rfl
    | [_, _], _ => rfl
    | [_, _, _], _ => rfl
    | a :: b :: c :: d :: rest, h => exact absurd rfl (h a b c d rest)

theorem remainder4_map (g : Fl r → Fl r) (y : List (Fl r)) : remainder4 (y.map g) = (remainder4 y).map g := by
  induction y using remainder4.induct with
  | case1 a b c d rest ih => simp [remainder4, ih]
  | case2 l h =>
    match l, h with
    | [], _ => rfl
    | [_], _ => rfl
    | [_, _], _ => rfl
    | [_, _, _], _ => rfl
    | a :: b :: c :: d :: rest, h => exact absurd rfl (h a b c d rest)

/-- **C114** `rms_fast32` of `c y` is `|c|` times that of `y`. -/
theorem C114_rms (H : ExactFactor r c) (y : List (Fl r)) :
    rmsFast32 Fl.sqrt (y.map (scaled c)) = scaled |c| (rmsFast32 Fl.sqrt y) := by
  have sq : ∀ l : List (Fl r), Stats.sum ((l.map (scaled c)).map fun yi => yi * yi) =
      scaled (c * c) (Stats.sum (l.map fun yi => yi * yi)) := by
    intro l
    rw [List.map_map, ← sum_scaled H.sq, List.map_map]
    congr 1
    exact List.map_congr_left fun v _ => scaled_mul_scaled H v v
  unfold rmsFast32
  dsimp only
  rw [remainder4_map, chunks4_map, sq, List.map_map]
  have : (fun t => Stats.sum (List.map (fun yi : Fl r => yi * yi) t)) ∘ List.map (scaled c) =
      scaled (c * c) ∘ fun t => Stats.sum (List.map (fun yi : Fl r => yi * yi) t) := by
    funext t
    exact sq t
  rw [this, ← List.map_map, sum_scaled H.sq, scaled_add H.sq, List.length_map, scaled_div H.sq, sqrt_scaled H]

theorem tupleWindows_map (g : Fl r → Fl r) (y : List (Fl r)) :
    tupleWindows (y.map g) = (tupleWindows y).map fun p => (g p.1, g p.2) := by
  induction y using tupleWindows.induct with
  | case1 a b rest ih => simpa [tupleWindows] using ih
  | case2 l h =>
    match l, h with
    | [], _ => rfl
    | [_], _ => rfl
    | a :: b :: rest, h => exact absurd rfl (h a b rest)

/-- **C114** `rmssd` of `c y` is `|c|` times that of `y`. -/
theorem C114_rmssd (H : ExactFactor r c) (y : List (Fl r)) :
    rmssd Fl.sqrt (y.map (scaled c)) = scaled |c| (rmssd Fl.sqrt y) := by
  unfold rmssd
  dsimp only
  rw [tupleWindows_map, List.map_map]
  have : ((fun p : Fl r × Fl r => (p.2 - p.1) * (p.2 - p.1)) ∘ fun p : Fl r × Fl r => (scaled c p.1, scaled c p.2)) =
      scaled (c * c) ∘ fun p : Fl r × Fl r => (p.2 - p.1) * (p.2 - p.1) := by
    funext p
    simp only [Function.comp_apply]
    rw [scaled_sub H, scaled_mul_scaled H]
  rw [this, ← List.map_map, C114_mean H.sq, sqrt_scaled H]

end stats

/-! ### Robust statistics -/

section robust

variable {r : Rounding} {c : ℝ}

/-- The median from the samples in ascending order. -/
theorem median_sorted (y s : List (Fl r)) (hs : Sorts s y) (hne : y ≠ []) :
    RunReturns (median y) (if y.length % 2 = 1 then s.getD (y.length / 2) 0
      else (s.getD (y.length / 2 - 1) 0 + s.getD (y.length / 2) 0) / 2, y.length) := by
  refine ⟨y.length, fun fuel hf => ?_⟩
  have hlen := hs.1.length_eq
  show _ = Run.ret _
  rcases y with _ | ⟨v, _ | ⟨w, vs⟩⟩
  · exact absurd rfl hne
  · have : s = [v] := List.perm_singleton.mp hs.1
    subst this
    simp [median]
  · have hpos : (v :: w :: vs).length / 2 < (v :: w :: vs).length := Nat.div_lt_self (by simp) (by decide)
    have q1 := quickselect_sorted (v :: w :: vs) s hs _ hpos 0 fuel hf
    have q2 := quickselect_sorted (v :: w :: vs) s hs ((v :: w :: vs).length / 2 - 1) (by omega) 0 fuel hf
    rw [median, q1, q2]
    by_cases h : (v :: w :: vs).length % 2 = 1
    · rw [if_pos h, if_pos h]
      rfl
    · rw [if_neg h, if_neg h]
      rfl

theorem getD_scaled (l : List (Fl r)) (i : ℕ) : (l.map (scaled c)).getD i 0 = scaled c (l.getD i 0) := by
  by_cases h : i < l.length
  · rw [List.getD_eq_getElem _ _ (by simpa using h), List.getD_eq_getElem _ _ h, List.getElem_map]
  · rw [List.getD_eq_default _ _ (by simpa using h), List.getD_eq_default _ _ (by omega), scaled_zero]

theorem fl_add_comm (a b : Fl r) : a + b = b + a := Fl.ext_val (by simp [add_comm])

/-- **C114** The median of `c y` is `c` times the median of `y`. -/
theorem C114_median (H : ExactFactor r c) (y : List (Fl r)) (m : Fl r) (n : ℕ) (h : RunReturns (median y) (m, n)) :
    RunReturns (median (y.map (scaled c))) (scaled c m, n) := by
  by_cases hne : y = []
  · subst hne
    have h0 : RunReturns (median ([] : List (Fl r))) (0, 0) := ⟨0, fun _ _ => rfl⟩
    have := endsWith_unique h h0
    cases this
    rw [scaled_zero]
    exact h0
  obtain ⟨s, hs⟩ := exists_sorts_fl y
  have hm := endsWith_unique h (median_sorted y s hs hne)
  injection hm with hm
  injection hm with h1 h2
  subst h1 h2
  have hlen := hs.1.length_eq
  have hpos : 0 < y.length := List.length_pos_iff.mpr hne
  rcases le_total 0 c with hc | hc
  · have hs' : Sorts (s.map (scaled c)) (y.map (scaled c)) := by
      refine ⟨hs.1.map _, ?_⟩
      rw [List.pairwise_map]
      exact hs.2.imp fun {u v} huv => mul_le_mul_of_nonneg_left huv hc
    have := median_sorted _ _ hs' (by simpa using hne)
    rw [List.length_map] at this
    convert this using 2
    simp only [getD_scaled]
    split
    · rfl
    · rw [scaled_add H, scaled_div H]
  · have hs' : Sorts (s.map (scaled c)).reverse (y.map (scaled c)) := by
      refine ⟨(List.reverse_perm _).trans (hs.1.map _), ?_⟩
      rw [List.pairwise_reverse, List.pairwise_map]
      exact hs.2.imp fun {u v} huv => mul_le_mul_of_nonpos_left huv hc
    have := median_sorted _ _ hs' (by simpa using hne)
    rw [List.length_map] at this
    have key : ∀ i, i < y.length → (s.map (scaled c)).reverse.getD i 0 = scaled c (s.getD (y.length - 1 - i) 0) := by
      intro i hi
      rw [← getD_scaled, List.getD_eq_getElem _ _ (by simp; omega), List.getD_eq_getElem _ _ (by simp; omega),
        List.getElem_reverse]
      congr 1
      simp [hlen]
    convert this using 2
    split
    · rw [key _ (by omega)]
      congr 2
      omega
    · rw [key _ (by omega), key _ (by omega), scaled_add H, scaled_div H, fl_add_comm]
      congr 4 <;> omega

theorem flAbs_scaled (a : Fl r) : flAbs (scaled c a) = scaled |c| (flAbs a) := Fl.ext_val (abs_mul _ _)

/-- Every median is returned. -/
theorem median_returns (y : List (Fl r)) : ∃ m, RunReturns (median y) (m, y.length) := by
  by_cases hne : y = []
  · subst hne
    exact ⟨0, 0, fun _ _ => rfl⟩
  obtain ⟨s, hs⟩ := exists_sorts_fl y
  exact ⟨_, median_sorted y s hs hne⟩

theorem mad_returns (y : List (Fl r)) (m d : Fl r) (hm : RunReturns (median y) (m, y.length))
    (hd : RunReturns (median (y.map fun yi => flAbs (yi - m))) (d, y.length)) :
    RunReturns (medianAbsDeviation flAbs y) (d, y.length) := by
  obtain ⟨N1, h1⟩ := hm
  obtain ⟨N2, h2⟩ := hd
  refine ⟨max N1 N2, fun fuel hf => ?_⟩
  unfold medianAbsDeviation
  rw [h1 fuel (le_trans (le_max_left _ _) hf)]
  exact h2 fuel (le_trans (le_max_right _ _) hf)

theorem deviations_scaled (H : ExactFactor r c) (y : List (Fl r)) (m : Fl r) :
    (y.map (scaled c)).map (fun yi => flAbs (yi - scaled c m)) = (y.map fun yi => flAbs (yi - m)).map (scaled |c|) := by
  rw [List.map_map, List.map_map]
  refine List.map_congr_left fun v _ => ?_
  simp only [Function.comp_apply]
  rw [scaled_sub H, flAbs_scaled]

/-- **C114** The median absolute deviation of `c y` is `|c|` times that of `y`. -/
theorem C114_mad (H : ExactFactor r c) (y : List (Fl r)) (d : Fl r) (n : ℕ)
    (h : RunReturns (medianAbsDeviation flAbs y) (d, n)) :
    RunReturns (medianAbsDeviation flAbs (y.map (scaled c))) (scaled |c| d, n) := by
  obtain ⟨m, hm⟩ := median_returns y
  obtain ⟨d', hd'⟩ := median_returns (y.map fun yi => flAbs (yi - m))
  rw [List.length_map] at hd'
  have := endsWith_unique h (mad_returns y m d' hm hd')
  cases this
  have h1 := C114_median H y m _ hm
  have h2 := C114_median H.abs _ _ _ hd'
  rw [← deviations_scaled H] at h2
  have := mad_returns (y.map (scaled c)) (scaled c m) (scaled |c| d) (by rw [List.length_map]; exact h1)
    (by rw [List.length_map]; exact h2)
  rwa [List.length_map] at this

/-- **C114** `mod_zscore` of `c y` is that of `y`, with the sign of `c`. -/
theorem C114_mod_zscore (H : ExactFactor r c) (κ : Fl r) (y zs : List (Fl r))
    (h : RunReturns (modZscore flAbs κ y) zs) :
    RunReturns (modZscore flAbs κ (y.map (scaled c))) (zs.map (scaled (c / |c|))) := by
  obtain ⟨m, hm⟩ := median_returns y
  obtain ⟨d, hd⟩ := median_returns (y.map fun yi => flAbs (yi - m))
  rw [List.length_map] at hd
  have hmad := mad_returns y m d hm hd
  have closed : ∀ (y : List (Fl r)) (m d : Fl r) (n : ℕ), RunReturns (median y) (m, n) →
      RunReturns (medianAbsDeviation flAbs y) (d, n) →
      RunReturns (modZscore flAbs κ y) (y.map fun yi => (yi - m) * κ / d) := by
    intro y m d n ⟨N1, h1⟩ ⟨N2, h2⟩
    refine ⟨max N1 N2, fun fuel hf => ?_⟩
    unfold modZscore
    rw [h1 fuel (le_trans (le_max_left _ _) hf), h2 fuel (le_trans (le_max_right _ _) hf)]
    rfl
  have := endsWith_unique h (closed y m d _ hm hmad)
  cases this
  have := closed _ _ _ _ (C114_median H y m _ hm) (C114_mad H y d _ hmad)
  convert this using 1
  rw [List.map_map, List.map_map]
  refine List.map_congr_left fun v _ => ?_
  simp only [Function.comp_apply]
  rw [scaled_sub H, scaled_mul H, scaled_div_abs H]

end robust

/-! ### Filters -/

section filters

variable {r : Rounding} {c : ℝ}

theorem respects_scaled (H : ExactFactor r c) : Respects fun a b : Fl r => b = scaled c a where
  add := by rintro a _ b _ rfl rfl; exact scaled_add H a b
  sub := by rintro a _ b _ rfl rfl; exact scaled_sub H a b
  mul := by rintro k a _ rfl; exact mul_scaled H k a

theorem forall₂_scaled (x x' : List (Fl r)) : List.Forall₂ (fun a b => b = scaled c a) x x' ↔ x' = x.map (scaled c) := by
  constructor
  · intro h
    induction h with
    | nil => rfl
    | cons h _ ih => rw [h, ih, List.map_cons]
  · rintro rfl
    rw [List.forall₂_map_right_iff, List.forall₂_same]
    exact fun _ _ => rfl

/-- A section with its delays multiplied by `c`. -/
noncomputable def scaledState (c : ℝ) (s : Sos (Fl r)) : Sos (Fl r) :=
  { s with zi0 := scaled c s.zi0, zi1 := scaled c s.zi1 }

/-- **C114** Filtering `c x` from `c` times the state gives `c` times the output and leaves `c` times the state. -/
theorem C114_sosfilt (H : ExactFactor r c) (x : List (Fl r)) (sos : List (Sos (Fl r))) :
    sosfiltDyn (x.map (scaled c)) (sos.map (scaledState c)) =
      ((sosfiltDyn x sos).1.map (scaled c), (sosfiltDyn x sos).2.map (scaledState c)) := by
  obtain ⟨h1, h2⟩ := (respects_scaled H).sosfilt (sos := sos) (sos' := sos.map (scaledState c)) (by
    rw [List.forall₂_map_right_iff, List.forall₂_same]
    exact fun s _ => ⟨rfl, rfl, rfl, rfl, rfl, rfl, rfl, rfl⟩) ((forall₂_scaled x _).mpr rfl)
  refine Prod.ext ((forall₂_scaled _ _).mp h1) ?_
  generalize (sosfiltDyn x sos).2 = l at *
  generalize (sosfiltDyn (x.map (scaled c)) (sos.map (scaledState c))).2 = l' at *
  dsimp only
  clear h1
  induction h2 with
  | nil => rfl
  | @cons a b _ _ h _ ih =>
    rw [ih, List.map_cons]
    congr 1
    obtain ⟨e0, e1, e2, e3, e4, e5, e6, e7⟩ := h
    cases a; cases b
    simp only at e0 e1 e2 e3 e4 e5 e6 e7
    subst e0 e1 e2 e3 e4 e5 e6 e7
    rfl

/-- **C114** Zero-phase filtering of `c x` gives `c` times the output. -/
theorem C114_sosfiltfilt (H : ExactFactor r c) (x z : List (Fl r)) (sos : List (Sos (Fl r)))
    (h : sosfiltfiltDyn x sos = .ok z) : sosfiltfiltDyn (x.map (scaled c)) sos = .ok (z.map (scaled c)) := by
  obtain ⟨z', h1, h2⟩ := (respects_scaled H).filtfilt (by rw [scaled_zero]) ((forall₂_scaled x _).mpr rfl) h
  rw [h1, (forall₂_scaled _ _).mp h2]

open Savgol in
/-- **C114** Savitzky-Golay filtering of `c x` gives `c` times the output, whatever coefficients the solver returns. -/
theorem C114_savgol [SavNum (Fl r)] (H : ExactFactor r c) (cfg : Cfg) (solve : Solver (Fl r)) (x : List (Fl r))
    (w p : ℕ) (deriv : Option ℕ) (delta : Option (Fl r)) (out : List (Fl r))
    (h : savgolFilterDyn cfg solve x w p deriv delta = .ok out) :
    savgolFilterDyn cfg solve (x.map (scaled c)) w p deriv delta = .ok (out.map (scaled c)) := by
  have hdot : ∀ a b : List (Fl r), Savgol.dot (a.map (scaled c)) b = scaled c (Savgol.dot a b) := by
    intro a b
    have key : ∀ (l : List (Fl r)) (v : Fl r), (l.map (scaled c)).foldl (· + ·) (scaled c v) =
        scaled c (l.foldl (· + ·) v) := by
      intro l
      induction l with
      | nil => intro a; rfl
      | cons v l ih => intro a; rw [List.map_cons, List.foldl_cons, List.foldl_cons, scaled_add H, ih]
    unfold Savgol.dot sumIter
    rw [List.zip_map_left, List.map_map]
    have : (fun p : Fl r × Fl r => p.1 * p.2) ∘ Prod.map (scaled c) id = scaled c ∘ fun p => p.1 * p.2 := by
      funext p
      exact scaled_mul H _ _
    rw [this, ← List.map_map]
    have := key ((a.zip b).map fun p => p.1 * p.2) 0
    rwa [scaled_zero] at this
  unfold savgolFilterDyn at h ⊢
  split at h
  · cases h
  rename_i hw
  rw [if_neg hw]
  cases hs : cfg.usizeAdd p 2 with
  | error e => rw [hs] at h; cases h
  | ok s =>
    rw [hs, ok_bind] at h
    rw [ok_bind]
    split at h
    · cases h
    rename_i hws
    rw [if_neg hws]
    cases hf : savgolCoeffsDyn cfg solve w p deriv delta with
    | error e => rw [hf] at h; cases h
    | ok fir =>
      rw [hf, ok_bind] at h
      rw [ok_bind]
      cases x with
      | nil => cases h; rfl
      | cons x0 xs =>
        cases h
        rw [List.map_cons]
        dsimp only
        congr 1
        have hpad : padNearest w (scaled c x0) (xs.map (scaled c)) = (padNearest w x0 xs).map (scaled c) := by
          unfold padNearest
          dsimp only
          rw [List.map_append, List.map_append, List.map_replicate, List.map_replicate]
          congr 2
          rw [← List.map_replicate, ← List.map_append, List.getLastD_eq_getLast?, List.getLastD_eq_getLast?,
            List.getLast?_map]
          cases (List.replicate (w / 2 + 1) x0 ++ xs).getLast? with
          | none => exact scaled_zero c |>.symm
          | some v => rfl
        rw [hpad]
        unfold windows
        rw [List.length_map, List.map_map, List.map_map, List.map_map]
        refine List.map_congr_left fun k _ => ?_
        simp only [Function.comp_apply]
        rw [← List.map_drop, ← List.map_take, hdot]

end filters

/-! ### The hypotheses hold -/

/-- A change of units by 1024 or by 1/8 of numbers with 53 bits; a change of sign of `f64`. -/
example : ExactFactor (Binary.unbounded 53 (by norm_num)) 1024 ∧ ExactFactor (Binary.unbounded 53 (by norm_num)) (1 / 8) ∧
    ExactFactor binary64 (-1) ∧ ExactFactor binary32 (-1) := by
  refine ⟨?_, ?_, C114_minus_one SciRs.Rounded.binary64_nearest, C114_minus_one SciRs.Rounded.binary32_nearest⟩
  · have := (C114_powers_of_two 53 (by norm_num) 10).1
    norm_num at this
    exact this
  · have := (C114_powers_of_two 53 (by norm_num) (-3)).1
    norm_num at this
    simpa using this

/-- A zero-phase call on `f64` that returns. -/
example : ∃ z : List (Fl binary64), sosfiltfiltDyn (List.replicate 10 1) [Sos.new 1 1 1 1 0 1] = .ok z := by
  have h01 : (1 : Fl binary64) ≠ 0 := by
    intro h
    have : (1 : Fl binary64).val = (0 : Fl binary64).val := by rw [h]
    exact one_ne_zero this
  have hnp : ¬ Panics (sosfiltfiltDyn (List.replicate 10 (1 : Fl binary64)) [Sos.new 1 1 1 1 0 1]) := by
    rw [(C30_panics_iff _ _).1]
    simp [sosNtaps, NoDenominator, Sos.new, h01]
  have hub := (C30_panics_iff (List.replicate 10 (1 : Fl binary64)) [Sos.new 1 1 1 1 0 1]).2
  cases h : sosfiltfiltDyn (List.replicate 10 (1 : Fl binary64)) [Sos.new 1 1 1 1 0 1] with
  | error e =>
    rw [h] at hnp hub
    rw [panics_error] at hnp
    exact absurd (by rw [not_not.mp hnp]) hub
  | ok z => exact ⟨z, rfl⟩

end SciRs.Props

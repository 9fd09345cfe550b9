import Verif.Lemmas.IeeeStats
import Verif.Props.RoundedStats
import Verif.Props.RoundedWitness
import Verif.Props.Median
import Verif.Lemmas.Moments

/-!
# C82: statistics with overflow, infinities and NaN
-/

namespace SciRs.Props

open SciRs SciRs.Spec SciRs.Spec.Ieee SciRs.Stats

section

variable {f : Format}

theorem mem_tiles {v : Ieee f} (y : List (Ieee f)) (h : v ∈ y) : v ∈ remainder4 y ∨ ∃ t ∈ chunks4 y, v ∈ t := by
  induction y using chunks4.induct with
  | case1 a b c d rest ih =>
    have h' : v ∈ [a, b, c, d] ∨ v ∈ rest := by
      simp only [List.mem_cons, List.not_mem_nil, or_false] at h ⊢
      tauto
    rcases h' with h' | h'
    · exact .inr ⟨_, by simp [chunks4], h'⟩
    · rcases ih h' with k | ⟨t, k1, k2⟩
      · exact .inl (by simpa [remainder4] using k)
      · exact .inr ⟨t, by simp [chunks4, k1], k2⟩
  | case2 l hl =>
    left
    have : remainder4 l = l := by
      rcases l with _ | ⟨a, _ | ⟨b, _ | ⟨c, _ | ⟨d, rest⟩⟩⟩⟩
      · rfl
      · rfl
      · rfl
      · rfl
      · exact absurd rfl (hl a b c d rest)
    rw [this]
    exact h

theorem variance_nan (y : List (Ieee f)) (h : nan ∈ y) : (variance y).1 = nan := by
  rw [variance_ieee]
  apply mean_nan
  rw [mean_nan y h]
  exact List.mem_map.mpr ⟨nan, h, by simp⟩

theorem stdev_of_variance (y : List (Ieee f)) (hne : y ≠ []) (h : (variance y).1 = nan) :
    (stdev Ieee.sqrt y).1 = nan := by
  unfold stdev
  have : ¬ (variance y).2 = 0 := by
    rw [variance_count]
    exact fun hc => hne (List.length_eq_zero_iff.mp hc)
  simp only [if_neg this, h, Ieee.sqrt]

theorem zscore_of_stdev (y : List (Ieee f)) (h : (stdev Ieee.sqrt y).1 = nan) :
    ∀ z ∈ zscore Ieee.sqrt y, z = nan := by
  intro z hz
  obtain ⟨v, _, rfl⟩ := List.mem_map.mp hz
  rw [h, div_nan]

/-- **C82** One NaN sample makes the mean, the variance, the standard deviation, the root mean square, every z-score
and every autocorrelation NaN. -/
theorem C82_nan (y : List (Ieee f)) (h : nan ∈ y) :
    (mean y).1 = nan ∧ (variance y).1 = nan ∧ (stdev Ieee.sqrt y).1 = nan ∧ rmsFast32 Ieee.sqrt y = nan ∧
      (∀ z ∈ zscore Ieee.sqrt y, z = nan) ∧ ∀ k, autocorr y k = nan := by
  have hv := variance_nan y h
  have hs := stdev_of_variance y (List.ne_nil_of_mem h) hv
  refine ⟨mean_nan y h, hv, hs, ?_, zscore_of_stdev y hs, fun k => ?_⟩
  · unfold rmsFast32
    have key : sum ((remainder4 y).map (fun yi => yi * yi)) +
        sum ((chunks4 y).map (fun t => sum (t.map (fun yi => yi * yi)))) = nan := by
      rcases mem_tiles y h with k | ⟨t, k1, k2⟩
      · rw [sum_nan _ (List.mem_map.mpr ⟨nan, k, by simp⟩), nan_add]
      · have e : nan ∈ (chunks4 y).map (fun t => sum (t.map (fun yi : Ieee f => yi * yi))) :=
          List.mem_map.mpr ⟨t, k1, sum_nan _ (List.mem_map.mpr ⟨nan, k2, by simp⟩)⟩
        rw [sum_nan _ e, add_nan]
    simp only [key, nan_div, Ieee.sqrt]
  · unfold autocorr
    simp only [hv, div_nan]

theorem nan_mem_windows (y : List (Ieee f)) (h : nan ∈ y) (h2 : 2 ≤ y.length) :
    ∃ p ∈ tupleWindows y, p.1 = nan ∨ p.2 = nan := by
  induction y with
  | nil => simp at h
  | cons a y ih =>
    rcases y with _ | ⟨b, l⟩
    · simp at h2
    · rcases List.mem_cons.mp h with h | h
      · exact ⟨(a, b), by simp [tupleWindows], .inl h.symm⟩
      · rcases List.mem_cons.mp h with h | h
        · exact ⟨(a, b), by simp [tupleWindows], .inr h.symm⟩
        · have hl : 2 ≤ (b :: l).length := by
            have := List.length_pos_of_mem h
            simp; omega
          obtain ⟨p, hp, hq⟩ := ih (List.mem_cons_of_mem _ h) hl
          exact ⟨p, by simp [tupleWindows, hp], hq⟩

/-- **C82** The same for the successive differences, if there is at least one. -/
theorem C82_rmssd_nan (y : List (Ieee f)) (h : nan ∈ y) (h2 : 2 ≤ y.length) : rmssd Ieee.sqrt y = nan := by
  obtain ⟨p, hp, hq⟩ := nan_mem_windows y h h2
  unfold rmssd
  have : (mean ((tupleWindows y).map (fun p : Ieee f × Ieee f => (p.2 - p.1) * (p.2 - p.1)))).1 = nan := by
    apply mean_nan
    refine List.mem_map.mpr ⟨p, hp, ?_⟩
    rcases hq with hq | hq <;> simp [hq]
  simp only [this, Ieee.sqrt]

/-- **C82** One infinite sample: the mean is that infinity or NaN; the variance, the standard deviation and all
z-scores are NaN. -/
theorem C82_infinite (y : List (Ieee f)) (s : Bool) (h : inf s ∈ y) (hn : 0 < f.r.rnd y.length) :
    ((mean y).1 = inf s ∨ (mean y).1 = nan) ∧ (variance y).1 = nan ∧ (stdev Ieee.sqrt y).1 = nan ∧
      ∀ z ∈ zscore Ieee.sqrt y, z = nan := by
  have hm := mean_inf y s h hn
  have hv : (variance y).1 = nan := by
    rw [variance_ieee]
    apply mean_nan
    refine List.mem_map.mpr ⟨inf s, h, ?_⟩
    rcases hm with hm | hm
    · have : (inf s - inf s : Ieee f) = nan := by
        rw [sub_def]
        cases s <;> simp [negate, add]
      rw [hm, this, nan_mul]
    · rw [hm, sub_nan, nan_mul]
  have hs := stdev_of_variance y (List.ne_nil_of_mem h) hv
  exact ⟨hm, hv, hs, zscore_of_stdev y hs⟩

end

/-! ### Finite results -/

theorem agrees_data (f : Format) (x : List ℝ) :
    List.Forall₂ Agrees (x.map (ofReal f)) (x.map (Fl.mk (r := f.r))) := by
  induction x with
  | nil => exact List.Forall₂.nil
  | cons v x ih => exact List.Forall₂.cons (agrees_fin _ _) ih

/-- **C82** A finite mean, variance or standard deviation is the one computed with unbounded exponents. -/
theorem C82_finite_value (f : Format) (x : List ℝ) (hn : |f.r.rnd x.length| ≤ f.top) (v : ℝ) (s : Bool) :
    ((mean (x.map (ofReal f))).1 = fin v s → v = (mean (x.map (Fl.mk (r := f.r)))).1.val) ∧
    ((variance (x.map (ofReal f))).1 = fin v s → v = (variance (x.map (Fl.mk (r := f.r)))).1.val) ∧
    ((stdev Ieee.sqrt (x.map (ofReal f))).1 = fin v s → v = (stdev Fl.sqrt (x.map (Fl.mk (r := f.r)))).1.val) :=
  ⟨fun h => mean_agrees _ _ (agrees_data f x) (by simpa using hn) v s h,
    fun h => variance_agrees _ _ (agrees_data f x) (by simpa using hn) v s h,
    fun h => stdev_agrees _ _ (agrees_data f x) (by simpa using hn) v s h⟩

/-- **C82** Hence a finite mean has the accuracy of C68, with overflow taken into account. -/
theorem C82_mean_accurate (f : Format) (x : List ℝ) (hx : x ≠ []) (hn : f.r.rnd x.length = x.length)
    (hn2 : (x.length : ℝ) ≤ f.top) (v : ℝ) (s : Bool) (h : (mean (x.map (ofReal f))).1 = fin v s) :
    |v - avg x| ≤ ((1 + f.r.u) ^ (x.length + 1) - 1) * avg (x.map (fun v => |v|))
      + ((1 + f.r.u) ^ (x.length + 1) + 1) * f.r.t := by
  rw [(C82_finite_value f x (by rw [hn, abs_of_nonneg (by positivity)]; exact hn2) v s).1 h]
  have := (C68_mean (x.map (Fl.mk (r := f.r))) (by simpa using hx) (by simpa using hn)).2
  simpa [Function.comp_def] using this

/-- **C82** The mean does not overflow if `n + 1` times the largest sample is, up to the rounding factor, below the
largest finite number. -/
theorem C82_mean_no_overflow (f : Format) (x : List ℝ) (hx : x ≠ []) (hn : f.r.rnd x.length = x.length) (M : ℝ)
    (hM : ∀ v ∈ x, |v| ≤ M)
    (htop : ((x.length : ℝ) + 1) * ((M + f.r.t) * (1 + f.r.u) ^ (x.length + 1)) ≤ f.top)
    (hn2 : (x.length : ℝ) ≤ f.top) : (mean (x.map (ofReal f))).1.Finite := by
  have hu := f.r.u_nonneg
  have ht := f.r.t_nonneg
  have hlen : 0 < x.length := List.length_pos_iff.mpr hx
  have hM0 : 0 ≤ M := (abs_nonneg _).trans (hM _ (List.getElem_mem hlen))
  have hne : x.map (ofReal f) ≠ [] := by simpa using hx
  have hex : List.Forall₂ Exact (x.map (ofReal f)) (x.map (Fl.mk (r := f.r))) := by
    clear hx hn hM htop hn2 hlen hne
    induction x with
    | nil => exact List.Forall₂.nil
    | cons v x ih => exact List.Forall₂.cons (exact_ofReal v) ih
  obtain ⟨S, hS⟩ : ∃ S, S = (M + f.r.t) * (1 + f.r.u) ^ x.length := ⟨_, rfl⟩
  have hp : 1 ≤ (1 + f.r.u) ^ x.length := one_le_pow₀ (by linarith)
  have hS0 : M + f.r.t ≤ S := by rw [hS]; exact le_mul_of_one_le_right (by linarith) hp
  have hS1 : (M + f.r.t) * (1 + f.r.u) ^ (x.length + 1) = (1 + f.r.u) * S := by rw [hS, pow_succ]; ring
  rw [hS1] at htop
  have hl0 : (1 : ℝ) ≤ x.length := by exact_mod_cast hlen
  have huS : 0 ≤ f.r.u * S := mul_nonneg hu (by linarith)
  have hnS : 0 ≤ (x.length : ℝ) * (f.r.u * S) := by positivity
  obtain ⟨hsum, hb⟩ := foldl_exact hu M hM0 (x.map (ofReal f)) (x.map (Fl.mk (r := f.r))) hex
    (by simpa using hM) 0 0 0 ⟨_, rfl⟩ (by simp) (by
      simp only [List.length_map, Nat.zero_add]
      rw [← hS]
      nlinarith)
  simp only [List.length_map, Nat.zero_add] at hb
  rw [← hS] at hb
  rw [mean_ieee _ hne]
  have hsum' : Exact (sum (x.map (ofReal f))) (sum (x.map (Fl.mk (r := f.r)))) := hsum
  obtain ⟨t, he⟩ := hsum'
  have hb' : |(sum (x.map (Fl.mk (r := f.r)))).val| ≤ x.length * S := hb
  obtain ⟨q, hq⟩ : ∃ q, q = (sum (x.map (Fl.mk (r := f.r)))).val := ⟨_, rfl⟩
  rw [← hq] at he hb'
  have hcast : ((x.map (ofReal f)).length : Ieee f) = fin x.length false := by
    change pack f _ _ = _
    unfold pack
    have h1 : ¬ ((x.length : ℝ) < 0) := not_lt.mpr (by positivity)
    have h2 : (x.length : ℝ) ≠ 0 := by positivity
    simp only [List.length_map]
    rw [hn, abs_of_nonneg (by positivity), if_neg (not_lt.mpr hn2), if_neg h2]
    simp
  dsimp only
  rw [he, hcast, div_def]
  have h2 : (x.length : ℝ) ≠ 0 := by positivity
  simp only [div, if_neg h2]
  apply pack_finite
  refine (f.r.abs_le _).trans ?_
  rw [abs_div, abs_of_pos (by linarith : (0 : ℝ) < x.length)]
  have h3 : |q| / x.length ≤ S := by rw [div_le_iff₀ (by linarith)]; linarith
  have h4 := mul_le_mul_of_nonneg_left h3 (by linarith : 0 ≤ 1 + f.r.u)
  have h5 : (1 + 1) * ((1 + f.r.u) * S) ≤ ((x.length : ℝ) + 1) * ((1 + f.r.u) * S) :=
    mul_le_mul_of_nonneg_right (by linarith) (by nlinarith)
  nlinarith

/-- The hypotheses can be met: a million `f64` samples below `10¹⁰⁰`. -/
example : f64.r.rnd ((10 ^ 6 : ℕ) : ℝ) = (10 ^ 6 : ℕ) ∧ 0 < f64.r.rnd ((10 ^ 6 : ℕ) : ℝ) ∧
    (((10 ^ 6 : ℕ) : ℝ) + 1) * ((10 ^ 100 + 1) * 2) ≤ f64.top := by
  have h := C68_counts_exact.1 (10 ^ 6) (by norm_num)
  refine ⟨h, ?_, ?_⟩
  · change 0 < binary64.rnd _
    rw [h]; norm_num
  · change _ ≤ ((2 : ℝ) ^ 53 - 1) * 2 ^ 971
    have e : (2 : ℝ) ^ 971 = 2 ^ 200 * (2 ^ 200 * (2 ^ 200 * (2 ^ 200 * 2 ^ 171))) := by
      rw [← pow_add, ← pow_add, ← pow_add, ← pow_add]
    rw [e]
    norm_num

/-! ### Median -/

/-- **C82** `median` returns on all IEEE data, NaN included, and for an odd number of samples returns one of them. -/
theorem C82_median_total {f : Format} (y : List (Ieee f)) :
    ∃ m, RunReturns (median y) (m, y.length) ∧ (y.length % 2 = 1 → m ∈ y) :=
  C01_total lt_asymm' y

/-- **C82** Without NaN (infinities allowed): for an odd number of samples the median is a sample with the middle value
of the sorted values; for an even number it is the IEEE expression `(a + b) / 2` of two samples with the two middle
values. -/
theorem C82_median {f : Format} (y : List (Ieee f)) (hnan : nan ∉ y) (s : List EReal) (hs : Sorts s (y.map ext)) :
    (y.length % 2 = 1 → ∃ m ∈ y, RunReturns (median y) (m, y.length) ∧ ext m = s.getD (y.length / 2) 0) ∧
    (y.length % 2 = 0 → y ≠ [] → ∃ a ∈ y, ∃ b ∈ y, RunReturns (median y) ((a + b) / 2, y.length) ∧
      ext a = s.getD (y.length / 2 - 1) 0 ∧ ext b = s.getD (y.length / 2) 0) := by
  have hg : ∀ a ∈ y, ∀ b ∈ y, a < b ↔ ext a < ext b := fun a ha b hb =>
    lt_iff_ext (fun hc => hnan (hc ▸ ha)) (fun hc => hnan (hc ▸ hb))
  have sel : ∀ k < y.length, ∃ v ∈ y, (∀ fuel, y.length ≤ fuel → quickselect y k fuel = .ret v) ∧
      ext v = s.getD k 0 := by
    intro k hk
    obtain ⟨v, hv, h⟩ := quickselect_total lt_asymm' y k hk
    refine ⟨v, hv, h, ?_⟩
    have h1 := quickselect_map ext y.length y hg k v (h _ le_rfl)
    have h2 := quickselect_sorted (y.map ext) s hs k (by simpa using hk) 0 y.length (by simp)
    rw [h1] at h2
    injection h2
  rcases y with _ | ⟨v, _ | ⟨w, vs⟩⟩
  · exact ⟨by simp, fun _ h => absurd rfl h⟩
  · refine ⟨fun _ => ?_, by simp⟩
    obtain ⟨u, hu, _, he⟩ := sel 0 (by simp)
    obtain rfl : u = v := by simpa using hu
    exact ⟨u, by simp, ⟨0, fun _ _ => rfl⟩, by simpa using he⟩
  · obtain ⟨y, hy⟩ : ∃ y, y = v :: w :: vs := ⟨_, rfl⟩
    rw [← hy] at sel ⊢
    have hpos : y.length / 2 < y.length := Nat.div_lt_self (by rw [hy]; simp) (by decide)
    have hmed : ∀ fuel, median y fuel =
        if y.length % 2 = 1 then (do
          let m ← quickselect y (y.length / 2) fuel
          return (m, y.length))
        else (do
          let a ← quickselect y (y.length / 2 - 1) fuel
          let b ← quickselect y (y.length / 2) fuel
          return ((a + b) / 2, y.length)) := by
      intro fuel
      subst hy
      rfl
    constructor
    · intro hodd
      obtain ⟨m, hm, h, he⟩ := sel _ hpos
      refine ⟨m, hm, ⟨y.length, fun fuel hf => ?_⟩, he⟩
      rw [hmed, if_pos hodd, h fuel hf]
      rfl
    · intro heven _
      obtain ⟨a, ha, h, he⟩ := sel (y.length / 2 - 1) (by omega)
      obtain ⟨b, hb, k, hf⟩ := sel _ hpos
      refine ⟨a, ha, b, hb, ⟨y.length, fun fuel hf => ?_⟩, he, hf⟩
      rw [hmed, if_neg (by omega), h fuel hf, k fuel hf]
      rfl

/-! ### What overflow breaks -/

theorem rnd_two_top : f64.r.rnd (f64.top + f64.top) = f64.top + f64.top := by
  have h := rnd64_dyadic (2 ^ 53 - 1) 972 (by norm_num) (by norm_num)
  have e : ((2 ^ 53 - 1 : ℤ) : ℝ) * (2 : ℝ) ^ (972 : ℤ) = f64.top + f64.top := by
    change _ = ((2 : ℝ) ^ 53 - 1) * 2 ^ 971 + (2 ^ 53 - 1) * 2 ^ 971
    rw [show (972 : ℤ) = ((971 : ℕ) : ℤ) + 1 by norm_num, zpow_add_one₀ (by norm_num), zpow_natCast]
    generalize (2 : ℝ) ^ 971 = w
    push_cast
    ring
  rw [e] at h
  exact h

theorem top_pos : 0 < f64.top := by
  change 0 < ((2 : ℝ) ^ 53 - 1) * 2 ^ 971
  have : (0 : ℝ) < 2 ^ 53 - 1 := by norm_num
  positivity

theorem top_add_top : (ofReal f64 f64.top + ofReal f64 f64.top : Ieee f64) = inf false := by
  have h := top_pos
  change pack f64 (f64.top + f64.top) _ = _
  unfold pack
  rw [rnd_two_top, abs_of_pos (by linarith), if_pos (by linarith)]
  congr 1
  exact decide_eq_false (by linarith)

theorem zero_add_top : (0 + ofReal f64 f64.top : Ieee f64) = ofReal f64 f64.top := by
  have h := top_pos
  have hr : f64.r.rnd f64.top = f64.top := by
    have h := rnd64_dyadic (2 ^ 53 - 1) 971 (by norm_num) (by norm_num)
    have e : ((2 ^ 53 - 1 : ℤ) : ℝ) * (2 : ℝ) ^ (971 : ℤ) = f64.top := by
      change _ = ((2 : ℝ) ^ 53 - 1) * 2 ^ 971
      rw [show (971 : ℤ) = ((971 : ℕ) : ℤ) by norm_num, zpow_natCast]
      generalize (2 : ℝ) ^ 971 = w
      push_cast
      ring
    rw [e] at h
    exact h
  change pack f64 (0 + f64.top) _ = fin f64.top (decide (f64.top < 0))
  unfold pack
  rw [zero_add, hr, abs_of_pos h, if_neg (lt_irrefl _), if_neg h.ne']

theorem natCast_two : ((2 : ℕ) : Ieee f64) = fin 2 false := by
  change pack f64 ((2 : ℕ) : ℝ) false = _
  have hr : f64.r.rnd ((2 : ℕ) : ℝ) = ((2 : ℕ) : ℝ) := C68_counts_exact.1 2 (by norm_num)
  unfold pack
  rw [hr]
  have h1 : ¬ f64.top < |((2 : ℕ) : ℝ)| := by
    change ¬ ((2 : ℝ) ^ 53 - 1) * 2 ^ 971 < |((2 : ℕ) : ℝ)|
    have e : (1 : ℝ) ≤ 2 ^ 971 := one_le_pow₀ (by norm_num)
    rw [abs_of_nonneg (by positivity)]
    generalize (2 : ℝ) ^ 971 = w at e
    push_cast
    have : (2 : ℝ) ≤ 2 ^ 53 - 1 := by norm_num
    have := mul_le_mul this e zero_le_one (by linarith)
    linarith
  rw [if_neg h1]
  simp

/-- **C82** The mean of two samples equal to the largest `f64` is infinite, although their exact mean is a finite
`f64`. -/
theorem C82_mean_overflow_false :
    (mean [ofReal f64 f64.top, ofReal f64 f64.top]).1 = inf false ∧ avg [f64.top, f64.top] = f64.top := by
  constructor
  · rw [mean_ieee _ (by simp)]
    have e : sum [ofReal f64 f64.top, ofReal f64 f64.top] = inf false := by
      change 0 + ofReal f64 f64.top + ofReal f64 f64.top = _
      rw [zero_add_top, top_add_top]
    dsimp only
    rw [e, show ([ofReal f64 f64.top, ofReal f64 f64.top].length : Ieee f64) = fin 2 false from natCast_two, div_def]
    have h : ¬ ((2 : ℝ) < 0) := by norm_num
    simp [div, sign, h]
  · simp [avg]

/-- The power of two used in the next witness. -/
noncomputable def big : ℝ := 2 ^ 600

theorem big_pos : 0 < big := by unfold big; positivity

theorem big_le_top : big ≤ f64.top := by
  change (2 : ℝ) ^ 600 ≤ (2 ^ 53 - 1) * 2 ^ 971
  have h1 : (2 : ℝ) ^ 600 ≤ 2 ^ 971 := pow_le_pow_right₀ (by norm_num) (by norm_num)
  have h2 : (1 : ℝ) ≤ 2 ^ 53 - 1 := by norm_num
  have h3 : (0 : ℝ) < 2 ^ 971 := by positivity
  generalize (2 : ℝ) ^ 971 = w at *
  generalize (2 : ℝ) ^ 600 = v at *
  nlinarith

theorem top_lt_sq : f64.top < big * big := by
  change ((2 : ℝ) ^ 53 - 1) * 2 ^ 971 < 2 ^ 600 * 2 ^ 600
  have e : (2 : ℝ) ^ 600 * 2 ^ 600 = 2 ^ 229 * 2 ^ 971 := by rw [← pow_add, ← pow_add]
  rw [e]
  exact mul_lt_mul_of_pos_right (by norm_num) (by positivity)

theorem rnd_big (m : ℤ) (hm : |m| < 2 ^ 53) : f64.r.rnd (m * big) = m * big := by
  have h := rnd64_dyadic m 600 hm (by norm_num)
  rw [show (600 : ℤ) = ((600 : ℕ) : ℤ) by norm_num, zpow_natCast] at h
  exact h

theorem rnd_big_sq : f64.r.rnd (big * big) = big * big := by
  have h := rnd64_dyadic 1 1200 (by norm_num) (by norm_num)
  rw [show (1200 : ℤ) = ((600 : ℕ) : ℤ) + ((600 : ℕ) : ℤ) by norm_num, zpow_add₀ (by norm_num), zpow_natCast, Int.cast_one,
    one_mul] at h
  exact h

/-- **C82** Overflow of the variance: the two samples `2⁶⁰⁰` and `-2⁶⁰⁰` have the z-scores `1` and `-1`; computed in
`f64` both are zeros, because the standard deviation is infinite. -/
theorem C82_zscore_overflow_false :
    zscore Ieee.sqrt [ofReal f64 big, ofReal f64 (-big)] = [fin 0 false, fin 0 true] ∧
      zscore Real.sqrt [big, -big] = [1, -1] := by
  have hb := big_pos
  refine ⟨?_, by
    have hm : mean [big, -big] = (0, 2) := by rw [mean_eq]; simp [avg]
    have hv : variance [big, -big] = (big * big, 2) := by
      rw [variance_eq]
      simp [pvar, avg]
      ring
    unfold zscore stdev
    simp only [hm, hv, List.map_cons, List.map_nil]
    rw [if_neg (by norm_num)]
    dsimp only
    rw [Real.sqrt_mul_self hb.le, sub_zero, sub_zero, div_self hb.ne', neg_div, div_self hb.ne']⟩
  have htop := big_le_top
  have hp : f64.r.rnd big = big := by have := rnd_big 1 (by norm_num); simpa using this
  have hnb : f64.r.rnd (-big) = -big := by have := rnd_big (-1) (by norm_num); simpa using this
  have ea : ofReal f64 big = fin big false := by
    unfold ofReal
    rw [decide_eq_false (by linarith)]
  have eb : ofReal f64 (-big) = fin (-big) true := by
    unfold ofReal
    rw [decide_eq_true (by linarith)]
  rw [ea, eb]
  have pk : ∀ s, pack f64 big s = fin big false := by
    intro s
    unfold pack
    rw [hp, abs_of_pos hb, if_neg (not_lt.mpr htop), if_neg hb.ne', decide_eq_false (by linarith)]
  have pkn : ∀ s, pack f64 (-big) s = fin (-big) true := by
    intro s
    unfold pack
    rw [hnb, abs_neg, abs_of_pos hb, if_neg (not_lt.mpr htop), if_neg (by linarith), decide_eq_true (by linarith)]
  have pk0 : ∀ s, pack f64 0 s = fin 0 s := by
    intro s
    unfold pack
    rw [f64.r.zero, abs_zero, if_neg (by linarith), if_pos rfl]
  have hm : (mean [(fin big false : Ieee f64), fin (-big) true]).1 = fin 0 false := by
    rw [mean_ieee _ (by simp)]
    have e : sum [(fin big false : Ieee f64), fin (-big) true] = fin 0 false := by
      change pack f64 (0 + big) _ + fin (-big) true = _
      rw [zero_add, pk]
      change pack f64 (big + -big) _ = _
      rw [add_neg_cancel, pk0]
      rfl
    dsimp only
    rw [e, show ([(fin big false : Ieee f64), fin (-big) true].length : Ieee f64) = fin 2 false from natCast_two, div_def]
    have h : ¬ ((2 : ℝ) < 0) := by norm_num
    simp [div, sign, h, pk0]
  have d1 : ((fin big false : Ieee f64) - fin 0 false) = fin big false := by
    change pack f64 (big + -0) _ = _
    rw [neg_zero, add_zero, pk]
  have d2 : ((fin (-big) true : Ieee f64) - fin 0 false) = fin (-big) true := by
    change pack f64 (-big + -0) _ = _
    rw [neg_zero, add_zero, pkn]
  have sq : ∀ x : ℝ, x * x = big * big → ∀ s, pack f64 (x * x) s = inf false := by
    intro x hx s
    unfold pack
    rw [hx, rnd_big_sq, abs_of_pos (by positivity), if_pos top_lt_sq, decide_eq_false]
    have := mul_pos hb hb
    linarith
  have m1 : ((fin big false : Ieee f64) * fin big false) = inf false := sq big rfl _
  have m2 : ((fin (-big) true : Ieee f64) * fin (-big) true) = inf false := sq (-big) (by ring) _
  have hv : (variance [(fin big false : Ieee f64), fin (-big) true]).1 = inf false := by
    rw [variance_ieee, hm]
    simp only [List.map_cons, List.map_nil, d1, d2, m1, m2]
    rw [mean_ieee _ (by simp)]
    have e : sum [(inf false : Ieee f64), inf false] = inf false := by
      change add (add 0 (inf false)) (inf false) = _
      rfl
    dsimp only
    rw [e, show ([(inf false : Ieee f64), inf false].length : Ieee f64) = fin 2 false from natCast_two, div_def]
    have h : ¬ ((2 : ℝ) < 0) := by norm_num
    simp [div, sign, h]
  have hs : (stdev Ieee.sqrt [(fin big false : Ieee f64), fin (-big) true]).1 = inf false := by
    unfold stdev
    simp only [variance_count, hv]
    rfl
  unfold zscore
  simp only [hm, hs, List.map_cons, List.map_nil, d1, d2]
  have q1 : (fin big false / inf false : Ieee f64) = fin 0 false := by
    rw [div_def]
    simp [div, sign, hb.ne', hb.le]
  have q2 : (fin (-big) true / inf false : Ieee f64) = fin 0 true := by
    rw [div_def]
    simp [div, sign, hb.ne', hb]
  rw [q1, q2]

/-- **C82** The median of two samples equal to the largest `f64` is infinite, too. -/
theorem C82_median_overflow_false :
    RunReturns (median [ofReal f64 f64.top, ofReal f64 f64.top]) (inf false, 2) := by
  obtain ⟨a, ha, b, hb, h, -⟩ := (C82_median [ofReal f64 f64.top, ofReal f64 f64.top] (by simp [ofReal])
    [(f64.top : EReal), (f64.top : EReal)] ⟨by
      have : [ofReal f64 f64.top, ofReal f64 f64.top].map ext = [(f64.top : EReal), (f64.top : EReal)] := rfl
      rw [this], by simp⟩).2 rfl (by simp)
  obtain rfl : a = ofReal f64 f64.top := by simpa using ha
  obtain rfl : b = ofReal f64 f64.top := by simpa using hb
  have e : (inf false / 2 : Ieee f64) = inf false := by
    rw [show (2 : Ieee f64) = fin 2 false from natCast_two, div_def]
    have h : ¬ ((2 : ℝ) < 0) := by norm_num
    simp [div, sign, h]
  rw [top_add_top, e] at h
  exact h

/-- **C82** The median of two opposite infinities is NaN. -/
theorem C82_median_infinities {f : Format} :
    RunReturns (median [inf true, (inf false : Ieee f)]) (nan, 2) := by
  obtain ⟨a, ha, b, hb, h, e1, e2⟩ := (C82_median [inf true, (inf false : Ieee f)] (by simp) [⊥, ⊤] ⟨by
      have : [inf true, (inf false : Ieee f)].map ext = [⊥, ⊤] := rfl
      rw [this], by simp⟩).2 (by simp) (by simp)
  have ea : a = inf true := by
    rcases List.mem_cons.mp ha with h | h
    · exact h
    · obtain rfl : a = inf false := by simpa using h
      exact absurd e1 (by simp [ext, toE])
  have eb : b = inf false := by
    rcases List.mem_cons.mp hb with h | h
    · subst h
      exact absurd e2 (by simp [ext, toE])
    · simpa using h
  subst ea eb
  have : (inf true + inf false : Ieee f) = nan := by rw [add_def]; simp [add]
  rw [this, nan_div] at h
  exact h

end SciRs.Props

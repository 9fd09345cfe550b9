import Verif.Spec.BinaryRounding
import Verif.Spec.Median
import Verif.Lemmas.RoundedStats
import Verif.Lemmas.Quickselect

/-!
# C68–C71: the statistics in floating-point arithmetic

`Rounding` (Spec/Rounding.lean) is floating-point arithmetic without overflow: unit roundoff `u`,
underflow error `t`.  The theorems hold for every rounding; `binary64` and `binary32` are instances.
-/

namespace SciRs.Props

open SciRs SciRs.Spec SciRs.Stats SciRs.Rounded

variable {r : Rounding}

/-- The numbers `n < 2⁵³` are exact in `f64` (`n < 2²⁴` in `f32`): the hypothesis on the count below. -/
theorem C68_counts_exact :
    (∀ n : ℕ, n < 2 ^ 53 → binary64.rnd n = n) ∧ (∀ n : ℕ, n < 2 ^ 24 → binary32.rnd n = n) := by
  constructor
  · intro n hn
    have := Binary.rnd_int 53 (-1074) (by norm_num) (n : ℤ) (by
      rw [abs_of_nonneg (by positivity)]; exact_mod_cast hn)
    change Binary.rnd 53 (-1074) _ = _
    simpa using this
  · intro n hn
    have := Binary.rnd_int 24 (-149) (by norm_num) (n : ℤ) (by
      rw [abs_of_nonneg (by positivity)]; exact_mod_cast hn)
    change Binary.rnd 24 (-149) _ = _
    simpa using this

/-- **C68** The computed mean of `n` numbers is within `((1+u)^(n+1) - 1) · (Σ|y|)/n` of the exact mean,
plus the underflow term; the count is exact. -/
theorem C68_mean (y : List (Fl r)) (hy : y ≠ []) (hn : r.rnd y.length = y.length) :
    (mean y).2 = y.length ∧
    |(mean y).1.val - avg (y.map Fl.val)|
      ≤ ((1 + r.u) ^ (y.length + 1) - 1) * avg (y.map (fun v => |v.val|))
        + ((1 + r.u) ^ (y.length + 1) + 1) * r.t := by
  refine ⟨by rw [mean_val y hy], ?_⟩
  have := mean_err y hy hn
  have e : absSum (vals y) / y.length = avg (y.map (fun v => |v.val|)) := by
    simp [absSum, vals, avg, Function.comp_def]
  rwa [e] at this

/-- **C68** The computed variance: with `E` the bound on the error of the computed mean, the error is at
most `E² + ((1+u)^(n+4) (1+t) - 1) (V + E²)` plus an underflow term.  There is no term of the order
`u · mean²`: large offsets do not cancel the variance. -/
theorem C68_variance (y : List (Fl r)) (hy : y ≠ []) (hn : r.rnd y.length = y.length) (E : ℝ)
    (hE : E = ((1 + r.u) ^ (y.length + 1) - 1) * avg (y.map (fun v => |v.val|))
        + ((1 + r.u) ^ (y.length + 1) + 1) * r.t) :
    (variance y).2 = y.length ∧
    |(variance y).1.val - pvar (y.map Fl.val)|
      ≤ E ^ 2 + ((1 + r.u) ^ (y.length + 4) * (1 + r.t) - 1) * (pvar (y.map Fl.val) + E ^ 2)
        + (1 + r.u) ^ (y.length + 1) * r.t * (3 + (1 + r.u) ^ 2 + (1 + r.u) * r.t) := by
  constructor
  · rw [variance_eq_mean, mean_val _ (by simpa using hy)]; simp
  have h1 := variance_err y hy hn
  have h2 := (C68_mean y hy hn).2
  rw [← hE] at h2
  have hv : vals y = y.map Fl.val := rfl
  rw [hv] at h1
  set m := (mean y).1.val - avg (y.map Fl.val)
  have hm : m ^ 2 ≤ E ^ 2 := by
    rw [← sq_abs m]
    exact pow_le_pow_left₀ (abs_nonneg _) h2 2
  have hg : 0 ≤ (1 + r.u) ^ (y.length + 4) * (1 + r.t) - 1 := by
    have := r.one_le_pow (y.length + 4)
    have := r.t_nonneg
    nlinarith
  have h3 : |(variance y).1.val - pvar (y.map Fl.val)|
      ≤ |(variance y).1.val - (pvar (y.map Fl.val) + m ^ 2)| + m ^ 2 := by
    have := abs_add_le ((variance y).1.val - (pvar (y.map Fl.val) + m ^ 2)) (m ^ 2)
    rw [abs_of_nonneg (sq_nonneg m)] at this
    calc _ = |(variance y).1.val - (pvar (y.map Fl.val) + m ^ 2) + m ^ 2| := by congr 1; ring
      _ ≤ _ := this
  have h4 := mul_le_mul_of_nonneg_left (add_le_add_right hm (pvar (y.map Fl.val))) hg
  linarith

example : ∃ y : List (Fl binary64), y ≠ [] ∧ binary64.rnd y.length = y.length ∧
    pvar (y.map Fl.val) ≠ 0 := by
  refine ⟨[⟨1⟩, ⟨3⟩], by simp, C68_counts_exact.1 2 (by norm_num), ?_⟩
  simp [pvar, avg]; norm_num

/-- **C69** The computed variance is never negative, so `stdev` never takes the root of a negative
number, and its result is not negative. -/
theorem C69_variance_nonneg (y : List (Fl r)) :
    0 ≤ (variance y).1.val ∧ 0 ≤ (stdev Fl.sqrt y).1.val := by
  have h : 0 ≤ (variance y).1.val := by
    rw [variance_eq_mean]
    apply mean_nonneg
    intro v hv
    obtain ⟨w, _, rfl⟩ := List.mem_map.mp hv
    exact sq_val_nonneg _
  refine ⟨h, ?_⟩
  rw [show stdev Fl.sqrt y = if (variance y).2 = 0 then (0, 0)
    else (Fl.sqrt (variance y).1, (variance y).2) from rfl]
  split
  · exact le_rfl
  · exact r.nonneg (Real.sqrt_nonneg _)

/-- **C69** The same for `rmssd`: the mean of the squared differences, whose root it takes, is not
negative. -/
theorem C69_rmssd_nonneg (y : List (Fl r)) :
    0 ≤ (mean ((tupleWindows y).map (fun p : Fl r × Fl r => (p.2 - p.1) * (p.2 - p.1)))).1.val ∧
    (rmssd Fl.sqrt y).val
      = r.rnd √(mean ((tupleWindows y).map (fun p : Fl r × Fl r => (p.2 - p.1) * (p.2 - p.1)))).1.val := by
  refine ⟨?_, rfl⟩
  apply mean_nonneg
  intro v hv
  obtain ⟨w, _, rfl⟩ := List.mem_map.mp hv
  exact sq_val_nonneg _

/-- **C69** Constant samples: if the computed mean is the common value, the computed variance is exactly
zero. -/
theorem C69_constant (n : ℕ) (c : ℝ) (h : (mean (List.replicate n (⟨c⟩ : Fl r))).1.val = c) :
    (variance (List.replicate n (⟨c⟩ : Fl r))).1.val = 0 := by
  rw [variance_eq_mean]
  have e : (mean (List.replicate n (⟨c⟩ : Fl r))).1 = ⟨c⟩ := by
    cases hm : (mean (List.replicate n (⟨c⟩ : Fl r))).1
    rw [hm] at h
    simpa using h
  rw [e]
  have z : ((⟨c⟩ : Fl r) - ⟨c⟩) * (⟨c⟩ - ⟨c⟩) = (0 : Fl r) := by
    change (⟨r.rnd (r.rnd (c - c) * r.rnd (c - c))⟩ : Fl r) = ⟨0⟩
    simp [r.zero]
  rw [List.map_replicate, z]
  by_cases hn : n = 0
  · subst hn; simp [mean]
  · rw [mean_val _ (by simpa using hn)]
    have : ∀ k : ℕ, ((List.replicate k (0 : Fl r)).foldl (· + ·) 0).val = 0 := by
      intro k
      induction k with
      | zero => rfl
      | succ k ih =>
        rw [List.replicate_succ, List.foldl_cons]
        have : (0 : Fl r) + 0 = 0 := by
          change (⟨r.rnd (0 + 0)⟩ : Fl r) = ⟨0⟩
          simp [r.zero]
        rw [this]; exact ih
    simp [sum, this, r.zero]

example : (mean (List.replicate 2 (⟨3⟩ : Fl binary64))).1.val = 3 := by
  have h3 : binary64.rnd 3 = 3 := by simpa using C68_counts_exact.1 3 (by norm_num)
  have h6 : binary64.rnd (3 + 3) = 3 + 3 := by
    have := C68_counts_exact.1 6 (by norm_num)
    norm_num at this ⊢
    exact this
  have h2 : binary64.rnd 2 = 2 := by simpa using C68_counts_exact.1 2 (by norm_num)
  rw [mean_val _ (by simp)]
  change binary64.rnd (binary64.rnd (binary64.rnd (0 + 3) + 3) / binary64.rnd ((2 : ℕ) : ℝ)) = 3
  rw [zero_add, h3, h6, Nat.cast_ofNat, h2]
  norm_num [h3]

/-- **C70** `rms_fast32` in floating point: relative error at most `(1+u)^(n+5) - 1`, plus an underflow
term, whatever the length is modulo the tile size. -/
theorem C70_rms (y : List (Fl r)) (hy : y ≠ []) (hn : r.rnd y.length = y.length) :
    |(rmsFast32 Fl.sqrt y).val - √(avg (y.map (fun v => v.val ^ 2)))|
      ≤ ((1 + r.u) ^ (y.length + 5) - 1) * √(avg (y.map (fun v => v.val ^ 2)))
        + ((1 + r.u) * √(5 * r.t * (1 + r.u) ^ (y.length + 4)) + r.t) := by
  have ht := r.t_nonneg
  have hu := r.u_nonneg
  have h0 : 0 ≤ avg (y.map (fun v => v.val ^ 2)) := avg_nonneg _ (by
    intro v hv
    obtain ⟨w, _, rfl⟩ := List.mem_map.mp hv
    positivity)
  have h1 := sqrt_approx (meanSq_approx y hy hn) h0 (by positivity)
  exact h1.round (Real.sqrt_nonneg _)

/-- **C71** The median of an even number of floating-point samples lies between the two middle samples,
provided doubling a sample is exact (no overflow) and `2` is representable. -/
theorem C71_median_between (y s : List (Fl r)) (hs : Sorts s y) (hne : y ≠ [])
    (heven : y.length % 2 = 0) (hrep : ∀ v ∈ y, r.rnd v.val = v.val)
    (hdouble : ∀ v ∈ y, r.rnd (v.val + v.val) = v.val + v.val) (htwo : r.rnd 2 = 2) :
    ∃ m : Fl r, RunReturns (median y) (m, y.length) ∧
      s.getD (y.length / 2 - 1) 0 ≤ m ∧ m ≤ s.getD (y.length / 2) 0 := by
  have hlen := hs.1.length_eq
  have hpos : 0 < y.length := List.length_pos_iff.mpr hne
  have i1 : y.length / 2 - 1 < s.length := by omega
  have i2 : y.length / 2 < s.length := by omega
  set a := s.getD (y.length / 2 - 1) 0 with ha
  set b := s.getD (y.length / 2) 0 with hb
  have ea : a = s[y.length / 2 - 1] := List.getD_eq_getElem _ _ i1
  have eb : b = s[y.length / 2] := List.getD_eq_getElem _ _ i2
  have ma : a ∈ y := hs.1.mem_iff.mp (ea ▸ List.getElem_mem i1)
  have mb : b ∈ y := hs.1.mem_iff.mp (eb ▸ List.getElem_mem i2)
  have hab : a.val ≤ b.val := by
    have := List.pairwise_iff_getElem.mp hs.2 (y.length / 2 - 1) (y.length / 2) i1 i2 (by omega)
    rw [← ea, ← eb] at this
    exact this
  refine ⟨(a + b) / 2, ⟨y.length, fun fuel hf => ?_⟩, ?_⟩
  · rcases y with _ | ⟨v, _ | ⟨w, vs⟩⟩
    · exact absurd rfl hne
    · simp at heven
    · have q1 := quickselect_sorted (v :: w :: vs) s hs ((v :: w :: vs).length / 2) (by omega) 0
        fuel hf
      have q2 := quickselect_sorted (v :: w :: vs) s hs ((v :: w :: vs).length / 2 - 1) (by omega) 0
        fuel hf
      show median (v :: w :: vs) fuel = _
      rw [median]
      rw [q1, q2, if_neg (by omega)]
      rfl
  · have e : ((a + b) / 2 : Fl r).val = r.rnd (r.rnd (a.val + b.val) / 2) := by
      change r.rnd (r.rnd (a.val + b.val) / r.rnd (2 : ℕ)) = _
      rw [Nat.cast_ofNat, htwo]
    rw [Fl.le_iff, Fl.le_iff, e]
    have l1 := r.mono (a.val + a.val) (a.val + b.val) (by linarith)
    have l2 := r.mono (a.val + b.val) (b.val + b.val) (by linarith)
    rw [hdouble a ma] at l1
    rw [hdouble b mb] at l2
    constructor
    · have := r.mono a.val (r.rnd (a.val + b.val) / 2) (by linarith)
      rwa [hrep a ma] at this
    · have := r.mono (r.rnd (a.val + b.val) / 2) b.val (by linarith)
      rwa [hrep b mb] at this

/-- **C71** In `f64` (without overflow) the only condition is that the samples are `f64` numbers. -/
theorem C71_median_between_f64 (y s : List (Fl binary64)) (hs : Sorts s y) (hne : y ≠ [])
    (heven : y.length % 2 = 0) (hrep : ∀ v ∈ y, binary64.rnd v.val = v.val) :
    ∃ m : Fl binary64, RunReturns (median y) (m, y.length) ∧
      s.getD (y.length / 2 - 1) 0 ≤ m ∧ m ≤ s.getD (y.length / 2) 0 :=
  C71_median_between y s hs hne heven hrep
    (fun v hv => Binary.rnd_double 53 (-1074) v.val (hrep v hv)) (C68_counts_exact.1 2 (by norm_num))

example : ∃ y s : List (Fl binary64), Sorts s y ∧ y ≠ [] ∧ y.length % 2 = 0 ∧
    (∀ v ∈ y, binary64.rnd v.val = v.val) := by
  refine ⟨[⟨(7 : ℕ)⟩, ⟨(2 : ℕ)⟩], [⟨(2 : ℕ)⟩, ⟨(7 : ℕ)⟩], ⟨by
    exact List.Perm.swap _ _ _, ?_⟩, by simp, rfl, ?_⟩
  · simp [Fl.le_iff]; norm_num
  · intro v hv
    simp only [List.mem_cons, List.not_mem_nil, or_false] at hv
    rcases hv with rfl | rfl
    · exact C68_counts_exact.1 7 (by norm_num)
    · exact C68_counts_exact.1 2 (by norm_num)

end SciRs.Props

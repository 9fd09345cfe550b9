import Verif.Lemmas.RoundedStatsMore
import Verif.Props.RoundedStats
import Verif.Props.Median
import Verif.Props.Moments

/-!
# C93: the remaining statistics in floating-point arithmetic
-/

namespace SciRs.Props

open SciRs SciRs.Spec SciRs.Stats SciRs.Rounded

variable {r : Rounding}

/-- The bound of `C68_mean` on the error of the computed mean. -/
noncomputable def meanErr (r : Rounding) (y : List ℝ) : ℝ :=
  ((1 + r.u) ^ (y.length + 1) - 1) * avg (y.map (fun v => |v|)) + ((1 + r.u) ^ (y.length + 1) + 1) * r.t

/-- The relative error of a computed mean of `n` squared differences. -/
noncomputable def sqErr (r : Rounding) (n : ℕ) : ℝ := (1 + r.u) ^ (n + 4) * (1 + r.t) - 1

/-- The underflow error of a computed mean of `n` squared differences. -/
noncomputable def sqTiny (r : Rounding) (n : ℕ) : ℝ :=
  (1 + r.u) ^ (n + 1) * r.t * (3 + (1 + r.u) ^ 2 + (1 + r.u) * r.t)

theorem sqErr_nonneg (n : ℕ) : 0 ≤ sqErr r n := by
  have := r.one_le_pow (n + 4)
  have := r.t_nonneg
  unfold sqErr; nlinarith

theorem sqTiny_nonneg (n : ℕ) : 0 ≤ sqTiny r n := by
  have := r.u_nonneg
  have := r.t_nonneg
  unfold sqTiny; positivity

theorem meanErr_nonneg (y : List ℝ) : 0 ≤ meanErr r y := by
  have := r.one_le_pow (y.length + 1)
  have := r.t_nonneg
  have : 0 ≤ avg (y.map (fun v => |v|)) := avg_nonneg _ (by
    intro v hv
    obtain ⟨w, _, rfl⟩ := List.mem_map.mp hv
    positivity)
  unfold meanErr
  have : 0 ≤ ((1 + r.u) ^ (y.length + 1) - 1) * avg (y.map (fun v => |v|)) :=
    mul_nonneg (by linarith) (by assumption)
  have : 0 ≤ ((1 + r.u) ^ (y.length + 1) + 1) * r.t := mul_nonneg (by linarith) (by assumption)
  linarith

theorem pvar_nonneg' (y : List ℝ) : 0 ≤ pvar y := avg_nonneg _ (by
  intro v hv
  obtain ⟨w, _, rfl⟩ := List.mem_map.mp hv
  positivity)

/-- **C93** The computed standard deviation against the exact one: relative error `(1+u)(1+γ) - 1` with
`γ` the relative error of the computed variance, plus `(1+γ)` times the bound on the error of the mean,
plus an underflow term. -/
theorem C93_stdev (y : List (Fl r)) (hy : y ≠ []) (hn : r.rnd y.length = y.length) :
    (stdev Fl.sqrt y).2 = y.length ∧
    |(stdev Fl.sqrt y).1.val - √(pvar (y.map Fl.val))|
      ≤ ((1 + r.u) * (1 + sqErr r y.length) - 1) * √(pvar (y.map Fl.val))
        + ((1 + r.u) * ((1 + sqErr r y.length) * meanErr r (y.map Fl.val)
            + √(sqTiny r y.length)) + r.t) := by
  have hc := (C68_variance y hy hn _ rfl).1
  have hlen : y.length ≠ 0 := (List.length_pos_iff.mpr hy).ne'
  have e : stdev Fl.sqrt y = (Fl.sqrt (variance y).1, y.length) := by
    rw [show stdev Fl.sqrt y = if (variance y).2 = 0 then (0, 0)
      else (Fl.sqrt (variance y).1, (variance y).2) from rfl, hc, if_neg hlen]
  rw [e]
  refine ⟨rfl, ?_⟩
  have hu := r.u_nonneg
  have h1 := variance_err y hy hn
  have h2 := (C68_mean y hy hn).2
  have e2 : meanErr r (y.map Fl.val) = ((1 + r.u) ^ (y.length + 1) - 1) * avg (y.map (fun v => |v.val|))
      + ((1 + r.u) ^ (y.length + 1) + 1) * r.t := by
    simp [meanErr, Function.comp_def]
  rw [← e2] at h2
  change |_ - (pvar (y.map Fl.val) + ((mean y).1.val - avg (y.map Fl.val)) ^ 2)|
    ≤ sqErr r y.length * (pvar (y.map Fl.val) + ((mean y).1.val - avg (y.map Fl.val)) ^ 2)
      + sqTiny r y.length at h1
  have hM := meanErr_nonneg (r := r) (y.map Fl.val)
  have hV := pvar_nonneg' (y.map Fl.val)
  have hg := sqErr_nonneg (r := r) y.length
  have hT := sqTiny_nonneg (r := r) y.length
  simp only [Fl.val_sqrt]
  generalize sqErr r y.length = γ at *
  generalize sqTiny r y.length = τ at *
  generalize meanErr r (y.map Fl.val) = M at *
  generalize (mean y).1.val - avg (y.map Fl.val) = m at *
  generalize pvar (y.map Fl.val) = V at *
  generalize (variance y).1.val = W at *
  have hm : m ^ 2 ≤ M ^ 2 := by
    rw [← sq_abs m]
    exact pow_le_pow_left₀ (abs_nonneg _) h2 2
  have h3 := sqrt_rel hg h1 (by positivity) hT
  have h4 : √(V + m ^ 2) ≤ √V + M := by
    rw [Real.sqrt_le_iff]
    refine ⟨by positivity, ?_⟩
    have := Real.sq_sqrt hV
    nlinarith [mul_nonneg (Real.sqrt_nonneg V) hM]
  have h5 : √V ≤ √(V + m ^ 2) := Real.sqrt_le_sqrt (by nlinarith [sq_nonneg m])
  have h6 : |√W - √V| ≤ γ * √V + ((1 + γ) * M + √τ) := by
    have h7 := mul_le_mul_of_nonneg_left h4 hg
    have h8 := abs_le.mp h3
    rw [abs_le]
    constructor <;> nlinarith
  exact round_rel h6 (Real.sqrt_nonneg V)

/-- **C93** `lag_diff` rounds each difference once. -/
theorem C93_lag_diff (y : List (Fl r)) (i : ℕ) (h : i + 1 < y.length) :
    ∃ d, (lagDiff y)[i]? = some d ∧
      |d.val - (y[i + 1].val - y[i].val)| ≤ r.u * |y[i + 1].val - y[i].val| + r.t := by
  refine ⟨y[i + 1] - y[i], ?_, r.err _⟩
  rw [List.getElem?_eq_getElem (by rw [C07_length]; omega), C07_entry y i h]

/-- **C93** `rmssd` in floating point: relative error `(1+u)(1+γ) - 1`, plus an underflow term. -/
theorem C93_rmssd (y : List (Fl r)) (hy : 2 ≤ y.length) (hn : r.rnd (y.length - 1 : ℕ) = (y.length - 1 : ℕ))
    (R : ℝ) (hR : R = √(avg ((y.zip y.tail).map (fun p => (p.2.val - p.1.val) ^ 2)))) :
    |(rmssd Fl.sqrt y).val - R|
      ≤ ((1 + r.u) * (1 + sqErr r (y.length - 1)) - 1) * R
        + ((1 + r.u) * √(sqTiny r (y.length - 1)) + r.t) := by
  have hl : (y.zip y.tail).length = y.length - 1 := by simp
  have h0 : y.zip y.tail ≠ [] := by
    intro h
    rw [h] at hl
    simp at hl
    omega
  have h1 := meanSqDiff_err (y.zip y.tail) h0 (by rw [hl]; exact hn)
  rw [hl] at h1
  have e : (rmssd Fl.sqrt y).val = r.rnd √(mean ((y.zip y.tail).map
      (fun p : Fl r × Fl r => (p.2 - p.1) * (p.2 - p.1)))).1.val := by
    have e := tupleWindows_zip y
    rw [List.drop_one] at e
    rw [← e]
    rfl
  rw [e, hR]
  have hW : 0 ≤ avg ((y.zip y.tail).map (fun p => (p.2.val - p.1.val) ^ 2)) := avg_nonneg _ (by
    intro v hv
    obtain ⟨w, _, rfl⟩ := List.mem_map.mp hv
    positivity)
  exact round_rel (sqrt_rel (sqErr_nonneg _) h1 hW (sqTiny_nonneg _)) (Real.sqrt_nonneg _)

/-- `zscore` in floating point.  `M` bounds the error of the computed mean and `S` the error of the
computed standard deviation `s`; whenever `S < s`, every entry is within the stated distance of the exact
score `z`. -/
theorem zscore_err (y : List (Fl r)) (m s M S : ℝ)
    (hM : |(mean y).1.val - m| ≤ M) (hS : |(stdev Fl.sqrt y).1.val - s| ≤ S) (hlt : S < s)
    (i : ℕ) (hi : i < y.length) (z : ℝ) (hz : z = (y[i].val - m) / s) :
    ∃ z', (zscore Fl.sqrt y)[i]? = some z' ∧
      |z'.val - z| ≤ r.u * |z|
        + (1 + r.u) * ((r.u * |y[i].val - m| + (1 + r.u) * M + r.t + |z| * S) / (s - S)) + r.t := by
  refine ⟨(y[i] - (mean y).1) / (stdev Fl.sqrt y).1, ?_, ?_⟩
  · simp [zscore, List.getElem?_eq_getElem hi]
  · have h1 : |r.rnd (y[i].val - (mean y).1.val) - (y[i].val - m)|
        ≤ r.u * |y[i].val - m| + (1 + r.u) * M + r.t := by
      apply round_abs
      rw [sub_sub_sub_cancel_left, abs_sub_comm]
      exact hM
    have h2 := quot_err h1 hS hlt
    rw [← hz] at h2
    exact round_abs h2

/-- **C93** `zscore` in floating point.  `m` and `s` are the exact mean and standard deviation, `M` and `S` the
bounds of `C68_mean` and `C93_stdev` on the errors of the computed ones.  Whenever `S < s`, every entry is
within the stated distance of the exact score `z`. -/
theorem C93_zscore (y : List (Fl r)) (hy : y ≠ []) (hn : r.rnd y.length = y.length)
    (m s M S : ℝ) (hm : m = avg (y.map Fl.val)) (hs : s = √(pvar (y.map Fl.val)))
    (hM : M = meanErr r (y.map Fl.val))
    (hS : S = ((1 + r.u) * (1 + sqErr r y.length) - 1) * s
        + ((1 + r.u) * ((1 + sqErr r y.length) * M + √(sqTiny r y.length)) + r.t)) (hlt : S < s)
    (i : ℕ) (hi : i < y.length) (z : ℝ) (hz : z = (y[i].val - m) / s) :
    ∃ z', (zscore Fl.sqrt y)[i]? = some z' ∧
      |z'.val - z| ≤ r.u * |z|
        + (1 + r.u) * ((r.u * |y[i].val - m| + (1 + r.u) * M + r.t + |z| * S) / (s - S)) + r.t := by
  refine zscore_err y m s M S ?_ ?_ hlt i hi z hz
  · have := (C68_mean y hy hn).2
    rw [hm, hM]
    simpa [meanErr, Function.comp_def] using this
  · rw [hS, hs, hM]
    exact (C93_stdev y hy hn).2

/-- **C93** `autocorr` in floating point.  `D` is the mean absolute deviation from the exact mean, `V` the
variance; the numerator is computed within `A` of the exact autocovariance `a`, where `δ` bounds the
absolute error of a deviation; the quotient is within the stated distance of the exact `ρ`. -/
theorem C93_autocorr (y : List (Fl r)) (hy : y ≠ []) (hn : r.rnd y.length = y.length) (k : ℕ)
    (M δ V S a A ρ : ℝ) (hM : M = meanErr r (y.map Fl.val)) (hδ : δ = (1 + r.u) * M + r.t)
    (hV : V = pvar (y.map Fl.val))
    (hS : S = M ^ 2 + sqErr r y.length * (V + M ^ 2) + sqTiny r y.length)
    (ha : a = lagSum (y.map Fl.val) k (y.length - k) / y.length)
    (hA : A = ((1 + r.u) ^ (y.length + 4) - 1) * V
      + (1 + r.u) ^ (y.length + 2) * (2 * (1 + r.u) * δ * √V + δ ^ 2)
      + (2 * (1 + r.u) ^ (y.length + 1) + 1) * r.t)
    (hρ : ρ = a / V) (hlt : S < V) :
    |(autocorr y k).val - ρ|
      ≤ r.u * |ρ| + (1 + r.u) * ((A + |ρ| * S) / (V - S)) + r.t := by
  have hu := r.u_nonneg
  have ht := r.t_nonneg
  have hN : (0 : ℝ) < y.length := by exact_mod_cast List.length_pos_iff.mpr hy
  have hx0 : y.map Fl.val ≠ [] := by simpa using hy
  have hlen : (y.map Fl.val).length = y.length := by simp
  have hmean : |(mean y).1.val - avg (y.map Fl.val)| ≤ M := by
    have := (C68_mean y hy hn).2
    rw [hM]
    simpa [meanErr, Function.comp_def] using this
  have hM0 : 0 ≤ M := (abs_nonneg _).trans hmean
  have hδ0 : 0 ≤ δ := by rw [hδ]; positivity
  have hvar : |(variance y).1.val - V| ≤ S := by
    have := (C68_variance y hy hn M (by rw [hM]; simp [meanErr, Function.comp_def])).2
    rw [hS, hV]
    exact this
  obtain ⟨c, hc⟩ : ∃ c, c = avg (y.map Fl.val) := ⟨_, rfl⟩
  rw [← hc] at hmean
  have hV0 : 0 ≤ V := hV ▸ pvar_nonneg' _
  obtain ⟨l, hl⟩ : ∃ l, l = y.zip (y.drop k) := ⟨_, rfl⟩
  have hL : l.length ≤ y.length := by rw [hl]; simp
  have hLr : (l.length : ℝ) ≤ y.length := by exact_mod_cast hL
  have dev : ∀ v : Fl r, |r.rnd (v.val - (mean y).1.val) - (v.val - c)| ≤ r.u * |v.val - c| + δ := by
    intro v
    have := round_abs (r := r) (A := M) (v' := v.val - (mean y).1.val) (v := v.val - c) (by
      rw [sub_sub_sub_cancel_left, abs_sub_comm]
      exact hmean)
    rw [hδ]
    linarith
  have h1 := products_err (r := r) l (fun p => (p.1 - (mean y).1) * (p.2 - (mean y).1))
    (fun p => r.rnd (p.1.val - (mean y).1.val)) (fun p => r.rnd (p.2.val - (mean y).1.val))
    (fun p => p.1.val - c) (fun p => p.2.val - c) δ hδ0 (fun p _ => rfl) (fun p _ => dev p.1)
    (fun p _ => dev p.2)
  -- the exact sum
  have hexact : (l.map (fun p => (p.1.val - c) * (p.2.val - c))).sum
      = lagSum (y.map Fl.val) k (y.length - k) := by
    have := sum_zip_map (fun u v => (u - c) * (v - c)) (y.map Fl.val) ((y.map Fl.val).drop k)
      (y.length - k) (by simp) (by simp) (by right; simp)
    rw [← List.map_drop, List.zip_map, List.map_map] at this
    rw [hl]
    refine Eq.trans ?_ (this.trans ?_)
    · rfl
    · unfold lagSum
      rw [← hc]
      refine Finset.sum_congr rfl (fun j _ => ?_)
      rw [List.map_drop, getD_drop', Nat.add_comm k j]
  -- sums of deviations
  have hsq : (y.map (fun v => (v.val - c) ^ 2)).sum = y.length * V := by
    rw [hV, pvar, avg, List.length_map, hlen, ← hc, List.map_map]
    field_simp
    rfl
  have habs : (y.map (fun v => |v.val - c|)).sum ≤ y.length * √V := by
    have := avg_abs_le (y.map (fun v => v.val - c)) (by simpa using hy)
    have e : avg ((y.map (fun v => v.val - c)).map (fun v => v ^ 2)) = V := by
      rw [avg, List.map_map, List.length_map]
      change (y.map (fun v => (v.val - c) ^ 2)).sum / _ = _
      rw [hsq]; field_simp
    rw [e, avg, List.map_map, List.length_map, div_le_iff₀ hN, mul_comm] at this
    exact this
  have hX : (l.map (fun p => |p.1.val - c|)).sum ≤ y.length * √V := by
    rw [hl]
    exact (sum_zip_fst_le (fun v : Fl r => |v.val - c|) (fun _ => abs_nonneg _) _ _).trans habs
  have hY : (l.map (fun p => |p.2.val - c|)).sum ≤ y.length * √V := by
    rw [hl]
    exact ((sum_zip_snd_le (fun v : Fl r => |v.val - c|) (fun _ => abs_nonneg _) _ _).trans
      (sum_drop_le _ (fun _ => abs_nonneg _) _ _)).trans habs
  have hXY : (l.map (fun p => |(p.1.val - c) * (p.2.val - c)|)).sum ≤ y.length * V := by
    have h2 : (l.map (fun p => |(p.1.val - c) * (p.2.val - c)|)).sum
        ≤ (l.map (fun p => (p.1.val - c) ^ 2 / 2 + (p.2.val - c) ^ 2 / 2)).sum := by
      refine List.sum_le_sum (fun p _ => ?_)
      rw [abs_le]
      constructor
      · nlinarith [sq_nonneg ((p.1.val - c) + (p.2.val - c))]
      · nlinarith [sq_nonneg ((p.1.val - c) - (p.2.val - c))]
    rw [sum_map_add'] at h2
    have h3 := sum_zip_fst_le (fun v : Fl r => (v.val - c) ^ 2 / 2) (fun _ => by positivity) y (y.drop k)
    have h4 := (sum_zip_snd_le (fun v : Fl r => (v.val - c) ^ 2 / 2) (fun _ => by positivity) y
      (y.drop k)).trans (sum_drop_le _ (fun _ => by positivity) _ _)
    have h5 : (y.map (fun v => (v.val - c) ^ 2 / 2)).sum = y.length * V / 2 := by
      rw [← hsq]
      have := sum_map_mul' y (1 / 2) (fun v => (v.val - c) ^ 2)
      rw [one_div_mul_eq_div] at this
      rw [← this]
      congr 1
      exact List.map_congr_left (fun v _ => by ring)
    rw [← hl] at h3 h4
    linarith
  rw [hexact] at h1
  have hG : (1 + r.u) ^ l.length ≤ (1 + r.u) ^ y.length := pow_le_pow_right₀ (by linarith) hL
  have hg1 := r.one_le_pow l.length
  obtain ⟨s, hs⟩ : ∃ s, s = (sum (l.map (fun p : Fl r × Fl r =>
    (p.1 - (mean y).1) * (p.2 - (mean y).1)))).val := ⟨_, rfl⟩
  rw [← hs] at h1
  have h6 : |s / y.length - a| ≤ ((1 + r.u) ^ (y.length + 3) - 1) * V
      + (1 + r.u) ^ (y.length + 1) * (2 * (1 + r.u) * δ * √V + δ ^ 2)
      + 2 * (1 + r.u) ^ y.length * r.t := by
    rw [ha, ← sub_div, abs_div, abs_of_pos hN, div_le_iff₀ hN]
    refine h1.trans ?_
    have p1 : ((1 + r.u) ^ (l.length + 3) - 1) * (l.map (fun p => |(p.1.val - c) * (p.2.val - c)|)).sum
        ≤ ((1 + r.u) ^ (y.length + 3) - 1) * (y.length * V) := by
      have q := pow_le_pow_right₀ (by linarith : 1 ≤ 1 + r.u) (by omega : l.length + 3 ≤ y.length + 3)
      have q1 := r.one_le_pow (l.length + 3)
      exact mul_le_mul (by linarith) hXY (List.sum_nonneg (by
        intro x hx
        obtain ⟨w, _, rfl⟩ := List.mem_map.mp hx
        positivity)) (by linarith)
    have p2 : (1 + r.u) ^ (l.length + 1) * ((1 + r.u) * δ * (l.map (fun p => |p.1.val - c|)).sum
        + (1 + r.u) * δ * (l.map (fun p => |p.2.val - c|)).sum + l.length * δ ^ 2)
        ≤ (1 + r.u) ^ (y.length + 1) * (y.length * (2 * (1 + r.u) * δ * √V + δ ^ 2)) := by
      have q := pow_le_pow_right₀ (by linarith : 1 ≤ 1 + r.u) (by omega : l.length + 1 ≤ y.length + 1)
      refine mul_le_mul q ?_ ?_ (by positivity)
      · have w : 0 ≤ (1 + r.u) * δ := by positivity
        have w1 := mul_le_mul_of_nonneg_left hX w
        have w2 := mul_le_mul_of_nonneg_left hY w
        have w3 := mul_le_mul_of_nonneg_right hLr (sq_nonneg δ)
        linarith
      · have z1 : 0 ≤ (l.map (fun p => |p.1.val - c|)).sum := List.sum_nonneg (by
          intro x hx
          obtain ⟨w, _, rfl⟩ := List.mem_map.mp hx
          positivity)
        have z2 : 0 ≤ (l.map (fun p => |p.2.val - c|)).sum := List.sum_nonneg (by
          intro x hx
          obtain ⟨w, _, rfl⟩ := List.mem_map.mp hx
          positivity)
        positivity
    have p3 : 2 * (1 + r.u) ^ l.length * (l.length * r.t) ≤ 2 * (1 + r.u) ^ y.length * (y.length * r.t) :=
      mul_le_mul (by linarith) (mul_le_mul_of_nonneg_right hLr ht) (by positivity) (by positivity)
    linarith
  have haV : |a| ≤ V := by
    rw [ha, abs_div, abs_of_pos hN, div_le_iff₀ hN, ← hexact, mul_comm]
    refine (le_trans ?_ hXY)
    have := abs_sum_le (l.map (fun p => (p.1.val - c) * (p.2.val - c)))
    rwa [absSum, List.map_map] at this
  have h7 := round_abs (r := r) h6
  have h8 : |r.rnd (s / y.length) - a| ≤ A := by
    refine h7.trans ?_
    rw [hA]
    have := mul_le_mul_of_nonneg_left haV hu
    have e1 : (1 + r.u) ^ (y.length + 4) = (1 + r.u) * (1 + r.u) ^ (y.length + 3) := by ring
    have e2 : (1 + r.u) ^ (y.length + 2) = (1 + r.u) * (1 + r.u) ^ (y.length + 1) := by ring
    have e3 : (1 + r.u) ^ (y.length + 1) = (1 + r.u) * (1 + r.u) ^ y.length := by ring
    rw [e1, e2, e3]
    linarith
  have h9 := round_abs (r := r) (quot_err h8 hvar hlt)
  rw [← hρ] at h9
  have e : (autocorr y k).val = r.rnd (r.rnd (s / y.length) / (variance y).1.val) := by
    have e1 : (mean y).2 = y.length := C03_count y
    have e2 : autocorr y k = sum (l.map (fun p : Fl r × Fl r =>
      (p.1 - (mean y).1) * (p.2 - (mean y).1))) / ((mean y).2 : Fl r) / (variance y).1 := by
      rw [hl]; rfl
    rw [e2, e1, hs]
    simp only [Fl.val_div, Fl.val_natCast, hn]
  rw [e]
  exact h9

theorem binary64_tiny : binary64.u ≤ 1 / 10 ^ 6 ∧ binary64.t ≤ 1 / 10 ^ 6 := by
  constructor
  · change (2 : ℝ) ^ (-((53 : ℕ) : ℤ)) ≤ _
    norm_num
  · change (2 : ℝ) ^ ((-1074 : ℤ) - 1) ≤ _
    calc (2 : ℝ) ^ ((-1074 : ℤ) - 1) ≤ 2 ^ (-20 : ℤ) := zpow_le_zpow_right₀ (by norm_num) (by norm_num)
      _ ≤ _ := by norm_num

/-- The samples `1, 3` meet the hypotheses of `C93_stdev`, `C93_zscore` and `C93_autocorr` in `f64`. -/
theorem C93_example : ∃ y : List (Fl binary64), y ≠ [] ∧ binary64.rnd y.length = y.length ∧
    pvar (y.map Fl.val) = 1 ∧
    ((1 + binary64.u) * (1 + sqErr binary64 y.length) - 1) * √(pvar (y.map Fl.val))
        + ((1 + binary64.u) * ((1 + sqErr binary64 y.length) * meanErr binary64 (y.map Fl.val)
          + √(sqTiny binary64 y.length)) + binary64.t) < √(pvar (y.map Fl.val)) ∧
    meanErr binary64 (y.map Fl.val) ^ 2 + sqErr binary64 y.length
      * (pvar (y.map Fl.val) + meanErr binary64 (y.map Fl.val) ^ 2) + sqTiny binary64 y.length
        < pvar (y.map Fl.val) := by
  have hV : pvar [1, (3 : ℝ)] = 1 := by norm_num [pvar, avg]
  obtain ⟨hu, ht⟩ := binary64_tiny
  have hu0 := binary64.u_nonneg
  have ht0 := binary64.t_nonneg
  have hq : ∀ n : ℕ, n ≤ 10 → (1 + binary64.u) ^ n ≤ 1001 / 1000 := by
    intro n hn
    calc (1 + binary64.u) ^ n ≤ (1 + binary64.u) ^ 10 := pow_le_pow_right₀ (by linarith) hn
      _ ≤ (1 + 1 / 10 ^ 6) ^ 10 := pow_le_pow_left₀ (by linarith) (by linarith) _
      _ ≤ _ := by norm_num
  have hg : sqErr binary64 2 ≤ 1 / 100 := by
    have := hq 6 (by norm_num)
    have := mul_le_mul this (by linarith : 1 + binary64.t ≤ 1001 / 1000) (by linarith) (by norm_num)
    unfold sqErr
    norm_num at this ⊢
    linarith
  have hM : meanErr binary64 [1, 3] ≤ 1 / 100 := by
    have h3 := hq 3 (by norm_num)
    have e : avg ([1, 3].map (fun v : ℝ => |v|)) = 2 := by norm_num [avg]
    unfold meanErr
    rw [e]
    norm_num
    nlinarith [binary64.one_le_pow 3]
  have hT : sqTiny binary64 2 ≤ 1 / 10 ^ 4 := by
    have h3 := hq 3 (by norm_num)
    have h2 := hq 2 (by norm_num)
    have h5 : 3 + (1 + binary64.u) ^ 2 + (1 + binary64.u) * binary64.t ≤ 6 := by nlinarith
    have h6 : (1 + binary64.u) ^ 3 * binary64.t ≤ 1001 / 1000 * (1 / 10 ^ 6) :=
      mul_le_mul h3 ht ht0 (by norm_num)
    unfold sqTiny
    calc _ ≤ 1001 / 1000 * (1 / 10 ^ 6) * 6 := mul_le_mul h6 h5 (by positivity) (by norm_num)
      _ ≤ _ := by norm_num
  have hsT : √(sqTiny binary64 2) ≤ 1 / 100 := by
    rw [Real.sqrt_le_iff]
    exact ⟨by norm_num, hT.trans (by norm_num)⟩
  have hg0 := sqErr_nonneg (r := binary64) 2
  have hM0 := meanErr_nonneg (r := binary64) [1, 3]
  have hs0 := Real.sqrt_nonneg (sqTiny binary64 2)
  refine ⟨[⟨1⟩, ⟨3⟩], by simp, C68_counts_exact.1 2 (by norm_num), hV, ?_, ?_⟩
  · change ((1 + binary64.u) * (1 + sqErr binary64 2) - 1) * √(pvar [1, 3])
        + ((1 + binary64.u) * ((1 + sqErr binary64 2) * meanErr binary64 [1, 3]
          + √(sqTiny binary64 2)) + binary64.t) < √(pvar [1, 3])
    rw [hV, Real.sqrt_one]
    generalize sqErr binary64 2 = γ at *
    generalize meanErr binary64 [1, 3] = M at *
    generalize √(sqTiny binary64 2) = w at *
    have k1 : (1 + binary64.u) * (1 + γ) ≤ 11 / 10 := by
      calc (1 + binary64.u) * (1 + γ) ≤ (1 + 1 / 10 ^ 6) * (1 + 1 / 100) :=
            mul_le_mul (by linarith) (by linarith) (by linarith) (by norm_num)
        _ ≤ _ := by norm_num
    have k2 : (1 + γ) * M ≤ 2 / 100 := by
      calc (1 + γ) * M ≤ (1 + 1 / 100) * (1 / 100) :=
            mul_le_mul (by linarith) (by linarith) (by linarith) (by norm_num)
        _ ≤ _ := by norm_num
    have k3 : (1 + binary64.u) * ((1 + γ) * M + w) ≤ 1 / 10 := by
      calc (1 + binary64.u) * ((1 + γ) * M + w) ≤ (1 + 1 / 10 ^ 6) * (3 / 100) :=
            mul_le_mul (by linarith) (by linarith) (by positivity) (by norm_num)
        _ ≤ _ := by norm_num
    linarith
  · change meanErr binary64 [1, 3] ^ 2 + sqErr binary64 2
      * (pvar [1, 3] + meanErr binary64 [1, 3] ^ 2) + sqTiny binary64 2 < pvar [1, 3]
    rw [hV]
    generalize sqErr binary64 2 = γ at *
    generalize meanErr binary64 [1, 3] = M at *
    have k1 : M ^ 2 ≤ 1 / 100 := by nlinarith
    have k2 : γ * (1 + M ^ 2) ≤ 1 / 100 * 2 :=
      mul_le_mul hg (by linarith) (by positivity) (by norm_num)
    linarith

/-! ### Robust statistics -/

/-- The absolute value: exact in floating point. -/
noncomputable def flAbs (v : Fl r) : Fl r := ⟨|v.val|⟩

/-- The bound on the error of a computed median whose exact value is `c`. -/
noncomputable def medErr (r : Rounding) (c : ℝ) : ℝ := ((1 + r.u) ^ 2 - 1) * |c| + 2 * (1 + r.u) * r.t

theorem medErr_nonneg (c : ℝ) : 0 ≤ medErr r c := by
  have := r.u_nonneg
  have := r.t_nonneg
  have : 0 ≤ ((1 + r.u) ^ 2 - 1) * |c| := mul_nonneg (by nlinarith) (abs_nonneg _)
  unfold medErr; positivity

theorem exists_sorts_fl (y : List (Fl r)) : ∃ s, Sorts s y :=
  ⟨y.mergeSort (fun a b => decide (a ≤ b)), List.mergeSort_perm _ _, by
    have := List.pairwise_mergeSort (le := fun a b : Fl r => decide (a ≤ b))
      (fun a b c h1 h2 => by simp at *; exact h1.trans h2)
      (fun a b => by simpa using le_total a b) y
    simpa using this⟩

/-- **C93** The computed median is within `((1+u)² - 1) |c| + 2 (1+u) t` of the exact median `c`, and equal
to it for an odd number of samples. -/
theorem C93_median (y : List (Fl r)) (hy : y ≠ []) (htwo : r.rnd 2 = 2) (s : List ℝ)
    (hs : Sorts s (y.map Fl.val)) (c : ℝ) (hc : c = middle s) :
    ∃ m : Fl r, RunReturns (median y) (m, y.length) ∧ |m.val - c| ≤ medErr r c ∧
      (y.length % 2 = 1 → m.val = c) := by
  have hu := r.u_nonneg
  have ht := r.t_nonneg
  obtain ⟨sf, hsf⟩ := exists_sorts_fl y
  have hlen := hsf.1.length_eq
  have hpos : 0 < y.length := List.length_pos_iff.mpr hy
  have es : s = sf.map Fl.val := by
    refine List.Perm.eq_of_pairwise' (r := (· ≤ ·)) ?_ ?_ ?_ 
    · exact hs.2
    · rw [List.pairwise_map]; exact hsf.2
    · exact hs.1.trans (hsf.1.map _).symm
  have hg : ∀ i, i < y.length → s.getD i 0 = (sf.getD i 0).val := by
    intro i hi
    rw [es, List.getD_eq_getElem _ _ (by simpa [hlen] using hi), List.getD_eq_getElem _ _ (by omega)]
    simp
  have hsl : s.length = y.length := by rw [es]; simp [hlen]
  rcases y with _ | ⟨v, _ | ⟨w, vs⟩⟩
  · exact absurd rfl hy
  · refine ⟨v, ⟨0, fun _ _ => rfl⟩, ?_⟩
    have e : v.val = c := by
      have : s = [v.val] := List.perm_singleton.mp hs.1
      rw [hc, this]
      simp [middle]
    rw [e]
    simpa using medErr_nonneg c
  · have q1 := quickselect_sorted (v :: w :: vs) sf hsf ((v :: w :: vs).length / 2) (by omega) 0
    have q2 := quickselect_sorted (v :: w :: vs) sf hsf ((v :: w :: vs).length / 2 - 1) (by omega) 0
    by_cases hodd : (v :: w :: vs).length % 2 = 1
    · refine ⟨sf.getD ((v :: w :: vs).length / 2) 0, ⟨(v :: w :: vs).length, fun fuel hf => ?_⟩, ?_⟩
      · show median (v :: w :: vs) fuel = _
        rw [median]
        rw [if_pos hodd, q1 fuel hf]
        rfl
      · have e : (sf.getD ((v :: w :: vs).length / 2) 0).val = c := by
          rw [hc, middle, hsl, if_pos hodd, hg _ (by omega)]
        rw [e]
        simpa using medErr_nonneg c
    · refine ⟨(sf.getD ((v :: w :: vs).length / 2 - 1) 0 + sf.getD ((v :: w :: vs).length / 2) 0) / 2,
        ⟨(v :: w :: vs).length, fun fuel hf => ?_⟩, ?_, fun h => absurd h hodd⟩
      · show median (v :: w :: vs) fuel = _
        rw [median]
        rw [if_neg hodd, q1 fuel hf, q2 fuel hf]
        rfl
      · rw [middle, hsl, if_neg hodd, hg _ (by omega), hg _ (by omega)] at hc
        generalize sf.getD ((v :: w :: vs).length / 2 - 1) 0 = a at *
        generalize sf.getD ((v :: w :: vs).length / 2) 0 = b at *
        have e : ((a + b) / 2 : Fl r).val = r.rnd (r.rnd (a.val + b.val) / 2) := by
          change r.rnd (r.rnd (a.val + b.val) / r.rnd (2 : ℕ)) = _
          rw [Nat.cast_ofNat, htwo]
        have h1 := r.err (a.val + b.val)
        have e2 : a.val + b.val = 2 * c := by rw [hc]; ring
        rw [e2, abs_mul, abs_two] at h1
        have h2 : |r.rnd (2 * c) / 2 - c| ≤ r.u * |c| + r.t / 2 := by
          have e3 : r.rnd (2 * c) / 2 - c = (r.rnd (2 * c) - 2 * c) / 2 := by ring
          rw [e3, abs_div, abs_two]
          linarith
        have h3 := round_abs (r := r) h2
        rw [e, e2]
        refine h3.trans ?_
        unfold medErr
        nlinarith

/-- **C93** The computed median absolute deviation against the exact one, `d`. -/
theorem C93_mad (y : List (Fl r)) (hy : y ≠ []) (htwo : r.rnd 2 = 2) (c d e : ℝ)
    (hc : IsMedianOf c (y.map Fl.val)) (hd : IsMedianOf d (y.map (fun v => |v.val - c|)))
    (he : e = (1 + r.u) * medErr r c + r.t) :
    ∃ d' : Fl r, RunReturns (medianAbsDeviation flAbs y) (d', y.length) ∧
      |d'.val - d| ≤ ((1 + r.u) ^ 3 - 1) * d + ((1 + r.u) ^ 2 * e + 2 * (1 + r.u) * r.t) := by
  have hu := r.u_nonneg
  have ht := r.t_nonneg
  obtain ⟨s, hs, hsc⟩ := hc
  obtain ⟨m, ⟨N1, hm⟩, hmc, -⟩ := C93_median y hy htwo s hs c hsc
  obtain ⟨s', hs'⟩ := exists_sorts ((y.map (fun v => flAbs (v - m))).map Fl.val)
  obtain ⟨d', ⟨N2, hd'⟩, hdd, -⟩ := C93_median (y.map (fun v => flAbs (v - m))) (by simpa using hy) htwo
    s' hs' _ rfl
  refine ⟨d', ⟨max N1 N2, fun fuel hf => ?_⟩, ?_⟩
  · have e1 := hm fuel (le_trans (le_max_left _ _) hf)
    have e2 := hd' fuel (le_trans (le_max_right _ _) hf)
    rw [List.length_map] at e2
    unfold medianAbsDeviation
    rw [e1]
    exact e2
  · have key : ∀ v ∈ y, |(flAbs (v - m)).val - (|v.val - c|)| ≤ r.u * |v.val - c| + e := by
      intro v _
      change |(|r.rnd (v.val - m.val)|) - (|v.val - c|)| ≤ _
      refine (abs_abs_sub_abs_le _ _).trans ?_
      have := round_abs (r := r) (A := medErr r c) (v' := v.val - m.val) (v := v.val - c) (by
        rw [sub_sub_sub_cancel_left, abs_sub_comm]; exact hmc)
      rw [he]
      linarith
    have hd0 : 0 ≤ d := by
      obtain ⟨t, ht, rfl⟩ := hd
      have k : ∀ i, 0 ≤ t.getD i 0 := by
        intro i
        by_cases hi : i < t.length
        · rw [List.getD_eq_getElem _ _ hi]
          have := ht.1.mem_iff.mp (List.getElem_mem hi)
          obtain ⟨v, _, hv⟩ := List.mem_map.mp this
          rw [← hv]; exact abs_nonneg _
        · rw [List.getD_eq_default _ _ (by omega)]
      unfold middle
      split
      · exact k _
      · have := k (t.length / 2 - 1)
        have := k (t.length / 2)
        linarith
    have hne : y.map (fun v => |v.val - c|) ≠ [] := by simpa using hy
    obtain ⟨t1, ht1, et1⟩ := isMedianOf_affine (1 + r.u) 0 d _ hne hd
    obtain ⟨t2, ht2, et2⟩ := isMedianOf_affine (1 - r.u) 0 d _ hne hd
    rw [List.map_map] at ht1 ht2 hs'
    have b1 := middle_le y hy _ _ e (fun v hv => by
      have := (abs_le.mp (key v hv)).2
      simp only [Function.comp]
      linarith) s' t1 hs' ht1
    have b2 := middle_le y hy _ _ e (fun v hv => by
      have := (abs_le.mp (key v hv)).1
      simp only [Function.comp]
      linarith) t2 s' ht2 hs'
    rw [← et1] at b1
    rw [← et2] at b2
    have b3 : |middle s' - d| ≤ r.u * d + e := by rw [abs_le]; constructor <;> linarith
    have b4 : |middle s'| ≤ (1 + r.u) * d + e := by
      have := abs_add_le (middle s' - d) d
      rw [sub_add_cancel, abs_of_nonneg hd0] at this
      linarith
    have b5 := abs_sub_le d'.val (middle s') d
    unfold medErr at hdd
    have b6 := mul_le_mul_of_nonneg_left b4 (by nlinarith : (0 : ℝ) ≤ (1 + r.u) ^ 2 - 1)
    linarith

/-- **C93** `mod_zscore` in floating point: `D` bounds the error of the computed median absolute deviation as
in `C93_mad`; whenever `D < d`, every entry is within the stated distance of the exact score `z`, computed
with the constant `κ` of the floating-point type. -/
theorem C93_mod_zscore (y : List (Fl r)) (hy : y ≠ []) (htwo : r.rnd 2 = 2) (κ : Fl r) (c d e D : ℝ)
    (hc : IsMedianOf c (y.map Fl.val)) (hd : IsMedianOf d (y.map (fun v => |v.val - c|)))
    (he : e = (1 + r.u) * medErr r c + r.t)
    (hD : D = ((1 + r.u) ^ 3 - 1) * d + ((1 + r.u) ^ 2 * e + 2 * (1 + r.u) * r.t)) (hlt : D < d) :
    ∃ zs, RunReturns (modZscore flAbs κ y) zs ∧ zs.length = y.length ∧
      ∀ (i : ℕ) (hi : i < y.length) (x z A : ℝ), x = y[i].val - c → z = x * κ.val / d →
        A = ((1 + r.u) ^ 2 - 1) * |x * κ.val| + (1 + r.u) * |κ.val| * e + r.t →
        ∃ z', zs[i]? = some z' ∧
          |z'.val - z| ≤ r.u * |z| + (1 + r.u) * ((A + |z| * D) / (d - D)) + r.t := by
  have hu := r.u_nonneg
  have ht := r.t_nonneg
  obtain ⟨s, hs, hsc⟩ := id hc
  obtain ⟨m, hm, hmc, -⟩ := C93_median y hy htwo s hs c hsc
  obtain ⟨d', hd', hdd⟩ := C93_mad y hy htwo c d e hc hd he
  rw [← hD] at hdd
  refine ⟨y.map (fun v => (v - m) * κ / d'), ?_, by simp, ?_⟩
  · obtain ⟨N1, h1⟩ := hm
    obtain ⟨N2, h2⟩ := hd'
    refine ⟨max N1 N2, fun fuel hf => ?_⟩
    have e1 := h1 fuel (le_trans (le_max_left _ _) hf)
    have e2 := h2 fuel (le_trans (le_max_right _ _) hf)
    unfold modZscore
    rw [e1]
    simp only [Run.lift] at e2 ⊢
    simp only [Run.ret_bind]
    rw [e2]
    rfl
  · intro i hi x z A hx hz hA
    refine ⟨(y[i] - m) * κ / d', by simp [List.getElem?_eq_getElem hi], ?_⟩
    have h1 := round_abs (r := r) (A := medErr r c) (v' := y[i].val - m.val) (v := x) (by
        rw [hx, sub_sub_sub_cancel_left, abs_sub_comm]; exact hmc)
    have h2 : |r.rnd (y[i].val - m.val) * κ.val - x * κ.val| ≤ (r.u * |x| + e) * |κ.val| := by
      rw [← sub_mul, abs_mul]
      refine mul_le_mul_of_nonneg_right ?_ (abs_nonneg _)
      rw [he]; linarith
    have h3 := round_abs (r := r) h2
    have h4 : |r.rnd (r.rnd (y[i].val - m.val) * κ.val) - x * κ.val| ≤ A := by
      refine h3.trans (le_of_eq ?_)
      rw [hA, abs_mul]
      ring
    have h5 := round_abs (r := r) (quot_err h4 hdd hlt)
    rw [← hz] at h5
    exact h5

/-- The samples `1, 3, 8` meet the hypotheses of `C93_mod_zscore` in `f64`. -/
example : ∃ (y : List (Fl binary64)) (c d e D : ℝ), y ≠ [] ∧ binary64.rnd 2 = 2 ∧
    IsMedianOf c (y.map Fl.val) ∧ IsMedianOf d (y.map (fun v => |v.val - c|)) ∧
    e = (1 + binary64.u) * medErr binary64 c + binary64.t ∧
    D = ((1 + binary64.u) ^ 3 - 1) * d + ((1 + binary64.u) ^ 2 * e + 2 * (1 + binary64.u) * binary64.t) ∧
    D < d := by
  obtain ⟨hu, ht⟩ := binary64_tiny
  have hu0 := binary64.u_nonneg
  have ht0 := binary64.t_nonneg
  have hq : ∀ n : ℕ, n ≤ 10 → (1 + binary64.u) ^ n ≤ 1001 / 1000 := by
    intro n hn
    calc (1 + binary64.u) ^ n ≤ (1 + binary64.u) ^ 10 := pow_le_pow_right₀ (by linarith) hn
      _ ≤ (1 + 1 / 10 ^ 6) ^ 10 := pow_le_pow_left₀ (by linarith) (by linarith) _
      _ ≤ _ := by norm_num
  have hm : medErr binary64 3 ≤ 1 / 100 := by
    have := hq 2 (by norm_num)
    have : (1 + binary64.u) * binary64.t ≤ 2 * (1 / 10 ^ 6) :=
      mul_le_mul (by linarith) ht ht0 (by norm_num)
    unfold medErr
    rw [abs_of_pos (by norm_num : (0 : ℝ) < 3)]
    linarith
  have hm0 := medErr_nonneg (r := binary64) 3
  refine ⟨[⟨1⟩, ⟨3⟩, ⟨8⟩], 3, 2, _, _, by simp, by simpa using C68_counts_exact.1 2 (by norm_num),
    ⟨[1, 3, 8], ⟨List.Perm.refl _, by simp; norm_num⟩, by simp [middle]⟩,
    ⟨[0, 2, 5], ⟨?_, by simp; norm_num⟩, by simp [middle]⟩, rfl, rfl, ?_⟩
  · norm_num
    exact List.Perm.swap _ _ _
  · have h2 := hq 2 (by norm_num)
    have h3 := hq 3 (by norm_num)
    have k1 : (1 + binary64.u) * medErr binary64 3 + binary64.t ≤ 1 / 10 := by nlinarith
    have k2 : (1 + binary64.u) ^ 2 * ((1 + binary64.u) * medErr binary64 3 + binary64.t)
        ≤ 1001 / 1000 * (1 / 10) := mul_le_mul h2 k1 (by positivity) (by norm_num)
    have k3 : (1 + binary64.u) * binary64.t ≤ 2 * (1 / 10 ^ 6) :=
      mul_le_mul (by linarith) ht ht0 (by norm_num)
    linarith

end SciRs.Props

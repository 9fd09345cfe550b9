import Verif.Lemmas.RoundedSavgol
import Verif.Props.Savgol
import Verif.Spec.BinaryRounding

/-!
# C95: Savitzky-Golay filtering in floating point

The model is run with every `+` and `*` rounded.  The solver, the conversion of integers and `powi` are
arbitrary: what matters is the vector of coefficients that `savgol_coeffs_dyn` returns.
-/

namespace SciRs.Props

open SciRs.Spec SciRs.Savgol Polynomial

variable {r : Rounding} [SavNum (Fl r)]

/-- The weights `f 0, …, f (2h)` meet the equations of the `d`-th derivative at spacing `δ` for all
polynomials of degree at most `p`, up to `ε` in each equation. -/
def MomentsWithin (ε : ℝ) (h p d : ℕ) (δ : ℝ) (f : ℕ → ℝ) : Prop :=
  ∀ i, i ≤ p → |∑ j ∈ Finset.range (2 * h + 1), ((h : ℝ) - j) ^ i * f j
    - (if i = d then (d.factorial : ℝ) / δ ^ d else 0)| ≤ ε

/-- The rounding error of one output sample: `S` is the sum of the absolute values of the products. -/
noncomputable def savgolRounding (r : Rounding) (h : ℕ) (S : ℝ) : ℝ :=
  ((1 + r.u) ^ (2 * h + 2) - 1) * S + 2 * ((2 * h + 1 : ℕ) * r.t) * (1 + r.u) ^ (2 * h + 1)

theorem savgol_run (c : Cfg) (solve : Solver (Fl r)) (y fir : List (Fl r)) (h p : ℕ)
    (hp : p + 2 ≤ 2 * h + 1) (hw : ((2 * h + 1 : ℕ) : ℤ) ≤ c.usizeMax) (deriv : Option ℕ)
    (delta : Option (Fl r)) (hc : savgolCoeffsDyn c solve (2 * h + 1) p deriv delta = .ok fir)
    (hl : fir.length = 2 * h + 1) :
    ∃ out, savgolFilterDyn c solve y (2 * h + 1) p deriv delta = .ok out ∧ out.length = y.length ∧
      ∀ i, i < y.length →
        |(out.getD i 0).val - ∑ j ∈ Finset.range (2 * h + 1),
            (fir.getD j 0).val * extendNearest (y.map Fl.val) ((i : ℤ) + h - j)|
          ≤ savgolRounding r h (∑ j ∈ Finset.range (2 * h + 1),
            |(fir.getD j 0).val| * |extendNearest (y.map Fl.val) ((i : ℤ) + h - j)|) := by
  have hflt := savgol_filter_eq c solve y h p hp hw deriv delta
  rw [hc, ok_bind] at hflt
  cases y with
  | nil => exact ⟨[], hflt, rfl, by simp⟩
  | cons y0 ys =>
    exact ⟨_, hflt, windows_dot_length h y0 ys fir, fun i hi => windows_dot_err h y0 ys fir hl i hi⟩

/-- **C95** Every output sample, the ends included, is the weighted sum of the `2h+1` samples around it
(the signal continued by its end values) with the computed coefficients, up to the rounding of a sum of
`2h+1` products. -/
theorem C95_filter (c : Cfg) (solve : Solver (Fl r)) (y fir : List (Fl r)) (h p : ℕ)
    (hp : p + 2 ≤ 2 * h + 1) (hw : ((2 * h + 1 : ℕ) : ℤ) ≤ c.usizeMax) (deriv : Option ℕ)
    (delta : Option (Fl r)) (hc : savgolCoeffsDyn c solve (2 * h + 1) p deriv delta = .ok fir)
    (hl : fir.length = 2 * h + 1) :
    ∃ out, savgolFilterDyn c solve y (2 * h + 1) p deriv delta = .ok out ∧ out.length = y.length ∧
      ∀ i, i < y.length →
        |(out.getD i 0).val - ∑ j ∈ Finset.range (2 * h + 1),
            (fir.getD j 0).val * extendNearest (y.map Fl.val) ((i : ℤ) + h - j)|
          ≤ ((1 + r.u) ^ (2 * h + 2) - 1) * (∑ j ∈ Finset.range (2 * h + 1),
              |(fir.getD j 0).val| * |extendNearest (y.map Fl.val) ((i : ℤ) + h - j)|)
            + 2 * ((2 * h + 1 : ℕ) * r.t) * (1 + r.u) ^ (2 * h + 1) :=
  savgol_run c solve y fir h p hp hw deriv delta hc hl

/-- A polynomial weighted with coefficients that nearly solve the equations. -/
theorem sum_eval_near (ε : ℝ) (h p d : ℕ) (δ : ℝ) (f : ℕ → ℝ) (hf : MomentsWithin ε h p d δ f)
    (P : ℝ[X]) (hP : P.natDegree ≤ p) :
    |∑ j ∈ Finset.range (2 * h + 1), f j * P.eval ((h : ℝ) - j) - (derivative^[d] P).eval 0 / δ ^ d|
      ≤ ε * ∑ k ∈ Finset.range (p + 1), |P.coeff k| := by
  have e := sum_eval_of_exact (2 * h + 1) p f _ (fun i _ => rfl) P hP
  simp only [pos_odd] at e
  rw [e, ← derivative_coefficient P p d δ hP, ← Finset.sum_sub_distrib, Finset.mul_sum]
  refine le_trans (Finset.abs_sum_le_sum_abs _ _) (Finset.sum_le_sum (fun k hk => ?_))
  have hk := Finset.mem_range.mp hk
  rw [← mul_sub, abs_mul, mul_comm]
  exact mul_le_mul_of_nonneg_right (hf k (by omega)) (abs_nonneg _)

/-- **C95** Polynomials survive rounded filtering: if the samples of a polynomial `q` of degree at most
`polyorder`, spaced by `delta`, are known up to `σ`, and the computed coefficients meet their equations up to `ε`,
then at every position at least half a window from the ends the filter returns the requested derivative of
`q`, up to `ε` times the size of the Taylor coefficients, `σ` times the size of the filter coefficients,
and the rounding of the sum. -/
theorem C95_polynomial (c : Cfg) (solve : Solver (Fl r)) (y fir : List (Fl r)) (h p : ℕ)
    (hp : p + 2 ≤ 2 * h + 1) (hw : ((2 * h + 1 : ℕ) : ℤ) ≤ c.usizeMax) (deriv : Option ℕ)
    (delta : Option (Fl r)) (hδ : (delta.getD 1).val ≠ 0)
    (hc : savgolCoeffsDyn c solve (2 * h + 1) p deriv delta = .ok fir)
    (hl : fir.length = 2 * h + 1) (ε σ : ℝ)
    (hm : MomentsWithin ε h p (deriv.getD 0) (delta.getD 1).val (fun j => (fir.getD j 0).val))
    (q : ℝ[X]) (hq : q.natDegree ≤ p) (x0 : ℝ)
    (hy : ∀ i, i < y.length → |(y.getD i 0).val - q.eval (x0 + (delta.getD 1).val * i)| ≤ σ) :
    ∃ out, savgolFilterDyn c solve y (2 * h + 1) p deriv delta = .ok out ∧ out.length = y.length ∧
      ∀ i, h ≤ i → i + h < y.length →
        |(out.getD i 0).val - (derivative^[deriv.getD 0] q).eval (x0 + (delta.getD 1).val * i)|
          ≤ ε * (∑ k ∈ Finset.range (p + 1), |(derivative^[k] q).eval (x0 + (delta.getD 1).val * i)|
                * |(delta.getD 1).val| ^ k / k.factorial)
            + σ * (∑ j ∈ Finset.range (2 * h + 1), |(fir.getD j 0).val|)
            + (((1 + r.u) ^ (2 * h + 2) - 1) * (∑ j ∈ Finset.range (2 * h + 1),
                |(fir.getD j 0).val| * |(y.getD (i + h - j) 0).val|)
              + 2 * ((2 * h + 1 : ℕ) * r.t) * (1 + r.u) ^ (2 * h + 1)) := by
  obtain ⟨out, h1, h2, h3⟩ := savgol_run c solve y fir h p hp hw deriv delta hc hl
  refine ⟨out, h1, h2, fun i hi1 hi2 => ?_⟩
  have h4 := h3 i (by omega)
  generalize deriv.getD 0 = d at *
  generalize (delta.getD 1).val = δ at *
  obtain ⟨P, hPdef⟩ : ∃ P : ℝ[X], P = q.comp (C (x0 + δ * i) + C δ * X) := ⟨_, rfl⟩
  have hP : P.natDegree ≤ p := by
    have g1 : (C (x0 + δ * i) + C δ * X).natDegree ≤ 1 := by
      rw [add_comm]; exact natDegree_linear_le
    calc P.natDegree ≤ q.natDegree * (C (x0 + δ * i) + C δ * X).natDegree := by
          rw [hPdef]; exact natDegree_comp_le
      _ ≤ q.natDegree * 1 := Nat.mul_le_mul_left _ g1
      _ ≤ p := by omega
  have hder : ∀ k, (derivative^[k] P).eval 0 = δ ^ k * (derivative^[k] q).eval (x0 + δ * i) := by
    intro k
    rw [hPdef, iterate_derivative_comp_linear]
    simp only [eval_mul, eval_C, eval_comp, eval_add, eval_X, mul_zero, add_zero]
  have hcoef : ∀ k, |P.coeff k|
      = |(derivative^[k] q).eval (x0 + δ * i)| * |δ| ^ k / k.factorial := by
    intro k
    have hk : (0 : ℝ) < k.factorial := by exact_mod_cast k.factorial_pos
    have := coeff_mul_factorial P k
    rw [hder] at this
    rw [eq_div_iff hk.ne', ← abs_of_pos hk, ← abs_mul, this, abs_mul, abs_pow, mul_comm]
  have h5 := sum_eval_near ε h p d δ _ hm P hP
  rw [hder, mul_div_cancel_left₀ _ (pow_ne_zero _ hδ), Finset.sum_congr rfl (fun k _ => hcoef k)] at h5
  have e1 : ∀ j ∈ Finset.range (2 * h + 1),
      extendNearest (y.map Fl.val) ((i : ℤ) + h - j) = (y.getD (i + h - j) 0).val := by
    intro j hj
    have hj := Finset.mem_range.mp hj
    rw [extendNearest_inside _ _ (by omega) (by rw [List.length_map]; omega),
      getD_map_zero Fl.val rfl, show ((i : ℤ) + h - j).toNat = i + h - j by omega]
  have e2 : ∑ j ∈ Finset.range (2 * h + 1),
        (fir.getD j 0).val * extendNearest (y.map Fl.val) ((i : ℤ) + h - j)
      = ∑ j ∈ Finset.range (2 * h + 1), (fir.getD j 0).val * (y.getD (i + h - j) 0).val :=
    Finset.sum_congr rfl (fun j hj => by rw [e1 j hj])
  have e3 : ∑ j ∈ Finset.range (2 * h + 1),
        |(fir.getD j 0).val| * |extendNearest (y.map Fl.val) ((i : ℤ) + h - j)|
      = ∑ j ∈ Finset.range (2 * h + 1), |(fir.getD j 0).val| * |(y.getD (i + h - j) 0).val| :=
    Finset.sum_congr rfl (fun j hj => by rw [e1 j hj])
  rw [e2, e3] at h4
  have h6 : |∑ j ∈ Finset.range (2 * h + 1), (fir.getD j 0).val * (y.getD (i + h - j) 0).val
      - ∑ j ∈ Finset.range (2 * h + 1), (fir.getD j 0).val * P.eval ((h : ℝ) - j)|
      ≤ σ * ∑ j ∈ Finset.range (2 * h + 1), |(fir.getD j 0).val| := by
    rw [← Finset.sum_sub_distrib, Finset.mul_sum]
    refine le_trans (Finset.abs_sum_le_sum_abs _ _) (Finset.sum_le_sum (fun j hj => ?_))
    have hj := Finset.mem_range.mp hj
    rw [← mul_sub, abs_mul, mul_comm]
    refine mul_le_mul_of_nonneg_right ?_ (abs_nonneg _)
    have := hy (i + h - j) (by omega)
    rw [hPdef]
    simp only [eval_comp, eval_add, eval_C, eval_mul, eval_X]
    have e2 : x0 + δ * (i + h - j : ℕ) = x0 + δ * i + δ * ((h : ℝ) - j) := by
      rw [Nat.cast_sub (by omega)]; push_cast; ring
    rwa [e2] at this
  unfold savgolRounding at h4
  generalize ∑ j ∈ Finset.range (2 * h + 1), (fir.getD j 0).val * (y.getD (i + h - j) 0).val = A at *
  generalize ∑ j ∈ Finset.range (2 * h + 1), (fir.getD j 0).val * P.eval ((h : ℝ) - j) = B at *
  generalize (derivative^[d] q).eval (x0 + δ * i) = D at *
  calc |(out.getD i 0).val - D| = |((out.getD i 0).val - A) + (A - B) + (B - D)| := by congr 1; ring
    _ ≤ |(out.getD i 0).val - A| + |A - B| + |B - D| := abs_add_three _ _ _
    _ ≤ _ := by linarith

/-- **C95** A constant signal is reproduced everywhere, the ends included, when no derivative is requested:
up to `ε` relative to the constant and the rounding of the sum. -/
theorem C95_constant (c : Cfg) (solve : Solver (Fl r)) (v : Fl r) (n : ℕ) (fir : List (Fl r)) (h p : ℕ)
    (hp : p + 2 ≤ 2 * h + 1) (hw : ((2 * h + 1 : ℕ) : ℤ) ≤ c.usizeMax)
    (delta : Option (Fl r))
    (hc : savgolCoeffsDyn c solve (2 * h + 1) p none delta = .ok fir)
    (hl : fir.length = 2 * h + 1) (ε : ℝ)
    (hm : |∑ j ∈ Finset.range (2 * h + 1), (fir.getD j 0).val - 1| ≤ ε) :
    ∃ out, savgolFilterDyn c solve (List.replicate n v) (2 * h + 1) p none delta = .ok out ∧
      out.length = n ∧ ∀ i, i < n →
        |(out.getD i 0).val - v.val| ≤ (ε + ((1 + r.u) ^ (2 * h + 2) - 1)
              * (∑ j ∈ Finset.range (2 * h + 1), |(fir.getD j 0).val|)) * |v.val|
            + 2 * ((2 * h + 1 : ℕ) * r.t) * (1 + r.u) ^ (2 * h + 1) := by
  obtain ⟨out, h1, h2, h3⟩ := savgol_run c solve (List.replicate n v) fir h p hp hw none delta hc hl
  rw [List.length_replicate] at h2
  refine ⟨out, h1, h2, fun i hi => ?_⟩
  have h4 := h3 i (by simpa using hi)
  have e : ∀ k : ℤ, extendNearest ((List.replicate n v).map Fl.val) k = v.val := by
    intro k
    obtain ⟨m, rfl⟩ : ∃ m, n = m + 1 := ⟨n - 1, by omega⟩
    rw [List.map_replicate]
    unfold extendNearest
    split_ifs with ha hb
    · simp [List.replicate_succ]
    · rw [List.getD_eq_getElem _ _ (by omega), List.getElem_replicate]
    · rw [List.getLastD_eq_getLast?, List.getLast?_replicate]; rfl
  simp only [e, ← Finset.sum_mul] at h4
  unfold savgolRounding at h4
  generalize ∑ j ∈ Finset.range (2 * h + 1), (fir.getD j 0).val = F at *
  generalize ∑ j ∈ Finset.range (2 * h + 1), |(fir.getD j 0).val| = G at *
  have h5 : |F * v.val - v.val| ≤ ε * |v.val| := by
    rw [show F * v.val - v.val = (F - 1) * v.val by ring, abs_mul]
    exact mul_le_mul_of_nonneg_right hm (abs_nonneg _)
  calc |(out.getD i 0).val - v.val| = |((out.getD i 0).val - F * v.val) + (F * v.val - v.val)| := by
        congr 1; ring
    _ ≤ |(out.getD i 0).val - F * v.val| + |F * v.val - v.val| := abs_add_le _ _
    _ ≤ _ := by nlinarith [h4, h5]

/-- `from_usize` rounds and `powi` multiplies. -/
noncomputable def flSavNum (r : Rounding) : SavNum (Fl r) :=
  ⟨fun n => ⟨r.rnd n⟩, ⟨r.rnd (1 / 2)⟩, fun x n => n.rec 1 (fun _ a => a * x)⟩

/-- The hypotheses are met in `f64` by the line `2 x + 1`, window 3 and order 1, with the coefficients
`1/3, 1/3, 1/3` rounded; their equations hold up to `u + 3 t`. -/
example (third : Fl binary64) (hth : third.val = binary64.rnd (1 / 3)) :
    let _ : SavNum (Fl binary64) := flSavNum binary64
    let solve : Solver (Fl binary64) := fun _ _ _ _ => [third, third, third]
    ∃ out, savgolFilterDyn ⟨64, true, by norm_num⟩ solve [⟨1⟩, ⟨3⟩, ⟨5⟩, ⟨7⟩] 3 1 none none = .ok out ∧
      |(out.getD 1 0).val - 3| ≤ 1 / 10 ^ 13 := by
  intro _ solve
  have hu : binary64.u ≤ 1 / 10 ^ 15 := by
    rw [show binary64.u = 2 ^ (-53 : ℤ) from rfl]; norm_num
  have ht : binary64.t ≤ 1 / 10 ^ 15 := by
    rw [show binary64.t = 2 ^ (-1075 : ℤ) from rfl]
    refine le_trans (zpow_le_zpow_right₀ (by norm_num) (by norm_num : (-1075 : ℤ) ≤ -53)) (by norm_num)
  have hu0 := binary64.u_nonneg
  have ht0 := binary64.t_nonneg
  have h3 := binary64.err (1 / 3)
  rw [abs_of_nonneg (by norm_num : (0 : ℝ) ≤ 1 / 3)] at h3
  obtain ⟨a, ha⟩ : ∃ a, third.val = a := ⟨_, rfl⟩
  rw [← hth, ha] at h3
  have h4 := abs_le.mp h3
  obtain ⟨out, o1, o2, o3⟩ := C95_polynomial ⟨64, true, by norm_num⟩ solve [⟨1⟩, ⟨3⟩, ⟨5⟩, ⟨7⟩]
    [third, third, third] 1 1 (by norm_num) (by simp [Cfg.usizeMax]) none none (by simp)
    (by
      rw [savgol_coeffs_free _ _ _ _ (by norm_num) _ _ (by intro _; simp [Cfg.usizeMax])]
      simp [solve])
    rfl (binary64.u + 3 * binary64.t) 0
    (by
      intro i hi
      obtain rfl | rfl : i = 0 ∨ i = 1 := by omega
      · simp only [Finset.sum_range_succ, Finset.sum_range_zero]
        simp [ha]
        rw [abs_le]
        constructor <;> linarith
      · simp only [Finset.sum_range_succ, Finset.sum_range_zero]
        simp [ha]
        rw [show a + (1 - 2) * a = 0 by ring, abs_zero]
        positivity)
    (C 2 * X + C 1) (natDegree_linear_le) 0
    (by
      intro i hi
      have hi : i < 4 := by simpa using hi
      obtain rfl | rfl | rfl | rfl : i = 0 ∨ i = 1 ∨ i = 2 ∨ i = 3 := by omega
      all_goals (simp; try norm_num))
  refine ⟨out, o1, ?_⟩
  have o4 := o3 1 (by norm_num) (by simp)
  simp only [Finset.sum_range_succ, Finset.sum_range_zero] at o4
  simp [ha] at o4
  norm_num at o4
  rw [List.getD_eq_getElem?_getD]
  refine le_trans o4 ?_
  generalize binary64.u = u at *
  generalize binary64.t = t at *
  have hab : |a| ≤ 1 / 2 := abs_le.mpr ⟨by linarith, by linarith⟩
  have p2 : (1 + u) ^ 2 ≤ 1 + 3 / 10 ^ 15 := by nlinarith
  have p3 : (1 + u) ^ 3 ≤ 2 := by
    rw [pow_succ]; nlinarith [sq_nonneg (1 + u)]
  have p4 : (1 + u) ^ 4 - 1 ≤ 7 / 10 ^ 15 := by
    rw [show (1 + u) ^ 4 = (1 + u) ^ 2 * (1 + u) ^ 2 by ring]
    nlinarith [sq_nonneg (1 + u)]
  have p5 : ((1 + u) ^ 4 - 1) * (|a| * 5 + |a| * 3 + |a|) ≤ 7 / 10 ^ 15 * 5 :=
    mul_le_mul p4 (by linarith) (by positivity) (by norm_num)
  have p6 : 2 * (3 * t) * (1 + u) ^ 3 ≤ 6 * (1 / 10 ^ 15) * 2 :=
    mul_le_mul (by linarith) p3 (by positivity) (by norm_num)
  linarith

end SciRs.Props

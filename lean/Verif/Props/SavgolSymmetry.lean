import Mathlib.Algebra.Order.Chebyshev
import Mathlib.LinearAlgebra.Lagrange
import Verif.Props.Savgol

/-!
# C113: symmetries of the Savitzky-Golay filter

Exact arithmetic, a solver that returns the least-squares solution of least norm.
-/

namespace SciRs.Props

open SciRs.Spec SciRs.Savgol

/-! ### Weights of least norm with given moments -/

/-- The moment of order `i` of the weights `f` about the centre of a window of length `w`. -/
noncomputable def moment (w : ℕ) (f : ℕ → ℝ) (i : ℕ) : ℝ := ∑ j ∈ Finset.range w, pos w j ^ i * f j

/-- `f` has the moments `b` up to order `p`, and the least norm among all such weights. -/
structure LeastWeights (w p : ℕ) (b f : ℕ → ℝ) : Prop where
  moments : ∀ i, i < p + 1 → moment w f i = b i
  least : ∀ g : ℕ → ℝ, (∀ i, i < p + 1 → moment w g i = b i) →
    ∑ j ∈ Finset.range w, f j ^ 2 ≤ ∑ j ∈ Finset.range w, g j ^ 2

theorem moment_add (w : ℕ) (f g : ℕ → ℝ) (i : ℕ) : moment w (fun j => f j + g j) i = moment w f i + moment w g i := by
  simp only [moment, mul_add, Finset.sum_add_distrib]

theorem moment_smul (w : ℕ) (c : ℝ) (f : ℕ → ℝ) (i : ℕ) : moment w (fun j => c * f j) i = c * moment w f i := by
  simp only [moment, Finset.mul_sum]
  exact Finset.sum_congr rfl fun j _ => by ring

/-- Weights of least norm are orthogonal to all weights without moments. -/
theorem LeastWeights.orthogonal {w p : ℕ} {b f : ℕ → ℝ} (h : LeastWeights w p b f) (u : ℕ → ℝ)
    (hu : ∀ i, i < p + 1 → moment w u i = 0) : ∑ j ∈ Finset.range w, f j * u j = 0 := by
  have : 2 * ∑ j ∈ Finset.range w, f j * u j = 0 := by
    refine linear_zero (b := ∑ j ∈ Finset.range w, u j ^ 2) fun t => ?_
    have := h.least (fun j => f j + t * u j) fun i hi => by
      rw [moment_add, moment_smul, h.moments i hi, hu i hi, mul_zero, add_zero]
    have e : ∑ j ∈ Finset.range w, (f j + t * u j) ^ 2 = ∑ j ∈ Finset.range w, f j ^ 2 +
        (t * (2 * ∑ j ∈ Finset.range w, f j * u j) + t ^ 2 * ∑ j ∈ Finset.range w, u j ^ 2) := by
      simp only [Finset.mul_sum, ← Finset.sum_add_distrib]
      exact Finset.sum_congr rfl fun j _ => by ring
    rw [e] at this
    linarith
  linarith

/-- They are unique. -/
theorem LeastWeights.unique {w p : ℕ} {b f g : ℕ → ℝ} (hf : LeastWeights w p b f) (hg : LeastWeights w p b g) (j : ℕ)
    (hj : j < w) : f j = g j := by
  have hu : ∀ i, i < p + 1 → moment w (fun j => f j + -1 * g j) i = 0 := fun i hi => by
    rw [moment_add, moment_smul, hf.moments i hi, hg.moments i hi]; ring
  have h1 := hf.orthogonal _ hu
  have h2 := hg.orthogonal _ hu
  have h3 : ∑ j ∈ Finset.range w, (f j - g j) ^ 2 = 0 := by
    have : ∑ j ∈ Finset.range w, (f j - g j) ^ 2 = ∑ j ∈ Finset.range w, f j * (f j + -1 * g j) -
        ∑ j ∈ Finset.range w, g j * (f j + -1 * g j) := by
      rw [← Finset.sum_sub_distrib]
      exact Finset.sum_congr rfl fun j _ => by ring
    rw [this, h1, h2, sub_zero]
  rw [Finset.sum_eq_zero_iff_of_nonneg fun j _ => sq_nonneg _] at h3
  have := pow_eq_zero_iff (n := 2) (by norm_num) |>.mp (h3 j (Finset.mem_range.mpr hj))
  linarith

theorem pos_reverse {w j : ℕ} (hj : j < w) : (pos w (w - 1 - j) : ℝ) = -pos w j := by
  rw [pos_centred, pos_centred, Nat.sub_sub, Nat.cast_sub (by omega)]
  push_cast
  ring

theorem moment_reverse (w : ℕ) (f : ℕ → ℝ) (i : ℕ) :
    moment w (fun j => f (w - 1 - j)) i = (-1) ^ i * moment w f i := by
  unfold moment
  rw [← Finset.sum_range_reflect, Finset.mul_sum]
  refine Finset.sum_congr rfl fun j hj => ?_
  have hj := Finset.mem_range.mp hj
  beta_reduce
  rw [pos_reverse hj, show w - 1 - (w - 1 - j) = j by omega, neg_pow]
  ring

/-- Weights for one derivative are even or odd. -/
theorem LeastWeights.reverse {w p d : ℕ} {B : ℝ} {f : ℕ → ℝ}
    (h : LeastWeights w p (fun i => if i = d then B else 0) f) (j : ℕ) (hj : j < w) :
    f (w - 1 - j) = (-1) ^ d * f j := by
  have hsq : ((-1 : ℝ) ^ d) * (-1) ^ d = 1 := by rw [← mul_pow]; norm_num
  have hr : LeastWeights w p (fun i => if i = d then B else 0) (fun j => (-1) ^ d * f (w - 1 - j)) := by
    refine ⟨fun i hi => ?_, fun g hg => ?_⟩
    · rw [moment_smul w _ (fun j => f (w - 1 - j)), moment_reverse, h.moments i hi]
      by_cases hd : i = d
      · subst hd
        rw [← mul_assoc, hsq, one_mul]
      · simp [hd]
    · refine le_trans (le_of_eq ?_) (h.least g hg)
      rw [← Finset.sum_range_reflect]
      refine Finset.sum_congr rfl fun j hj => ?_
      have hj := Finset.mem_range.mp hj
      rw [show w - 1 - (w - 1 - j) = j by omega, mul_pow, sq ((-1 : ℝ) ^ d), hsq, one_mul]
  have := h.unique hr j hj
  rw [this, ← mul_assoc, hsq, one_mul]

/-- An order of the parity of the derivative may be raised by one. -/
theorem LeastWeights.raise {w p d : ℕ} {B : ℝ} {f : ℕ → ℝ} (hpar : p % 2 = d % 2)
    (h : LeastWeights w p (fun i => if i = d then B else 0) f) :
    LeastWeights w (p + 1) (fun i => if i = d then B else 0) f := by
  refine ⟨fun i hi => ?_, fun g hg => h.least g fun i hi => hg i (by omega)⟩
  rcases Nat.lt_or_ge i (p + 1) with hi' | hi'
  · exact h.moments i hi'
  · obtain rfl : i = p + 1 := by omega
    rw [if_neg (by omega)]
    have h1 := moment_reverse w f (p + 1)
    have h2 : moment w (fun j => f (w - 1 - j)) (p + 1) = moment w (fun j => (-1) ^ d * f j) (p + 1) :=
      Finset.sum_congr rfl fun j hj => by
        beta_reduce
        rw [h.reverse j (Finset.mem_range.mp hj)]
    rw [h2, moment_smul] at h1
    have h3 : ((-1 : ℝ)) ^ (p + 1) = -(-1) ^ d := by
      rw [pow_succ, mul_neg_one]
      congr 1
      rw [neg_one_pow_eq_pow_mod_two, hpar, ← neg_one_pow_eq_pow_mod_two]
    rw [h3] at h1
    have h4 : ((-1 : ℝ) ^ d) ≠ 0 := pow_ne_zero _ (by norm_num)
    have h5 : (-1 : ℝ) ^ d * moment w f (p + 1) = 0 := by linarith
    exact (mul_eq_zero.mp h5).resolve_left h4

/-- The computed coefficients are such weights, in every build. -/
theorem coeffs_least (c : Cfg) (solve : Solver ℝ) (hs : SolvesMinimumNorm solve) (w p : ℕ) (deriv : Option ℕ)
    (delta : Option ℝ) (fir : List ℝ) (h : savgolCoeffsDyn c solve w p deriv delta = .ok fir) :
    p < w ∧ fir.length = w ∧ ∃ B : ℝ,
      LeastWeights w p (fun i => if i = deriv.getD 0 then B else 0) (fun j => fir.getD j 0) ∧
      (deriv.getD 0 ≤ p → ∃ f, factorial c (deriv.getD 0) = .ok f ∧ B = f / delta.getD 1 ^ deriv.getD 0) ∧
      (p < deriv.getD 0 → B = 0) := by
  unfold savgolCoeffsDyn at h
  split at h
  · cases h
  rename_i hp
  dsimp only at h
  split at h
  · rename_i hd
    cases h
    refine ⟨by omega, by simp, 0, ⟨fun i hi => ?_, fun g _ => ?_⟩, fun h => by omega, fun _ => rfl⟩
    · simp [moment]
    · have e : ∑ j ∈ Finset.range w, (List.replicate w (0 : ℝ)).getD j 0 ^ 2 = 0 :=
        Finset.sum_eq_zero fun j _ => by simp
      exact e.le.trans (Finset.sum_nonneg fun j _ => sq_nonneg (g j))
  · rename_i hd
    cases hf : factorial c (deriv.getD 0) with
    | error e => rw [hf] at h; cases h
    | ok f =>
      rw [hf, ok_bind] at h
      cases h
      refine ⟨by omega, (hs.1 _ _ _ _).1, f / delta.getD 1 ^ deriv.getD 0, ⟨fun i hi => ?_, fun g hg => ?_⟩,
        fun _ => ⟨f, rfl, rfl⟩, fun h => by omega⟩
      · exact exact_of_leastSquares hs.1 w p (by omega)
          (fun i => if i = deriv.getD 0 then (f : ℝ) / delta.getD 1 ^ deriv.getD 0 else 0) i hi
      · refine hs.2 _ _ _ _ g fun c' => ?_
        have h0 : Spec.residual (p + 1) w (fun i j => pos w j ^ i)
            (fun i => if i = deriv.getD 0 then (f : ℝ) / delta.getD 1 ^ deriv.getD 0 else 0) g = 0 := by
          unfold Spec.residual
          refine Finset.sum_eq_zero fun i hi => ?_
          have := hg i (Finset.mem_range.mp hi)
          unfold moment at this
          rw [this, sub_self]
          norm_num
        exact h0.le.trans (Finset.sum_nonneg fun i _ => sq_nonneg _)

/-! ### The coefficients -/

/-- **C113** The coefficients are symmetric about the centre of the window for even derivatives and antisymmetric for
odd ones, for every window length, order and sampling interval and in every build. -/
theorem C113_symmetric (c : Cfg) (solve : Solver ℝ) (hs : SolvesMinimumNorm solve) (w p : ℕ) (deriv : Option ℕ)
    (delta : Option ℝ) (fir : List ℝ) (h : savgolCoeffsDyn c solve w p deriv delta = .ok fir) (j : ℕ) (hj : j < w) :
    fir.getD (w - 1 - j) 0 = (-1) ^ deriv.getD 0 * fir.getD j 0 := by
  obtain ⟨-, -, B, hB, -⟩ := coeffs_least c solve hs w p deriv delta fir h
  exact hB.reverse j hj

/-- **C113** Raising the order by one changes nothing when the order and the derivative are both even or both odd:
quadratic and cubic smoothing are the same. -/
theorem C113_next_order (c : Cfg) (solve : Solver ℝ) (hs : SolvesMinimumNorm solve) (w p : ℕ) (hp : p + 1 < w)
    (deriv : Option ℕ) (delta : Option ℝ) (hpar : p % 2 = deriv.getD 0 % 2) :
    savgolCoeffsDyn c solve w (p + 1) deriv delta = savgolCoeffsDyn c solve w p deriv delta := by
  have iff : deriv.getD 0 > p + 1 ↔ deriv.getD 0 > p := by omega
  cases h : savgolCoeffsDyn c solve w p deriv delta with
  | error e =>
    unfold savgolCoeffsDyn at h ⊢
    rw [if_neg (by omega)] at h ⊢
    dsimp only at h ⊢
    by_cases hd : deriv.getD 0 > p
    · rw [if_pos hd] at h
      cases h
    · rw [if_neg hd] at h
      rw [if_neg (by omega)]
      cases hf : factorial c (deriv.getD 0) with
      | error e' => rw [hf] at h; cases h; rfl
      | ok f => rw [hf, ok_bind] at h; cases h
  | ok fir =>
    cases h' : savgolCoeffsDyn c solve w (p + 1) deriv delta with
    | error e =>
      exfalso
      unfold savgolCoeffsDyn at h h'
      rw [if_neg (by omega)] at h h'
      dsimp only at h h'
      by_cases hd : deriv.getD 0 > p
      · rw [if_pos (by omega)] at h'
        cases h'
      · rw [if_neg hd] at h
        rw [if_neg (by omega)] at h'
        cases hf : factorial c (deriv.getD 0) with
        | error e' => rw [hf] at h; cases h
        | ok f => rw [hf, ok_bind] at h'; cases h'
    | ok fir' =>
      obtain ⟨-, l1, B, hB, b1, b2⟩ := coeffs_least c solve hs w p deriv delta fir h
      obtain ⟨-, l2, B', hB', b1', b2'⟩ := coeffs_least c solve hs w (p + 1) deriv delta fir' h'
      have hBB : B = B' := by
        by_cases hd : deriv.getD 0 ≤ p
        · obtain ⟨f, e1, rfl⟩ := b1 hd
          obtain ⟨f', e2, rfl⟩ := b1' (by omega)
          rw [e1] at e2
          cases e2
          rfl
        · rw [b2 (by omega), b2' (by omega)]
      subst hBB
      congr 1
      refine List.ext_getElem (l2.trans l1.symm) fun j h1 h2 => ?_
      have := hB'.unique (hB.raise hpar) j (by omega)
      rwa [List.getD_eq_getElem _ _ h1, List.getD_eq_getElem _ _ h2] at this

/-- **C113** The coefficients for the sampling interval `delta` are those for the interval 1 divided by
`delta ^ deriv`. -/
theorem C113_interval (c : Cfg) (solve : Solver ℝ) (hs : SolvesMinimumNorm solve) (w p : ℕ) (deriv : Option ℕ)
    (δ : ℝ) (fir fir1 : List ℝ) (h : savgolCoeffsDyn c solve w p deriv (some δ) = .ok fir)
    (h1 : savgolCoeffsDyn c solve w p deriv none = .ok fir1) :
    fir = fir1.map fun v => v / δ ^ deriv.getD 0 := by
  obtain ⟨-, l1, B, hB, b1, b2⟩ := coeffs_least c solve hs w p deriv _ fir h
  obtain ⟨-, l2, B', hB', b1', b2'⟩ := coeffs_least c solve hs w p deriv _ fir1 h1
  have hBB : B = (δ ^ deriv.getD 0)⁻¹ * B' := by
    by_cases hd : deriv.getD 0 ≤ p
    · obtain ⟨f, e1, rfl⟩ := b1 hd
      obtain ⟨f', e2, rfl⟩ := b1' hd
      rw [e1] at e2
      cases e2
      simp [div_eq_inv_mul]
    · rw [b2 (by omega), b2' (by omega), mul_zero]
  have hsc : LeastWeights w p (fun i => if i = deriv.getD 0 then B else 0)
      (fun j => (δ ^ deriv.getD 0)⁻¹ * fir1.getD j 0) := by
    obtain ⟨c0, hc0⟩ : ∃ c0, c0 = (δ ^ deriv.getD 0)⁻¹ := ⟨_, rfl⟩
    rw [← hc0] at hBB ⊢
    refine ⟨fun i hi => ?_, fun g hg => ?_⟩
    · rw [moment_smul w c0 (fun j => fir1.getD j 0), hB'.moments i hi]
      split <;> simp [hBB]
    · by_cases h0 : c0 = 0
      · simp only [h0, zero_mul]
        simpa using Finset.sum_nonneg fun j _ => sq_nonneg (g j)
      · have := hB'.least (fun j => c0⁻¹ * g j) fun i hi => by
          rw [moment_smul, hg i hi]
          split
          · rw [hBB, inv_mul_cancel_left₀ h0]
          · simp
        simp only [mul_pow, ← Finset.mul_sum] at this ⊢
        have hc2 : 0 < c0 ^ 2 := by positivity
        rw [inv_pow, ← div_eq_inv_mul, le_div_iff₀ hc2] at this
        linarith
  refine List.ext_getElem (by rw [List.length_map, l1, l2]) fun j a1 a2 => ?_
  have := hB.unique hsc j (by omega)
  rw [List.getElem_map]
  rw [List.getD_eq_getElem _ _ a1, List.getD_eq_getElem _ _ (by rw [l2]; omega)] at this
  rw [this, div_eq_inv_mul]

/-- **C113** Smoothing with an odd window: the coefficient at the centre is the sum of the squares of all
coefficients, the factor by which the variance of uncorrelated noise is multiplied.  It lies between `1 / w`
and 1, and grows with the order. -/
theorem C113_noise (c : Cfg) (solve : Solver ℝ) (hs : SolvesMinimumNorm solve) (h p : ℕ) (delta : Option ℝ)
    (fir : List ℝ) (hf : savgolCoeffsDyn c solve (2 * h + 1) p none delta = .ok fir) :
    fir.getD h 0 = ∑ j ∈ Finset.range (2 * h + 1), fir.getD j 0 ^ 2 ∧
      1 / (2 * h + 1 : ℝ) ≤ fir.getD h 0 ∧ fir.getD h 0 ≤ 1 ∧
      ∀ q fir', q ≤ p → savgolCoeffsDyn c solve (2 * h + 1) q none delta = .ok fir' →
        fir'.getD h 0 ≤ fir.getD h 0 := by
  have centre : ∀ (p : ℕ) (fir : List ℝ), savgolCoeffsDyn c solve (2 * h + 1) p none delta = .ok fir →
      LeastWeights (2 * h + 1) p (fun i => if i = 0 then 1 else 0) (fun j => fir.getD j 0) ∧
      fir.getD h 0 = ∑ j ∈ Finset.range (2 * h + 1), fir.getD j 0 ^ 2 := by
    intro p fir hf
    obtain ⟨-, l1, B, hB, b1, -⟩ := coeffs_least c solve hs _ p none delta fir hf
    obtain ⟨f, e1, e2⟩ := b1 (Nat.zero_le _)
    have hf1 : f = 1 := by cases e1; rfl
    have hB1 : B = 1 := by rw [e2, hf1]; simp
    subst hB1
    refine ⟨hB, ?_⟩
    have hu : ∀ i, i < p + 1 → moment (2 * h + 1) (fun j => (if j = h then 1 else 0) + -1 * fir.getD j 0) i = 0 := by
      intro i hi
      rw [moment_add, moment_smul, hB.moments i hi]
      have : moment (2 * h + 1) (fun j => if j = h then (1 : ℝ) else 0) i = if i = 0 then 1 else 0 := by
        unfold moment
        rw [Finset.sum_eq_single h]
        · beta_reduce
          rw [if_pos rfl, pos_odd, sub_self, mul_one]
          by_cases h0 : i = 0
          · simp [h0]
          · rw [zero_pow h0, if_neg h0]
        · intro j _ hj
          beta_reduce
          rw [if_neg hj, mul_zero]
        · intro hh
          exact absurd (Finset.mem_range.mpr (by omega)) hh
      rw [this, Option.getD_none]
      ring
    have ho := hB.orthogonal _ hu
    have e : ∑ j ∈ Finset.range (2 * h + 1), fir.getD j 0 * ((if j = h then 1 else 0) + -1 * fir.getD j 0) =
        fir.getD h 0 - ∑ j ∈ Finset.range (2 * h + 1), fir.getD j 0 ^ 2 := by
      simp only [mul_add, Finset.sum_add_distrib]
      rw [Finset.sum_eq_single h (fun j _ hj => by rw [if_neg hj, mul_zero])
        (fun hh => absurd (Finset.mem_range.mpr (by omega)) hh), if_pos rfl, mul_one, sub_eq_add_neg,
        ← Finset.sum_neg_distrib]
      congr 1
      exact Finset.sum_congr rfl fun j _ => by ring
    rw [e] at ho
    linarith
  obtain ⟨hL, hc⟩ := centre p fir hf
  refine ⟨hc, ?_, ?_, fun q fir' hq hf' => ?_⟩
  · have h1 := hL.moments 0 (by omega)
    simp only [moment, pow_zero, one_mul, if_true] at h1
    have h2 := sq_sum_le_card_mul_sum_sq (s := Finset.range (2 * h + 1)) (f := fun j => fir.getD j 0)
    rw [h1, Finset.card_range] at h2
    rw [hc, div_le_iff₀ (by positivity)]
    push_cast at h2
    linarith
  · have h1 : fir.getD h 0 ^ 2 ≤ fir.getD h 0 := by
      conv_rhs => rw [hc]
      exact Finset.single_le_sum (f := fun j => fir.getD j 0 ^ 2) (fun j _ => sq_nonneg _)
        (Finset.mem_range.mpr (by omega))
    nlinarith
  · obtain ⟨hL', hc'⟩ := centre q fir' hf'
    rw [hc, hc']
    exact hL'.least _ fun i hi => hL.moments i (by omega)

/-- **C113** Smoothing of order 0 or 1 is the moving average. -/
theorem C113_moving_average (c : Cfg) (solve : Solver ℝ) (hs : SolvesMinimumNorm solve) (w p : ℕ) (hp1 : p ≤ 1)
    (delta : Option ℝ) (fir : List ℝ) (hf : savgolCoeffsDyn c solve w p none delta = .ok fir) :
    fir = List.replicate w (1 / (w : ℝ)) := by
  obtain ⟨hp, l1, B, hB, b1, -⟩ := coeffs_least c solve hs _ p none delta fir hf
  obtain ⟨f, e1, e2⟩ := b1 (Nat.zero_le _)
  have hf1 : f = 1 := by cases e1; rfl
  have hB1 : B = 1 := by rw [e2, hf1]; simp
  subst hB1
  rw [Option.getD_none] at hB
  have hw : (0 : ℝ) < w := by exact_mod_cast (by omega : 0 < w)
  have h0 : LeastWeights w 0 (fun i => if i = 0 then 1 else 0) (fun _ => 1 / (w : ℝ)) := by
    refine ⟨fun i hi => ?_, fun g hg => ?_⟩
    · obtain rfl : i = 0 := by omega
      simp only [moment, pow_zero, one_mul, Finset.sum_const, Finset.card_range, nsmul_eq_mul, if_true]
      field_simp
    · have h1 := hg 0 (by omega)
      simp only [moment, pow_zero, one_mul, if_true] at h1
      have h2 := sq_sum_le_card_mul_sum_sq (s := Finset.range w) (f := g)
      rw [h1, Finset.card_range] at h2
      rw [Finset.sum_const, Finset.card_range, nsmul_eq_mul]
      have : (w : ℝ) * (1 / w) ^ 2 = 1 / w := by field_simp
      rw [this, div_le_iff₀ hw]
      linarith
  have hL : LeastWeights w p (fun i => if i = 0 then 1 else 0) (fun _ => 1 / (w : ℝ)) := by
    rcases (by omega : p = 0 ∨ p = 1) with rfl | rfl
    · exact h0
    · exact h0.raise rfl
  refine List.ext_getElem (by simp [l1]) fun j a1 a2 => ?_
  have := hB.unique hL j (by omega)
  rw [List.getD_eq_getElem _ _ a1] at this
  rw [this, List.getElem_replicate]

/-- **C113** Smoothing with as many coefficients of the polynomial as samples in an odd window returns the sample
at the centre. -/
theorem C113_interpolation (c : Cfg) (solve : Solver ℝ) (hs : SolvesMinimumNorm solve) (h : ℕ) (delta : Option ℝ)
    (fir : List ℝ) (hf : savgolCoeffsDyn c solve (2 * h + 1) (2 * h) none delta = .ok fir) :
    fir = List.replicate h 0 ++ 1 :: List.replicate h 0 := by
  obtain ⟨hp, l1, B, hB, b1, -⟩ := coeffs_least c solve hs _ _ none delta fir hf
  obtain ⟨f, e1, e2⟩ := b1 (Nat.zero_le _)
  have hf1 : f = 1 := by cases e1; rfl
  have hB1 : B = 1 := by rw [e2, hf1]; simp
  subst hB1
  have key : ∀ j, j < 2 * h + 1 → fir.getD j 0 = if j = h then 1 else 0 := by
    intro j hj
    have hinj : Set.InjOn (fun k => (pos (2 * h + 1) k : ℝ)) (Finset.range (2 * h + 1)) := by
      intro a ha b hb hab
      simp only [pos_odd] at hab
      have : (a : ℝ) = b := by linarith
      exact_mod_cast this
    have hd := Lagrange.degree_basis hinj (Finset.mem_range.mpr hj)
    have h1 := sum_eval_of_exact (2 * h + 1) (2 * h) (fun j => fir.getD j 0) _ hB.moments
      (Lagrange.basis (Finset.range (2 * h + 1)) (fun k => (pos (2 * h + 1) k : ℝ)) j) (by
        rw [Finset.card_range] at hd
        exact Polynomial.natDegree_le_of_degree_le (by rw [hd]; norm_num))
    rw [Finset.sum_eq_single j, Lagrange.eval_basis_self hinj (Finset.mem_range.mpr hj), mul_one] at h1
    rotate_left
    · intro k hk hkj
      rw [Lagrange.eval_basis_of_ne (Ne.symm hkj) hk, mul_zero]
    · intro hn
      exact absurd (Finset.mem_range.mpr hj) hn
    rw [h1, Finset.sum_eq_single_of_mem 0 (Finset.mem_range.mpr (Nat.succ_pos _)) (fun k _ hk => by simp [hk]),
      Option.getD_none, if_pos rfl, mul_one, Polynomial.coeff_zero_eq_eval_zero]
    have h0 : (0 : ℝ) = pos (2 * h + 1) h := by rw [pos_odd, sub_self]
    by_cases hjh : j = h
    · subst hjh
      rw [if_pos rfl, h0]
      exact Lagrange.eval_basis_self hinj (Finset.mem_range.mpr hj)
    · rw [if_neg hjh]
      conv_lhs => rw [h0]
      exact Lagrange.eval_basis_of_ne (v := fun k => (pos (2 * h + 1) k : ℝ)) hjh
        (Finset.mem_range.mpr (by omega : h < 2 * h + 1))
  refine List.ext_getElem (by simp [l1]; omega) fun j a1 a2 => ?_
  have := key j (by omega)
  rw [List.getD_eq_getElem _ _ a1] at this
  rw [this, List.getElem_append]
  by_cases h1 : j < h
  · rw [if_neg (by omega), dif_pos (by simpa using h1), List.getElem_replicate]
  · rw [dif_neg (by simpa using h1), List.getElem_cons]
    by_cases h2 : j = h
    · simp [h2]
    · rw [if_neg h2, dif_neg (by simp; omega), List.getElem_replicate]

/-! ### The filter -/

/-- Every output of the filter is a weighted sum over the extended signal, in every build. -/
theorem filter_sum (c : Cfg) (solve : Solver ℝ) (hs : SolvesMinimumNorm solve) (y : List ℝ) (w p : ℕ)
    (deriv : Option ℕ) (delta : Option ℝ) (out : List ℝ) (ho : savgolFilterDyn c solve y w p deriv delta = .ok out) :
    ∃ h fir, w = 2 * h + 1 ∧ savgolCoeffsDyn c solve w p deriv delta = .ok fir ∧ fir.length = w ∧
      out.length = y.length ∧
      (∀ i, i < y.length → out.getD i 0 =
        ∑ j ∈ Finset.range (2 * h + 1), fir.getD j 0 * extendNearest y ((i : ℤ) + h - j)) ∧
      ∀ y' : List ℝ, ∃ out', savgolFilterDyn c solve y' w p deriv delta = .ok out' ∧ out'.length = y'.length ∧
        ∀ i, i < y'.length → out'.getD i 0 =
          ∑ j ∈ Finset.range (2 * h + 1), fir.getD j 0 * extendNearest y' ((i : ℤ) + h - j) := by
  have hodd : ¬ w % 2 = 0 := by
    intro h1
    simp [savgolFilterDyn, h1] at ho
  cases ha : c.usizeAdd p 2 with
  | error e => unfold savgolFilterDyn at ho; rw [if_neg hodd, ha, error_bind] at ho; cases ho
  | ok s =>
    by_cases hlt : w < s
    · unfold savgolFilterDyn at ho
      rw [if_neg hodd, ha, ok_bind, if_pos hlt] at ho
      cases ho
    cases hc : savgolCoeffsDyn c solve w p deriv delta with
    | error e =>
      unfold savgolFilterDyn at ho
      rw [if_neg hodd, ha, ok_bind, if_neg hlt, hc, error_bind] at ho
      cases ho
    | ok fir =>
      obtain ⟨h, rfl⟩ : ∃ k, w = 2 * k + 1 := ⟨w / 2, by omega⟩
      have hlen := (coeffs_least c solve hs _ p deriv delta fir hc).2.1
      have all : ∀ y' : List ℝ, ∃ out', savgolFilterDyn c solve y' (2 * h + 1) p deriv delta = .ok out' ∧
          out'.length = y'.length ∧ ∀ i, i < y'.length → out'.getD i 0 =
          ∑ j ∈ Finset.range (2 * h + 1), fir.getD j 0 * extendNearest y' ((i : ℤ) + h - j) := by
        intro y'
        unfold savgolFilterDyn
        rw [if_neg hodd, ha, ok_bind, if_neg hlt, hc, ok_bind]
        cases y' with
        | nil => exact ⟨[], rfl, rfl, by simp⟩
        | cons y0 ys => exact ⟨_, rfl, windows_dot h y0 ys fir hlen⟩
      obtain ⟨out', e1, e2, e3⟩ := all y
      rw [ho] at e1
      cases e1
      exact ⟨h, fir, rfl, rfl, hlen, e2, e3, all⟩

theorem extendNearest_reverse (y : List ℝ) (k : ℤ) :
    extendNearest y.reverse k = extendNearest y (y.length - 1 - k) := by
  cases y with
  | nil => simp [extendNearest]
  | cons y0 ys =>
    have hl : (0 : ℤ) < ((y0 :: ys).length : ℤ) := by simp
    obtain ⟨l, hle⟩ : ∃ l, l = y0 :: ys := ⟨_, rfl⟩
    rw [← hle] at hl ⊢
    have hh : l.headD 0 = l.getD 0 0 := by rw [hle]; rfl
    have hlast : l.getLastD 0 = l.getD (l.length - 1) 0 := by
      rw [List.getLastD_eq_getLast?, List.getLast?_eq_getElem?, List.getD_eq_getElem?_getD]
    have hrev : ∀ i, i < l.length → l.reverse.getD i 0 = l.getD (l.length - 1 - i) 0 := fun i hi => by
      rw [List.getD_eq_getElem _ _ (by simpa using hi), List.getD_eq_getElem _ _ (by omega), List.getElem_reverse]
    have hrh : l.reverse.headD 0 = l.getLastD 0 := by simp [List.headD_eq_head?_getD, List.getLastD_eq_getLast?]
    have hrl : l.reverse.getLastD 0 = l.headD 0 := by simp [List.headD_eq_head?_getD, List.getLastD_eq_getLast?]
    unfold extendNearest
    rw [List.length_reverse, hrh, hrl]
    by_cases h1 : k < 0
    · rw [if_pos h1, if_neg (by omega), if_neg (by omega)]
    · rw [if_neg h1]
      by_cases h2 : k < l.length
      · rw [if_pos h2, if_neg (by omega), if_pos (by omega), hrev _ (by omega)]
        congr 1
        omega
      · rw [if_neg h2, if_pos (by omega)]

/-- **C113** Reversing the signal reverses the output, with a change of sign for odd derivatives. -/
theorem C113_reverse (c : Cfg) (solve : Solver ℝ) (hs : SolvesMinimumNorm solve) (y : List ℝ) (w p : ℕ)
    (deriv : Option ℕ) (delta : Option ℝ) (out : List ℝ) (ho : savgolFilterDyn c solve y w p deriv delta = .ok out) :
    savgolFilterDyn c solve y.reverse w p deriv delta =
      .ok (out.reverse.map fun v => (-1) ^ deriv.getD 0 * v) := by
  obtain ⟨h, fir, rfl, hc, hl, hol, hv, hall⟩ := filter_sum c solve hs y w p deriv delta out ho
  obtain ⟨out', ho', hol', hv'⟩ := hall y.reverse
  rw [ho']
  congr 1
  rw [List.length_reverse] at hol' hv'
  refine List.ext_getElem (by simp [hol, hol']) fun i a1 a2 => ?_
  have e := hv' i (by omega)
  rw [List.getD_eq_getElem _ _ a1] at e
  have e' := hv (y.length - 1 - i) (by omega)
  rw [List.getD_eq_getElem _ _ (by omega)] at e'
  rw [e, List.getElem_map, List.getElem_reverse]
  simp only [hol]
  rw [e', Finset.mul_sum, ← Finset.sum_range_reflect]
  refine Finset.sum_congr rfl fun j hj => ?_
  have hj := Finset.mem_range.mp hj
  rw [C113_symmetric c solve hs _ p deriv delta fir hc j hj, extendNearest_reverse, mul_assoc]
  congr 3
  omega

/-- **C113** The filter is linear. -/
theorem C113_linear (c : Cfg) (solve : Solver ℝ) (hs : SolvesMinimumNorm solve) (x y : List ℝ)
    (hxy : x.length = y.length) (a b : ℝ) (w p : ℕ) (deriv : Option ℕ) (delta : Option ℝ) (ox oy : List ℝ)
    (hx : savgolFilterDyn c solve x w p deriv delta = .ok ox)
    (hy : savgolFilterDyn c solve y w p deriv delta = .ok oy) :
    savgolFilterDyn c solve (List.zipWith (fun u v => a * u + b * v) x y) w p deriv delta =
      .ok (List.zipWith (fun u v => a * u + b * v) ox oy) := by
  obtain ⟨h, fir, rfl, hc, hl, hol, hv, hall⟩ := filter_sum c solve hs x w p deriv delta ox hx
  obtain ⟨oy', ey, hly, hvy⟩ := hall y
  rw [hy] at ey
  cases ey
  obtain ⟨out', ho', hol', hv'⟩ := hall (List.zipWith (fun u v => a * u + b * v) x y)
  rw [ho']
  congr 1
  have hz : (List.zipWith (fun u v => a * u + b * v) x y).length = x.length := by simp [hxy]
  rw [hz] at hol' hv'
  refine List.ext_getElem (by simp [hol, hol', hly, hxy]) fun i a1 a2 => ?_
  have e := hv' i (by omega)
  rw [List.getD_eq_getElem _ _ a1] at e
  have e1 := hv i (by omega)
  rw [List.getD_eq_getElem _ _ (by omega)] at e1
  have e2 := hvy i (by omega)
  rw [List.getD_eq_getElem _ _ (by omega)] at e2
  rw [e, List.getElem_zipWith, e1, e2, Finset.mul_sum, Finset.mul_sum, ← Finset.sum_add_distrib]
  refine Finset.sum_congr rfl fun j _ => ?_
  have hn : ∀ k, extendNearest (List.zipWith (fun u v => a * u + b * v) x y) k =
      a * extendNearest x k + b * extendNearest y k := by
    intro k
    have hg : ∀ i, (List.zipWith (fun u v => a * u + b * v) x y).getD i 0 = a * x.getD i 0 + b * y.getD i 0 := by
      intro i
      by_cases hi : i < x.length
      · rw [List.getD_eq_getElem _ _ (by omega), List.getD_eq_getElem _ _ hi, List.getD_eq_getElem _ _ (by omega),
          List.getElem_zipWith]
      · rw [List.getD_eq_default _ _ (by omega), List.getD_eq_default _ _ (by omega),
          List.getD_eq_default _ _ (by omega)]
        ring
    have hh : ∀ l : List ℝ, l.headD 0 = l.getD 0 0 := fun l => by cases l <;> rfl
    have hlast : ∀ l : List ℝ, l.getLastD 0 = l.getD (l.length - 1) 0 := fun l => by
      rw [List.getLastD_eq_getLast?, List.getLast?_eq_getElem?, List.getD_eq_getElem?_getD]
    unfold extendNearest
    simp only [hh, hlast, hg, hz, hxy]
    split
    · rfl
    · split <;> rfl
  rw [hn]
  ring

/-- **C113** Smoothing of order 0 or 1 returns the mean of the samples in the window, the ends being repeated. -/
theorem C113_mean_of_window (c : Cfg) (solve : Solver ℝ) (hs : SolvesMinimumNorm solve) (y : List ℝ) (h p : ℕ)
    (hp1 : p ≤ 1) (delta : Option ℝ) (out : List ℝ)
    (ho : savgolFilterDyn c solve y (2 * h + 1) p none delta = .ok out) (i : ℕ) (hi : i < y.length) :
    out.getD i 0 = (∑ j ∈ Finset.range (2 * h + 1), extendNearest y ((i : ℤ) - h + j)) / (2 * h + 1) := by
  obtain ⟨h', fir, e, hc, hl, hol, hv, -⟩ := filter_sum c solve hs y _ p none delta out ho
  obtain rfl : h' = h := by omega
  rw [hv i hi, C113_moving_average c solve hs _ p hp1 delta fir hc, Finset.sum_div, ← Finset.sum_range_reflect]
  refine Finset.sum_congr rfl fun j hj => ?_
  have hj := Finset.mem_range.mp hj
  rw [List.getD_eq_getElem _ _ (by rw [List.length_replicate]; omega), List.getElem_replicate, one_div_mul_eq_div,
    show (i : ℤ) + h' - ((2 * h' + 1 - 1 - j : ℕ) : ℤ) = i - h' + j by omega]
  push_cast
  rfl

/-- The second derivative with seven samples and order three: symmetric coefficients, those of order two. -/
example (solve : Solver ℝ) (hs : SolvesMinimumNorm solve) :
    ∃ fir, savgolCoeffsDyn ⟨64, true, by norm_num⟩ solve 7 3 (some 2) (some 0.5) = .ok fir ∧
      fir.getD 6 0 = fir.getD 0 0 ∧
      savgolCoeffsDyn ⟨64, true, by norm_num⟩ solve 7 2 (some 2) (some 0.5) = .ok fir := by
  have h := savgol_coeffs_ok ⟨64, true, by norm_num⟩ solve 7 3 (by norm_num) (some 2) (some 0.5)
    (by intro _; simp [Cfg.usizeMax, Nat.factorial])
  obtain ⟨fir, hfir⟩ : ∃ fir, savgolCoeffsDyn ⟨64, true, by norm_num⟩ solve 7 3 (some 2) (some 0.5) = .ok fir := ⟨_, h⟩
  refine ⟨fir, hfir, ?_, ?_⟩
  · have := C113_symmetric _ solve hs _ _ _ _ _ hfir 0 (by norm_num)
    simpa using this
  · rw [← C113_next_order _ solve hs 7 2 (by norm_num) (some 2) (some 0.5) rfl]
    exact hfir

/-- A moving average of three samples. -/
example (solve : Solver ℝ) (hs : SolvesMinimumNorm solve) :
    ∃ out, savgolFilterDyn ⟨64, true, by norm_num⟩ solve [3, 6, 0] 3 1 none none = .ok out ∧
      out.getD 0 0 = 4 ∧ out.getD 1 0 = 3 ∧ out.getD 2 0 = 2 := by
  obtain ⟨-, out, -, ho, -⟩ := savgol_output ⟨64, true, by norm_num⟩ solve hs.1 [3, 6, 0] 1 1 (by norm_num)
    (by simp [Cfg.usizeMax]) none none (by intro _; simp [Cfg.usizeMax])
  refine ⟨out, ho, ?_, ?_, ?_⟩
  all_goals
    rw [C113_mean_of_window _ solve hs _ 1 1 le_rfl none out ho _ (by simp)]
    simp only [Finset.sum_range_succ, Finset.sum_range_zero, extendNearest]
    norm_num [show Int.toNat 2 = 2 from rfl]

end SciRs.Props

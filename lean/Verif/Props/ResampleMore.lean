import Verif.Props.Resample
import Mathlib.Algebra.BigOperators.Field

/-! # C79: `resample` interpolates, is linear, and what a round trip loses -/

namespace SciRs.Props

open SciRs SciRs.Spec SciRs.Signal Complex

theorem root_mul_pow (c L : ℕ) (hc : c ≠ 0) : root (c * L) ^ c = root L := by
  unfold root
  rw [← Complex.exp_nat_mul]
  congr 1
  have : (c : ℂ) ≠ 0 := by exact_mod_cast hc
  push_cast
  by_cases hL : (L : ℂ) = 0
  · rw [hL]; simp
  · field_simp

/-- The two halves of the new spectrum, summed. -/
theorem newSpectrum_sum (x : List ℝ) (n : ℕ) (f : ℕ → ℂ) :
    ∑ k ∈ Finset.range n, newSpectrum x n k * f k =
      (∑ k ∈ Finset.range (min x.length n / 2), spectrum x k * f k) +
      ∑ j ∈ Finset.range (min x.length n / 2),
        spectrum x (x.length - min x.length n / 2 + j) * f (n - min x.length n / 2 + j) := by
  obtain ⟨h, hh⟩ : ∃ h, h = min x.length n / 2 := ⟨_, rfl⟩
  have h2 : h + h ≤ n := by omega
  have e0 : n = h + ((n - 2 * h) + h) := by omega
  have hr : Finset.range n = Finset.range (h + ((n - 2 * h) + h)) := by rw [← e0]
  rw [hr, Finset.sum_range_add, Finset.sum_range_add]
  have a1 : ∀ k ∈ Finset.range h, newSpectrum x n k * f k = spectrum x k * f k := by
    intro k hk
    have hk := Finset.mem_range.mp hk
    unfold newSpectrum
    rw [← hh]
    simp [hk]
  have a2 : ∀ k ∈ Finset.range (n - 2 * h), newSpectrum x n (h + k) * f (h + k) = 0 := by
    intro k hk
    have hk := Finset.mem_range.mp hk
    unfold newSpectrum
    rw [← hh]
    dsimp only
    rw [if_neg (by omega), if_neg (by omega), zero_mul]
  have a3 : ∀ k ∈ Finset.range h, newSpectrum x n (h + ((n - 2 * h) + k)) * f (h + ((n - 2 * h) + k)) =
      spectrum x (x.length - h + k) * f (n - h + k) := by
    intro k hk
    have hk := Finset.mem_range.mp hk
    unfold newSpectrum
    rw [← hh]
    dsimp only
    rw [if_neg (by omega), if_pos (by omega)]
    congr 2 <;> omega
  rw [Finset.sum_congr rfl a1, Finset.sum_congr rfl a2, Finset.sum_congr rfl a3, Finset.sum_const_zero, zero_add,
    ← hh]

/-- **C79** Upsampling a signal of even length by an integer factor keeps the samples. -/
theorem C79_interpolates (x : List ℝ) (h : x.length % 2 = 0) (c : ℕ) (hc : c ≠ 0) :
    ∃ y, resample x (c * x.length) = .ok y ∧ y.length = c * x.length ∧
      ∀ m < x.length, y.getD (c * m) 0 = x.getD m 0 := by
  refine ⟨_, resample_eq x _, by simp, fun m hm => ?_⟩
  have hN : x.length ≠ 0 := by omega
  have hx : (x.length : ℝ) ≠ 0 := by exact_mod_cast hN
  have hle : x.length ≤ c * x.length := Nat.le_mul_of_pos_left _ (Nat.pos_of_ne_zero hc)
  rw [getD_map_range _ _ _ _ (Nat.mul_lt_mul_of_pos_left hm (Nat.pos_of_ne_zero hc)),
    newSpectrum_sum x _ (fun k => root (c * x.length) ^ (k * (c * m)))]
  have hp : ∀ k, root (c * x.length) ^ (k * (c * m)) = root x.length ^ (k * m) := by
    intro k
    rw [show k * (c * m) = c * (k * m) by ring, pow_mul, root_mul_pow c _ hc]
  have hmin : min x.length (c * x.length) / 2 = x.length / 2 := by rw [min_eq_left hle]
  have hs := spectrum_inverse x m hm
  have e0 : x.length = x.length / 2 + x.length / 2 := by omega
  rw [show Finset.range x.length = Finset.range (x.length / 2 + x.length / 2) by rw [← e0], Finset.sum_range_add] at hs
  have e2 : ∀ j ∈ Finset.range (x.length / 2),
      spectrum x (x.length - x.length / 2 + j) * root (c * x.length) ^ ((c * x.length - x.length / 2 + j) * (c * m)) =
      spectrum x (x.length / 2 + j) * root x.length ^ ((x.length / 2 + j) * m) := by
    intro j _
    rw [hp, show x.length - x.length / 2 + j = x.length / 2 + j by omega]
    congr 1
    obtain ⟨d, rfl⟩ : ∃ d, c = d + 1 := ⟨c - 1, by omega⟩
    have : (d + 1) * x.length - x.length / 2 + j = x.length * d + (x.length / 2 + j) := by
      rw [Nat.add_mul, one_mul, Nat.mul_comm d]; omega
    rw [this, add_mul, pow_add, mul_assoc, pow_mul, (root_primitive hN).pow_eq_one, one_pow, one_mul]
  rw [hmin, Finset.sum_congr rfl e2]
  simp only [hp]
  rw [hs, show ((x.length : ℂ) * ((x.getD m 0 : ℝ) : ℂ)) = (((x.length : ℝ) * x.getD m 0 : ℝ) : ℂ) by push_cast; rfl,
    ofReal_re]
  field_simp

theorem spectrum_comb (a b : ℝ) (x y : List ℝ) (h : x.length = y.length) (p : ℕ) :
    spectrum (List.zipWith (fun u v => a * u + b * v) x y) p = a * spectrum x p + b * spectrum y p := by
  have hl : (List.zipWith (fun u v => a * u + b * v) x y).length = x.length := by simp [h]
  unfold spectrum
  rw [hl, ← h, Finset.mul_sum, Finset.mul_sum, ← Finset.sum_add_distrib]
  refine Finset.sum_congr rfl fun j hj => ?_
  have hj := Finset.mem_range.mp hj
  rw [List.getD_eq_getElem _ _ (by rw [hl]; exact hj), List.getD_eq_getElem _ _ hj,
    List.getD_eq_getElem _ _ (by omega), List.getElem_zipWith]
  push_cast
  ring

/-- **C79** Resampling is linear. -/
theorem C79_linear (a b : ℝ) (x y : List ℝ) (h : x.length = y.length) (n : ℕ) :
    ∃ X Y, resample x n = .ok X ∧ resample y n = .ok Y ∧
      resample (List.zipWith (fun u v => a * u + b * v) x y) n =
        .ok (List.zipWith (fun u v => a * u + b * v) X Y) := by
  refine ⟨_, _, resample_eq x n, resample_eq y n, ?_⟩
  rw [resample_eq]
  congr 1
  have hl : (List.zipWith (fun u v => a * u + b * v) x y).length = x.length := by simp [h]
  refine List.ext_getElem (by simp) fun m hm1 hm2 => ?_
  simp only [List.getElem_map, List.getElem_range, List.getElem_zipWith]
  rw [newSpectrum_sum _ _ (fun k => root n ^ (k * m)), newSpectrum_sum x _ (fun k => root n ^ (k * m)),
    newSpectrum_sum y _ (fun k => root n ^ (k * m)), hl, ← h]
  simp only [spectrum_comb a b x y h]
  rw [← mul_assoc, ← mul_assoc, ← add_mul]
  congr 1
  rw [← Complex.re_ofReal_mul, ← Complex.re_ofReal_mul, ← Complex.add_re]
  congr 1
  simp only [Finset.mul_sum, mul_add, add_mul, Finset.sum_add_distrib]
  simp only [mul_assoc]
  ring

theorem conj_root (N : ℕ) : (starRingEnd ℂ) (root N) = (root N)⁻¹ := by
  unfold root
  rw [← Complex.exp_conj, ← Complex.exp_neg]
  congr 1
  have h2 : (starRingEnd ℂ) 2 = 2 := Complex.conj_ofNat 2
  simp [neg_div, h2]

/-- The spectrum of a real signal is conjugate symmetric. -/
theorem spectrum_conj (x : List ℝ) (k : ℕ) (hk : k < x.length) :
    (starRingEnd ℂ) (spectrum x k) = spectrum x ((x.length - k) % x.length) := by
  have hN : x.length ≠ 0 := by omega
  unfold spectrum
  rw [map_sum]
  refine Finset.sum_congr rfl fun j _ => ?_
  rw [map_mul, map_pow, map_inv₀, conj_root, Complex.conj_ofReal, inv_inv]
  congr 1
  by_cases h0 : k = 0
  · subst h0; simp
  · rw [Nat.mod_eq_of_lt (by omega), mul_comm j, mul_comm j, pow_mul, pow_mul]
    congr 1
    have : root x.length ^ k * root x.length ^ (x.length - k) = 1 := by
      rw [← pow_add, Nat.add_sub_cancel' hk.le, (root_primitive hN).pow_eq_one]
    rw [inv_pow]
    exact eq_inv_of_mul_eq_one_left this

/-- The spectrum of the real part of an inverse transform. -/
theorem spectrum_real_part (n : ℕ) (hn : n ≠ 0) (N : ℕ → ℂ) (s : ℝ) (p : ℕ) (hp : p < n) :
    spectrum ((List.range n).map fun m => (∑ k ∈ Finset.range n, N k * root n ^ (k * m)).re * s) p =
      n * s / 2 * (N p + (starRingEnd ℂ) (N ((n - p) % n))) := by
  have hl : ((List.range n).map fun m => (∑ k ∈ Finset.range n, N k * root n ^ (k * m)).re * s).length = n := by simp
  unfold spectrum
  rw [hl]
  have e1 : ∀ m ∈ Finset.range n,
      (((((List.range n).map fun m => (∑ k ∈ Finset.range n, N k * root n ^ (k * m)).re * s).getD m 0 : ℝ) : ℂ) *
        (root n)⁻¹ ^ (m * p)) =
      ∑ k ∈ Finset.range n, (s / 2 * N k * ((root n)⁻¹ ^ p * root n ^ k) ^ m +
        s / 2 * (starRingEnd ℂ) (N k) * ((root n)⁻¹ ^ (k + p)) ^ m) := by
    intro m hm
    rw [getD_map_range _ _ _ _ (Finset.mem_range.mp hm)]
    rw [Complex.ofReal_mul, Complex.re_eq_add_conj, map_sum, ← Finset.sum_add_distrib, Finset.sum_div,
      Finset.sum_mul, Finset.sum_mul]
    refine Finset.sum_congr rfl fun k _ => ?_
    rw [map_mul, map_pow, conj_root, mul_pow, ← pow_mul, ← pow_mul, ← pow_mul, mul_comm m p, add_mul, pow_add]
    ring
  rw [Finset.sum_congr rfl e1, Finset.sum_comm]
  have e2 : ∀ k ∈ Finset.range n,
      ∑ m ∈ Finset.range n, (s / 2 * N k * ((root n)⁻¹ ^ p * root n ^ k) ^ m +
        s / 2 * (starRingEnd ℂ) (N k) * ((root n)⁻¹ ^ (k + p)) ^ m) =
      (if p = k then s / 2 * N k * n else 0) +
        (if (n - p) % n = k then s / 2 * (starRingEnd ℂ) (N k) * n else 0) := by
    intro k hk
    have hk := Finset.mem_range.mp hk
    rw [Finset.sum_add_distrib, ← Finset.mul_sum, ← Finset.mul_sum, orth hn hp hk, orth_neg hn (by omega)]
    congr 1
    · split_ifs <;> simp
    · have : (k + p = 0 ∨ k + p = n) ↔ (n - p) % n = k := by
        by_cases h0 : p = 0
        · subst h0
          rw [Nat.sub_zero, Nat.mod_self]; omega
        · rw [Nat.mod_eq_of_lt (by omega)]; omega
      simp only [this]
      split_ifs <;> simp
  rw [Finset.sum_congr rfl e2, Finset.sum_add_distrib, Finset.sum_ite_eq, Finset.sum_ite_eq,
    if_pos (Finset.mem_range.mpr hp), if_pos (Finset.mem_range.mpr (Nat.mod_lt _ (Nat.pos_of_ne_zero hn)))]
  ring

theorem spectrum_nyquist (x : List ℝ) (h : x.length % 2 = 0) :
    spectrum x (x.length / 2) = ((∑ j ∈ Finset.range x.length, (-1) ^ j * x.getD j 0 : ℝ) : ℂ) := by
  by_cases hN : x.length = 0
  · unfold spectrum; rw [hN]; simp
  have hr : (root x.length)⁻¹ ^ (x.length / 2) = -1 := by
    have h1 : (root x.length) ^ (x.length / 2) = -1 := by
      unfold root
      rw [← Complex.exp_nat_mul]
      have : ((x.length / 2 : ℕ) : ℂ) * (2 * Real.pi * I / x.length) = Real.pi * I := by
        have e : (x.length : ℂ) = 2 * ((x.length / 2 : ℕ) : ℂ) := by
          have : x.length = 2 * (x.length / 2) := by omega
          exact_mod_cast this
        have hne : ((x.length / 2 : ℕ) : ℂ) ≠ 0 := by
          have : x.length / 2 ≠ 0 := by omega
          exact_mod_cast this
        rw [e]
        field_simp
      rw [this, Complex.exp_pi_mul_I]
    rw [inv_pow, h1]
    norm_num
  unfold spectrum
  push_cast
  refine Finset.sum_congr rfl fun j _ => ?_
  rw [mul_comm j, pow_mul, hr]
  ring

theorem root_nyquist (L m : ℕ) (h : L % 2 = 0) (hL : L ≠ 0) : root L ^ (L / 2 * m) = (((-1) ^ m : ℝ) : ℂ) := by
  have h1 : (root L) ^ (L / 2) = -1 := by
    unfold root
    rw [← Complex.exp_nat_mul]
    have : ((L / 2 : ℕ) : ℂ) * (2 * Real.pi * I / L) = Real.pi * I := by
      have e : (L : ℂ) = 2 * ((L / 2 : ℕ) : ℂ) := by
        have : L = 2 * (L / 2) := by omega
        exact_mod_cast this
      have hne : ((L / 2 : ℕ) : ℂ) ≠ 0 := by
        have : L / 2 ≠ 0 := by omega
        exact_mod_cast this
      rw [e]
      field_simp
    rw [this, Complex.exp_pi_mul_I]
  rw [pow_mul, h1]
  push_cast
  rfl

/-- **C79, what a round trip loses.** Resampling a signal of even length `L` to a larger length and back halves
its alternating component: sample `m` changes by `(-1)^m / (2L) · ∑ (-1)^j x_j`. -/
theorem C79_roundtrip_loss (x : List ℝ) (h : x.length % 2 = 0) (n : ℕ) (hn : x.length < n) :
    ∃ z y, resample x n = .ok z ∧ resample z x.length = .ok y ∧ y.length = x.length ∧
      ∀ m < x.length, y.getD m 0 =
        x.getD m 0 - (-1) ^ m * (∑ j ∈ Finset.range x.length, (-1) ^ j * x.getD j 0) / (2 * x.length) := by
  obtain ⟨L, hL⟩ : ∃ L, L = x.length := ⟨_, rfl⟩
  obtain ⟨z, hz⟩ : ∃ z, z = (List.range n).map (fun m =>
      (∑ k ∈ Finset.range n, newSpectrum x n k * root n ^ (k * m)).re * (1 / (x.length : ℝ))) := ⟨_, rfl⟩
  have hzl : z.length = n := by rw [hz]; simp
  refine ⟨z, _, by rw [hz]; exact resample_eq x n, resample_eq z x.length, by simp, fun m hm => ?_⟩
  have hN : x.length ≠ 0 := by omega
  have hn0 : n ≠ 0 := by omega
  have hLr : (x.length : ℝ) ≠ 0 := by exact_mod_cast hN
  have hLc : (x.length : ℂ) ≠ 0 := by exact_mod_cast hN
  have hnr : (n : ℝ) ≠ 0 := by exact_mod_cast hn0
  have hnc : (n : ℂ) ≠ 0 := by exact_mod_cast hn0
  have hsp : ∀ p < n, spectrum z p = (n : ℂ) / x.length / 2 *
      (newSpectrum x n p + (starRingEnd ℂ) (newSpectrum x n ((n - p) % n))) := by
    intro p hp
    rw [hz, spectrum_real_part n hn0 _ _ p hp]
    push_cast
    ring
  have hmin : min x.length n = x.length := min_eq_left hn.le
  have hlow : ∀ k, k < x.length / 2 → newSpectrum x n k = spectrum x k := by
    intro k hk
    unfold newSpectrum
    rw [hmin]
    simp [hk]
  have hhigh : ∀ j, j ≠ 0 → j ≤ x.length / 2 → newSpectrum x n (n - j) = spectrum x (x.length - j) := by
    intro j h0 hj
    unfold newSpectrum
    rw [hmin]
    dsimp only
    rw [if_neg (by omega), if_pos (by omega)]
    congr 1
    omega
  have hmid : newSpectrum x n (x.length / 2) = 0 := by
    unfold newSpectrum
    rw [hmin]
    dsimp only
    rw [if_neg (by omega), if_neg (by omega)]
  have zlow : ∀ k, k < x.length / 2 → spectrum z k = (n : ℂ) / x.length * spectrum x k := by
    intro k hk
    rw [hsp k (by omega), hlow k hk]
    have : newSpectrum x n ((n - k) % n) = (starRingEnd ℂ) (spectrum x k) := by
      rw [spectrum_conj x k (by omega)]
      by_cases h0 : k = 0
      · subst h0
        rw [Nat.sub_zero, Nat.mod_self, Nat.sub_zero, Nat.mod_self, hlow 0 hk]
      · rw [Nat.mod_eq_of_lt (by omega), Nat.mod_eq_of_lt (by omega), hhigh k h0 (by omega)]
    rw [this, Complex.conj_conj]
    ring
  have zhigh : ∀ j, j ≠ 0 → j < x.length / 2 →
      spectrum z (n - j) = (n : ℂ) / x.length * spectrum x (x.length - j) := by
    intro j h0 hj
    rw [hsp (n - j) (by omega), hhigh j h0 (by omega), show n - (n - j) = j by omega,
      Nat.mod_eq_of_lt (by omega), hlow j hj, spectrum_conj x j (by omega), Nat.mod_eq_of_lt (by omega)]
    ring
  have zny : spectrum z (n - x.length / 2) = (n : ℂ) / x.length / 2 * spectrum x (x.length / 2) := by
    rw [hsp _ (by omega), hhigh _ (by omega) le_rfl, show n - (n - x.length / 2) = x.length / 2 by omega,
      Nat.mod_eq_of_lt (by omega), hmid, map_zero, add_zero, show x.length - x.length / 2 = x.length / 2 by omega]
  rw [getD_map_range _ _ _ _ hm, newSpectrum_sum z _ (fun k => root x.length ^ (k * m)), hzl,
    min_eq_right hn.le]
  have s1 : ∑ k ∈ Finset.range (x.length / 2), spectrum z k * root x.length ^ (k * m) =
      (n : ℂ) / x.length * ∑ k ∈ Finset.range (x.length / 2), spectrum x k * root x.length ^ (k * m) := by
    rw [Finset.mul_sum]
    refine Finset.sum_congr rfl fun k hk => ?_
    rw [zlow k (Finset.mem_range.mp hk)]; ring
  have s2 : ∑ j ∈ Finset.range (x.length / 2),
        spectrum z (n - x.length / 2 + j) * root x.length ^ ((x.length - x.length / 2 + j) * m) =
      (n : ℂ) / x.length * (∑ j ∈ Finset.range (x.length / 2),
        spectrum x (x.length / 2 + j) * root x.length ^ ((x.length / 2 + j) * m)) -
      (n : ℂ) / x.length / 2 * spectrum x (x.length / 2) * root x.length ^ (x.length / 2 * m) := by
    have h1 : x.length / 2 = (x.length / 2 - 1) + 1 := by omega
    obtain ⟨q, hq⟩ : ∃ q, x.length / 2 = q + 1 := ⟨_, h1⟩
    rw [hq] at zny ⊢
    rw [Finset.sum_range_succ', Finset.sum_range_succ', mul_add, Finset.mul_sum]
    have : ∀ j ∈ Finset.range q, spectrum z (n - (q + 1) + (j + 1)) * root x.length ^ ((x.length - (q + 1) + (j + 1)) * m) =
        (n : ℂ) / x.length * (spectrum x (q + 1 + (j + 1)) * root x.length ^ ((q + 1 + (j + 1)) * m)) := by
      intro j hj
      have hj := Finset.mem_range.mp hj
      rw [show n - (q + 1) + (j + 1) = n - (q - j) by omega, zhigh (q - j) (by omega) (by omega),
        show x.length - (q - j) = q + 1 + (j + 1) by omega,
        show x.length - (q + 1) + (j + 1) = q + 1 + (j + 1) by omega]
      ring
    rw [Finset.sum_congr rfl this, add_zero, add_zero, add_zero, zny, show x.length - (q + 1) = q + 1 by omega]
    ring
  have hs := spectrum_inverse x m hm
  have e0 : x.length = x.length / 2 + x.length / 2 := by omega
  rw [show Finset.range x.length = Finset.range (x.length / 2 + x.length / 2) by rw [← e0], Finset.sum_range_add] at hs
  rw [s1, s2, ← add_sub_assoc, ← mul_add, hs, spectrum_nyquist x h, root_nyquist x.length m h hN]
  rw [show (n : ℂ) / x.length * ((x.length : ℂ) * ((x.getD m 0 : ℝ) : ℂ)) - (n : ℂ) / x.length / 2 *
      ((∑ j ∈ Finset.range x.length, (-1) ^ j * x.getD j 0 : ℝ) : ℂ) * (((-1) ^ m : ℝ) : ℂ) =
      (((n : ℝ) * x.getD m 0 - (n : ℝ) / x.length / 2 * (∑ j ∈ Finset.range x.length, (-1) ^ j * x.getD j 0) *
        (-1) ^ m : ℝ) : ℂ) by
    push_cast
    field_simp, ofReal_re]
  field_simp

/-- **C79** Resampling a signal of even length without alternating component to a larger length and back
returns the signal. -/
theorem C79_roundtrip_partial (x : List ℝ) (h : x.length % 2 = 0)
    (h0 : ∑ j ∈ Finset.range x.length, (-1) ^ j * x.getD j 0 = 0) (n : ℕ) (hn : x.length ≤ n) :
    ∃ z, resample x n = .ok z ∧ resample z x.length = .ok x := by
  rcases hn.eq_or_lt with e | hlt
  · exact ⟨x, by rw [← e]; exact C38_identity_even_partial x h, C38_identity_even_partial x h⟩
  · obtain ⟨z, y, a, b, c, d⟩ := C79_roundtrip_loss x h n hlt
    refine ⟨z, a, ?_⟩
    rw [b]
    congr 1
    refine List.ext_getElem c fun m h1 h2 => ?_
    have := d m h2
    rw [h0, mul_zero, zero_div, sub_zero, List.getD_eq_getElem _ _ h1, List.getD_eq_getElem _ _ h2] at this
    exact this

/-- Such a signal. -/
example : ∑ j ∈ Finset.range [(1 : ℝ), 2, 4, 3].length, (-1) ^ j * [(1 : ℝ), 2, 4, 3].getD j 0 = 0 := by
  simp [Finset.sum_range_succ]; norm_num

/-- **C79 fails for the alternating component**: `[1, -1]` resampled to length 4 and back is `[1/2, -1/2]`. -/
theorem C79_roundtrip_false : ∃ z, resample [1, -1] 4 = .ok z ∧ resample z 2 = .ok [1 / 2, -1 / 2] := by
  obtain ⟨z, y, a, b, c, d⟩ := C79_roundtrip_loss [1, -1] (by simp) 4 (by simp)
  refine ⟨z, a, ?_⟩
  change resample z 2 = .ok y at b
  rw [b]
  congr 1
  have h0 := d 0 (by simp)
  have h1 := d 1 (by simp)
  simp [Finset.sum_range_succ] at h0 h1
  match y, c with
  | [u, v], _ =>
    simp at h0 h1
    rw [h0, h1]
    norm_num

end SciRs.Props

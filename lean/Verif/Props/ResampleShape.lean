import Verif.Props.ResampleMore
import Verif.Spec.Interpolant
import Verif.Lemmas.L2

/-!
# C126: what `resample` computes, in closed form, and what follows from it

Shifts, reversal, power, and resampling in two steps.
-/

namespace SciRs.Props

open SciRs SciRs.Spec SciRs.Signal Complex

/-- The real part of one frequency, in terms of the samples. -/
theorem spectrum_re (x : List ℝ) (n k m : ℕ) :
    (spectrum x k * root n ^ (k * m)).re =
      ∑ j ∈ Finset.range x.length, x.getD j 0 * Real.cos (2 * Real.pi * k * ((m : ℝ) / n - j / x.length)) := by
  unfold spectrum
  rw [Finset.sum_mul, Complex.re_sum]
  refine Finset.sum_congr rfl fun j _ => ?_
  rw [mul_assoc, Complex.re_ofReal_mul, inv_pow, root_pow_exp, root_pow_exp, ← Complex.exp_neg, ← neg_mul, ← ofReal_neg,
    ← Complex.exp_add, ← add_mul, ← ofReal_add, Complex.exp_ofReal_mul_I_re]
  congr 2
  push_cast
  ring

/-- **C126**, the closed form: sample `m` of `resample x n` is the value at `m / n` of the function through `x` with the
frequencies up to `min(length, n) / 2`, the last of them with half weight from either side. -/
theorem C126_formula (x : List ℝ) (n : ℕ) :
    ∃ y, resample x n = .ok y ∧ y.length = n ∧
      ∀ m < n, y.getD m 0 = interpolant x (min x.length n / 2) (m / n) := by
  refine ⟨_, resample_eq x n, by simp, fun m hm => ?_⟩
  rw [getD_map_range _ _ _ _ hm, newSpectrum_sum x n (fun k => root n ^ (k * m))]
  obtain ⟨K, hK⟩ : ∃ K, K = min x.length n / 2 := ⟨_, rfl⟩
  have h1 : K ≤ x.length / 2 := by omega
  have h2 : K ≤ n / 2 := by omega
  rw [← hK, ← Finset.sum_range_reflect (fun j => spectrum x (x.length - K + j) * root n ^ ((n - K + j) * m))]
  have e : ∀ k ∈ Finset.range K, spectrum x (x.length - K + (K - 1 - k)) * root n ^ ((n - K + (K - 1 - k)) * m) =
      (starRingEnd ℂ) (spectrum x (k + 1) * root n ^ ((k + 1) * m)) := by
    intro k hk
    have hk := Finset.mem_range.mp hk
    rw [map_mul, spectrum_conj x (k + 1) (by omega), Nat.mod_eq_of_lt (by omega), map_pow, conj_root,
      show x.length - K + (K - 1 - k) = x.length - (k + 1) by omega,
      show n - K + (K - 1 - k) = n - (k + 1) by omega, pow_mul, root_inv_pow (by omega) (by omega), ← pow_mul]
  rw [Finset.sum_congr rfl e, Complex.add_re, Complex.re_sum, Complex.re_sum]
  simp only [Complex.conj_re]
  simp only [spectrum_re]
  unfold interpolant kernel
  rw [div_eq_mul_one_div (∑ j ∈ _, _)]
  congr 1
  rw [← Finset.sum_add_distrib]
  simp only [Finset.mul_sum, mul_add, ← Finset.sum_add_distrib]
  rw [Finset.sum_comm]

theorem kernel_add_int (K : ℕ) (t : ℝ) (z : ℤ) : kernel K (t + z) = kernel K t := by
  unfold kernel
  refine Finset.sum_congr rfl fun k _ => ?_
  congr 1
  · rw [show 2 * Real.pi * k * (t + z) = 2 * Real.pi * k * t + ((k * z : ℤ) : ℝ) * (2 * Real.pi) by push_cast; ring,
      Real.cos_add_int_mul_two_pi]
  · rw [show 2 * Real.pi * (k + 1 : ℕ) * (t + z) =
      2 * Real.pi * (k + 1 : ℕ) * t + (((k + 1 : ℕ) * z : ℤ) : ℝ) * (2 * Real.pi) by push_cast; ring,
      Real.cos_add_int_mul_two_pi]

theorem kernel_neg (K : ℕ) (t : ℝ) : kernel K (-t) = kernel K t := by
  unfold kernel
  refine Finset.sum_congr rfl fun k _ => ?_
  rw [mul_neg, Real.cos_neg, mul_neg, Real.cos_neg]

theorem interpolant_add_int (x : List ℝ) (K : ℕ) (t : ℝ) (z : ℤ) : interpolant x K (t + z) = interpolant x K t := by
  unfold interpolant
  congr 1
  refine Finset.sum_congr rfl fun j _ => ?_
  rw [show t + z - (j : ℝ) / x.length = (t - j / x.length) + z by ring, kernel_add_int]

/-- A sum over a period does not change with the origin. -/
theorem sum_range_rotate (f : ℤ → ℝ) (N : ℕ) (hf : ∀ j, f (j + N) = f j) (s : ℕ) :
    ∑ j ∈ Finset.range N, f (j + s) = ∑ j ∈ Finset.range N, f j := by
  induction s with
  | zero => simp
  | succ s ih =>
    rw [← ih]
    have h1 := Finset.sum_range_succ (fun j : ℕ => f (j + s)) N
    have h2 := Finset.sum_range_succ' (fun j : ℕ => f (j + s)) N
    have h3 := hf s
    rw [h1] at h2
    push_cast at h2 ⊢
    have e : ∀ j : ℕ, f ((j : ℤ) + (s + 1)) = f (j + 1 + s) := fun j => by congr 1; ring
    simp only [e]
    rw [add_comm (N : ℤ) s, h3, zero_add] at h2
    linarith

theorem getD_rotate (x : List ℝ) (s j : ℕ) (hj : j < x.length) : (x.rotate s).getD j 0 = x.getD ((j + s) % x.length) 0 := by
  rw [List.getD_eq_getElem _ _ (by simpa using hj), List.getElem_rotate,
    List.getD_eq_getElem _ _ (Nat.mod_lt _ (by omega))]

/-- The samples as a periodic function on the integers. -/
noncomputable def periodic (x : List ℝ) (j : ℤ) : ℝ := x.getD (j % (x.length : ℤ)).toNat 0

theorem periodic_add (x : List ℝ) (j : ℤ) : periodic x (j + x.length) = periodic x j := by
  unfold periodic; rw [Int.add_emod_right]

theorem periodic_nat (x : List ℝ) (j : ℕ) : periodic x j = x.getD (j % x.length) 0 := by
  unfold periodic
  rw [show ((j : ℤ) % (x.length : ℤ)).toNat = j % x.length by omega]

theorem interpolant_rotate (x : List ℝ) (hx : x ≠ []) (K s : ℕ) (t : ℝ) :
    interpolant (x.rotate s) K t = interpolant x K (t + s / x.length) := by
  have hN : x.length ≠ 0 := by simpa using hx
  have hr : (x.length : ℝ) ≠ 0 := by exact_mod_cast hN
  unfold interpolant
  rw [List.length_rotate]
  congr 1
  have k := sum_range_rotate (fun j => periodic x j * kernel K (t + s / x.length - j / x.length)) x.length (by
    intro j
    rw [periodic_add]
    congr 1
    have := kernel_add_int K (t + s / x.length - (j + x.length : ℤ) / x.length) 1
    rw [← this]
    congr 1
    push_cast
    field_simp
    ring) s
  refine Eq.trans (Finset.sum_congr rfl fun j hj => ?_) (k.trans (Finset.sum_congr rfl fun j hj => ?_))
  · have hj := Finset.mem_range.mp hj
    have : ((j : ℤ) + (s : ℤ)) = ((j + s : ℕ) : ℤ) := by push_cast; rfl
    rw [this, periodic_nat, getD_rotate x s j hj]
    congr 2
    push_cast
    ring
  · have hj := Finset.mem_range.mp hj
    rw [periodic_nat, Nat.mod_eq_of_lt hj]
    push_cast
    rfl

theorem getD_eq_of_all {y z : List ℝ} (hl : y.length = z.length) (h : ∀ m < y.length, y.getD m 0 = z.getD m 0) :
    y = z := by
  refine List.ext_getElem hl fun m h1 h2 => ?_
  have := h m h1
  rwa [List.getD_eq_getElem _ _ h1, List.getD_eq_getElem _ _ h2] at this

/-- **C126**, shifts: a circular shift of the signal by `s` samples shifts the result by `s'` samples, whenever `s` of
the old and `s'` of the new samples are the same part of a period. -/
theorem C126_shift (x : List ℝ) (hx : x ≠ []) (n s s' : ℕ) (h : s * n = s' * x.length) :
    ∃ y, resample x n = .ok y ∧ resample (x.rotate s) n = .ok (y.rotate s') := by
  obtain ⟨y, h1, h2, h3⟩ := C126_formula x n
  obtain ⟨z, k1, k2, k3⟩ := C126_formula (x.rotate s) n
  refine ⟨y, h1, ?_⟩
  rw [k1]
  congr 1
  refine getD_eq_of_all (by simp [h2, k2]) fun m hm => ?_
  rw [k2] at hm
  have hN : (x.length : ℝ) ≠ 0 := by
    have : x.length ≠ 0 := by simpa using hx
    exact_mod_cast this
  have hn : (n : ℝ) ≠ 0 := by
    have : n ≠ 0 := by omega
    exact_mod_cast this
  have hr : (s : ℝ) * n = s' * x.length := by exact_mod_cast h
  rw [k3 m hm, getD_rotate _ _ _ (by omega), h2, h3 _ (Nat.mod_lt _ (by omega)), List.length_rotate,
    interpolant_rotate x hx]
  have d : m + s' = n * ((m + s') / n) + (m + s') % n := (Nat.div_add_mod (m + s') n).symm
  generalize (m + s') / n = q at d
  generalize (m + s') % n = p at d ⊢
  have d : (m : ℝ) + s' = n * q + p := by exact_mod_cast d
  rw [← interpolant_add_int x (min x.length n / 2) (p / n) q]
  congr 1
  push_cast
  field_simp
  linear_combination (x.length : ℝ) * d + hr

/-- **C126**, reversal: running the signal backwards around its first sample runs the result backwards around its first
sample. -/
theorem C126_reverse (a b : ℝ) (t u : List ℝ) (n : ℕ) (h : resample (a :: t) n = .ok (b :: u)) :
    resample (a :: t.reverse) n = .ok (b :: u.reverse) := by
  obtain ⟨y, h1, h2, h3⟩ := C126_formula (a :: t) n
  obtain ⟨z, k1, k2, k3⟩ := C126_formula (a :: t.reverse) n
  have hy : y = b :: u := by
    rw [h] at h1
    simpa using h1.symm
  subst hy
  have hlu : u.length + 1 = n := by simpa using h2
  have hn : (n : ℝ) ≠ 0 := by
    have : n ≠ 0 := by omega
    exact_mod_cast this
  have hlen : (a :: t.reverse).length = (a :: t).length := by simp
  obtain ⟨N, hN⟩ : ∃ N, N = (a :: t).length := ⟨_, rfl⟩
  have hNt : N = t.length + 1 := by rw [hN]; simp
  have hNr : (N : ℝ) ≠ 0 := by
    have : N ≠ 0 := by omega
    exact_mod_cast this
  -- backwards
  have back : ∀ (c : ℝ) (l : List ℝ) (j : ℕ), 0 < j → j ≤ l.length →
      (c :: l.reverse).getD j 0 = (c :: l).getD (l.length + 1 - j) 0 := by
    intro c l j h0 hj
    obtain ⟨i, rfl⟩ : ∃ i, j = i + 1 := ⟨j - 1, by omega⟩
    obtain ⟨i', hi'⟩ : ∃ i', l.length + 1 - (i + 1) = i' + 1 := ⟨l.length - 1 - i, by omega⟩
    rw [hi', List.getD_cons_succ, List.getD_cons_succ, List.getD_eq_getElem _ _ (by simpa using hj),
      List.getD_eq_getElem _ _ (by omega), List.getElem_reverse]
    congr 1
    omega
  have key : ∀ K τ, interpolant (a :: t.reverse) K τ = interpolant (a :: t) K (-τ) := by
    intro K τ
    unfold interpolant
    rw [hlen, ← hN]
    congr 1
    rw [hNt, Finset.sum_range_succ', Finset.sum_range_succ',
      ← Finset.sum_range_reflect (fun k => (a :: t).getD (k + 1) 0 * _)]
    congr 1
    · refine Finset.sum_congr rfl fun j hj => ?_
      have hj := Finset.mem_range.mp hj
      rw [back a t (j + 1) (by omega) (by omega), show t.length + 1 - (j + 1) = t.length - 1 - j + 1 by omega]
      congr 1
      rw [← kernel_neg, ← kernel_add_int K _ (-1)]
      congr 1
      rw [← hNt]
      have : ((t.length - 1 - j + 1 : ℕ) : ℝ) = N - (j + 1) := by
        rw [show t.length - 1 - j + 1 = N - (j + 1) by omega, Nat.cast_sub (by omega)]
        push_cast; ring
      rw [this]
      push_cast
      field_simp
      ring
    · simp only [List.getD_cons_zero]
      congr 1
      rw [← kernel_neg]
      congr 1
      simp
  rw [k1]
  congr 1
  refine getD_eq_of_all (by simp [k2, hlu]) fun m hm => ?_
  rw [k2] at hm
  rw [k3 m hm, key, hlen]
  by_cases h0 : m = 0
  · subst h0
    have := h3 0 (by omega)
    rw [List.getD_cons_zero] at this ⊢
    rw [this]
    simp
  · rw [back b u m (by omega) (by omega), h3 _ (by omega), ← interpolant_add_int _ _ _ (1 : ℤ)]
    congr 1
    rw [show u.length + 1 - m = n - m by omega, Nat.cast_sub (by omega)]
    push_cast
    field_simp
    ring

/-- The energy of the new spectrum. -/
theorem newSpectrum_energy (x : List ℝ) (n : ℕ) :
    ∑ k ∈ Finset.range n, ‖newSpectrum x n k‖ ^ 2 ≤ ∑ k ∈ Finset.range x.length, ‖spectrum x k‖ ^ 2 := by
  obtain ⟨h, hh⟩ : ∃ h, h = min x.length n / 2 := ⟨_, rfl⟩
  have h2 : h + h ≤ n := by omega
  have h3 : h + h ≤ x.length := by omega
  have hr : Finset.range n = Finset.range (h + ((n - 2 * h) + h)) := by congr 1; omega
  have hx : Finset.range x.length = Finset.range (h + ((x.length - 2 * h) + h)) := by congr 1; omega
  rw [hr, Finset.sum_range_add, Finset.sum_range_add, hx, Finset.sum_range_add, Finset.sum_range_add]
  have e1 : ∀ k ∈ Finset.range h, ‖newSpectrum x n k‖ ^ 2 = ‖spectrum x k‖ ^ 2 := by
    intro k hk
    have hk := Finset.mem_range.mp hk
    unfold newSpectrum
    dsimp only
    rw [← hh, if_pos hk]
  have e2 : ∀ k ∈ Finset.range (n - 2 * h), ‖newSpectrum x n (h + k)‖ ^ 2 = 0 := by
    intro k hk
    have hk := Finset.mem_range.mp hk
    unfold newSpectrum
    dsimp only
    rw [← hh, if_neg (by omega), if_neg (by omega)]
    simp
  have e3 : ∀ k ∈ Finset.range h, ‖newSpectrum x n (h + (n - 2 * h + k))‖ ^ 2 =
      ‖spectrum x (h + (x.length - 2 * h + k))‖ ^ 2 := by
    intro k hk
    have hk := Finset.mem_range.mp hk
    unfold newSpectrum
    dsimp only
    rw [← hh, if_neg (by omega), if_pos (by omega)]
    congr 3
    omega
  rw [Finset.sum_congr rfl e1, Finset.sum_congr rfl e2, Finset.sum_congr rfl e3]
  have : 0 ≤ ∑ k ∈ Finset.range (x.length - 2 * h), ‖spectrum x (h + k)‖ ^ 2 :=
    Finset.sum_nonneg fun _ _ => sq_nonneg _
  simp only [Finset.sum_const_zero]
  linarith

/-- **C126**, power: resampling never increases the mean square of a signal. -/
theorem C126_power (x y : List ℝ) (n : ℕ) (h : resample x n = .ok y) :
    (∑ k ∈ Finset.range y.length, y.getD k 0 ^ 2) * x.length ≤ (∑ k ∈ Finset.range x.length, x.getD k 0 ^ 2) * n := by
  rw [resample_eq] at h
  have hy := (Except.ok.inj h).symm
  have hl : y.length = n := by rw [hy]; simp
  by_cases hN : x.length = 0
  · rw [hN]; simp
  by_cases hn : n = 0
  · rw [hl, hn]; simp
  have hNr : (0 : ℝ) < x.length := by exact_mod_cast Nat.pos_of_ne_zero hN
  have hnr : (0 : ℝ) < n := by exact_mod_cast Nat.pos_of_ne_zero hn
  rw [hl]
  have a1 : ∀ k ∈ Finset.range n, y.getD k 0 ^ 2 ≤
      ‖∑ j ∈ Finset.range n, newSpectrum x n j * root n ^ (j * k)‖ ^ 2 * (1 / (x.length : ℝ)) ^ 2 := by
    intro k hk
    rw [hy, getD_map_range _ _ _ _ (Finset.mem_range.mp hk), mul_pow]
    refine mul_le_mul_of_nonneg_right ?_ (sq_nonneg _)
    rw [← sq_abs]
    exact pow_le_pow_left₀ (abs_nonneg _) (Complex.abs_re_le_norm _) 2
  have a2 := Finset.sum_le_sum a1
  rw [← Finset.sum_mul] at a2
  have sq_l2 : ∀ N (f : ℕ → ℂ), l2 N f ^ 2 = ∑ k ∈ Finset.range N, ‖f k‖ ^ 2 := fun N f =>
    Real.sq_sqrt (Finset.sum_nonneg fun _ _ => sq_nonneg _)
  have p1 := l2_dft hn (root n) (root_primitive hn) (conj_root n) (newSpectrum x n)
  have p2 := l2_dft hN (root x.length)⁻¹ (root_primitive hN).inv (by rw [map_inv₀, conj_root])
    (fun j => ((x.getD j 0 : ℝ) : ℂ))
  have p1' := congrArg (· ^ 2) p1
  have p2' := congrArg (· ^ 2) p2
  simp only [mul_pow, sq_l2, Real.sq_sqrt hnr.le, Real.sq_sqrt hNr.le] at p1' p2'
  have p3 := newSpectrum_energy x n
  have p4 : ∑ k ∈ Finset.range x.length, ‖spectrum x k‖ ^ 2 = x.length * ∑ k ∈ Finset.range x.length, x.getD k 0 ^ 2 := by
    unfold spectrum
    rw [p2']
    congr 1
    refine Finset.sum_congr rfl fun k _ => ?_
    rw [Complex.norm_real, Real.norm_eq_abs, sq_abs]
  rw [p1'] at a2
  rw [p4] at p3
  calc (∑ k ∈ Finset.range n, y.getD k 0 ^ 2) * x.length
      ≤ (n * ∑ k ∈ Finset.range n, ‖newSpectrum x n k‖ ^ 2) * (1 / (x.length : ℝ)) ^ 2 * x.length :=
        mul_le_mul_of_nonneg_right a2 hNr.le
    _ ≤ (n * (x.length * ∑ k ∈ Finset.range x.length, x.getD k 0 ^ 2)) * (1 / (x.length : ℝ)) ^ 2 * x.length := by
        gcongr
    _ = _ := by field_simp

/-- **C126**, a consequence: resampling two signals that are close gives two signals that are as close. -/
theorem C126_close (x y X Y : List ℝ) (hl : x.length = y.length) (n : ℕ) (hX : resample x n = .ok X)
    (hY : resample y n = .ok Y) :
    (∑ k ∈ Finset.range n, (X.getD k 0 - Y.getD k 0) ^ 2) * x.length ≤
      (∑ k ∈ Finset.range x.length, (x.getD k 0 - y.getD k 0) ^ 2) * n := by
  obtain ⟨X', Y', h1, h2, h3⟩ := C79_linear 1 (-1) x y hl n
  rw [hX] at h1
  rw [hY] at h2
  obtain rfl := Except.ok.inj h1
  obtain rfl := Except.ok.inj h2
  have hXl : X.length = n := by
    obtain ⟨o, e1, e2⟩ := C38_length x n
    rw [hX] at e1
    rw [Except.ok.inj e1, e2]
  have hYl : Y.length = n := by
    obtain ⟨o, e1, e2⟩ := C38_length y n
    rw [hY] at e1
    rw [Except.ok.inj e1, e2]
  have k := C126_power _ _ n h3
  have zip : ∀ (p q : List ℝ) (N : ℕ), p.length = N → q.length = N →
      ∑ k ∈ Finset.range N, (List.zipWith (fun u v => 1 * u + -1 * v) p q).getD k 0 ^ 2 =
        ∑ k ∈ Finset.range N, (p.getD k 0 - q.getD k 0) ^ 2 := by
    intro p q N hp hq
    refine Finset.sum_congr rfl fun j hj => ?_
    have hj := Finset.mem_range.mp hj
    rw [List.getD_eq_getElem _ _ (by simp; omega), List.getElem_zipWith, List.getD_eq_getElem _ _ (by omega),
      List.getD_eq_getElem _ _ (by omega)]
    ring
  have l1 : (List.zipWith (fun u v => 1 * u + -1 * v) X Y).length = n := by simp [hXl, hYl]
  have l2 : (List.zipWith (fun u v => 1 * u + -1 * v) x y).length = x.length := by simp [hl]
  rw [l1, l2, zip X Y n hXl hYl, zip x y x.length rfl hl.symm] at k
  exact k

/-- The interpolating function is a trigonometric polynomial. -/
theorem interpolant_trig (x : List ℝ) (K : ℕ) : ∃ a b : ℕ → ℝ, interpolant x K = trigPoly a b (K + 1) := by
  refine ⟨fun k => ((if k < K then 1 else 0) + (if k = 0 then 0 else 1)) *
      (∑ j ∈ Finset.range x.length, x.getD j 0 * Real.cos (2 * Real.pi * k * (j / x.length))) / x.length,
    fun k => ((if k < K then 1 else 0) + (if k = 0 then 0 else 1)) *
      (∑ j ∈ Finset.range x.length, x.getD j 0 * Real.sin (2 * Real.pi * k * (j / x.length))) / x.length,
    funext fun t => ?_⟩
  have w : ∀ g : ℕ → ℝ, ∑ k ∈ Finset.range K, (g k + g (k + 1)) =
      ∑ k ∈ Finset.range (K + 1), ((if k < K then 1 else 0) + (if k = 0 then 0 else 1)) * g k := by
    intro g
    simp only [add_mul, Finset.sum_add_distrib]
    congr 1
    · rw [Finset.sum_range_succ]
      simp only [lt_irrefl, if_false, zero_mul, add_zero]
      refine Finset.sum_congr rfl fun k hk => ?_
      rw [if_pos (Finset.mem_range.mp hk), one_mul]
    · rw [Finset.sum_range_succ']
      simp
  unfold interpolant trigPoly kernel
  simp only [fun s : ℝ => w (fun k => Real.cos (2 * Real.pi * k * s)), Finset.mul_sum]
  rw [Finset.sum_comm, Finset.sum_div]
  refine Finset.sum_congr rfl fun k _ => ?_
  generalize ((if k < K then 1 else 0) + (if k = 0 then 0 else 1) : ℝ) = c
  rw [Finset.sum_div, Finset.sum_div, Finset.sum_div, Finset.sum_mul, Finset.sum_mul, ← Finset.sum_add_distrib]
  refine Finset.sum_congr rfl fun j _ => ?_
  rw [mul_sub, Real.cos_sub]
  ring

/-- The spectrum of the resampled signal, below the common highest frequency. -/
theorem resampled_spectrum (x z : List ℝ) (n : ℕ) (hz : resample x n = .ok z) {k : ℕ} (hk : k < min x.length n / 2) :
    spectrum z k = (n : ℂ) / x.length * spectrum x k ∧
    (k ≠ 0 → spectrum z (n - k) = (n : ℂ) / x.length * spectrum x (x.length - k)) := by
  rw [resample_eq] at hz
  have hz := (Except.ok.inj hz).symm
  have hn0 : n ≠ 0 := by omega
  have hsp : ∀ p < n, spectrum z p = (n : ℂ) / x.length / 2 *
      (newSpectrum x n p + (starRingEnd ℂ) (newSpectrum x n ((n - p) % n))) := by
    intro p hp
    rw [hz, spectrum_real_part n hn0 _ _ p hp]
    push_cast
    ring
  obtain ⟨K, hK⟩ : ∃ K, K = min x.length n / 2 := ⟨_, rfl⟩
  have hlow : ∀ k, k < K → newSpectrum x n k = spectrum x k := by
    intro k hk
    unfold newSpectrum
    dsimp only
    rw [← hK, if_pos hk]
  have hhigh : ∀ j, j ≠ 0 → j < K → newSpectrum x n (n - j) = spectrum x (x.length - j) := by
    intro j h0 hj
    unfold newSpectrum
    dsimp only
    rw [← hK, if_neg (by omega), if_pos (by omega)]
    congr 1
    omega
  rw [← hK] at hk
  constructor
  · rw [hsp k (by omega), hlow k hk]
    have : newSpectrum x n ((n - k) % n) = (starRingEnd ℂ) (spectrum x k) := by
      rw [spectrum_conj x k (by omega)]
      by_cases h0 : k = 0
      · subst h0
        rw [Nat.sub_zero, Nat.mod_self, Nat.sub_zero, Nat.mod_self, hlow 0 hk]
      · rw [Nat.mod_eq_of_lt (by omega), Nat.mod_eq_of_lt (by omega), hhigh k h0 hk]
    rw [this, Complex.conj_conj]
    ring
  · intro h0
    rw [hsp (n - k) (by omega), hhigh k h0 hk, show n - (n - k) = k by omega,
      Nat.mod_eq_of_lt (by omega), hlow k hk, spectrum_conj x k (by omega), Nat.mod_eq_of_lt (by omega)]
    ring

/-- **C126**, two steps: resampling to `m` samples by way of `n` samples is the same as resampling to `m` samples at
once, if `n` is large enough for the frequencies that are kept and these do not include the very highest one. -/
theorem C126_two_steps (x z : List ℝ) (n m : ℕ) (h1 : min x.length m / 2 < n / 2) (h2 : x.length / 2 ≠ m / 2)
    (hz : resample x n = .ok z) : resample z m = resample x m := by
  have hn0 : n ≠ 0 := by omega
  obtain ⟨z', e1, hzl, ez⟩ := C126_formula x n
  have : z' = z := by rw [hz] at e1; exact (Except.ok.inj e1).symm
  subst this
  rcases Nat.lt_or_gt_of_ne h2 with hlt | hgt
  · obtain ⟨K, hK⟩ : ∃ K, K = x.length / 2 := ⟨_, rfl⟩
    obtain ⟨a, b, hab⟩ := interpolant_trig x K
    have k1 : min x.length n / 2 = K := by omega
    have k2 : min x.length m / 2 = K := by omega
    rw [k1] at ez
    obtain ⟨y, g1, g2, g3⟩ := C126_formula x m
    rw [k2] at g3
    have t : ∀ (N : ℕ) (l : List ℝ), l.length = N → (∀ j < N, l.getD j 0 = interpolant x K (j / N)) →
        l = sampled (trigPoly a b (K + 1)) N := by
      intro N l hl hj
      refine getD_eq_of_all (by simp [sampled, hl]) fun j hjl => ?_
      rw [hj j (by omega), sampled, getD_map_range _ _ _ _ (by omega), hab]
    rw [t n z' hzl ez, g1, t m y g2 g3]
    exact C38_bandlimited_exact a b (K + 1) n m (by omega) (by omega) (by omega) (by omega)
  · obtain ⟨K, hK⟩ : ∃ K, K = m / 2 := ⟨_, rfl⟩
    have k1 : min z'.length m / 2 = K := by omega
    have k2 : min x.length m / 2 = K := by omega
    have hx0 : (x.length : ℝ) ≠ 0 := by
      have : x.length ≠ 0 := by omega
      exact_mod_cast this
    have hnr : (n : ℝ) ≠ 0 := by exact_mod_cast hn0
    rw [resample_eq, resample_eq]
    congr 1
    refine List.map_congr_left fun i _ => ?_
    rw [newSpectrum_sum z' m (fun k => root m ^ (k * i)), newSpectrum_sum x m (fun k => root m ^ (k * i)), k1, k2, hzl]
    have s1 : ∀ k ∈ Finset.range K, spectrum z' k * root m ^ (k * i) =
        (n : ℂ) / x.length * (spectrum x k * root m ^ (k * i)) := by
      intro k hk
      rw [(resampled_spectrum x z' n hz (by have := Finset.mem_range.mp hk; omega)).1]
      ring
    have s2 : ∀ j ∈ Finset.range K, spectrum z' (n - K + j) * root m ^ ((m - K + j) * i) =
        (n : ℂ) / x.length * (spectrum x (x.length - K + j) * root m ^ ((m - K + j) * i)) := by
      intro j hj
      have hj := Finset.mem_range.mp hj
      have := (resampled_spectrum x z' n hz (k := K - j) (by omega)).2 (by omega)
      rw [show n - K + j = n - (K - j) by omega, this, show x.length - (K - j) = x.length - K + j by omega]
      ring
    rw [Finset.sum_congr rfl s1, Finset.sum_congr rfl s2, ← Finset.mul_sum, ← Finset.mul_sum, ← mul_add,
      show ((n : ℂ) / x.length) = ((n / x.length : ℝ) : ℂ) by push_cast; rfl, Complex.re_ofReal_mul]
    field_simp

/-! ### Concrete cases -/

/-- A signal of 4 samples shifted by 2 is, resampled to 6 samples, shifted by 3. -/
example : ∃ y, resample [1, 2, 4, 3] 6 = .ok y ∧ resample [4, 3, 1, 2] 6 = .ok (y.rotate 3) :=
  C126_shift [1, 2, 4, 3] (by simp) 6 2 3 (by simp)

/-- Four samples to eight by way of six or directly, and to two. -/
example (z : List ℝ) (h : resample [1, 2, 4, 3] 6 = .ok z) :
    resample z 8 = resample [1, 2, 4, 3] 8 ∧ resample z 2 = resample [1, 2, 4, 3] 2 :=
  ⟨C126_two_steps _ _ 6 8 (by simp) (by simp) h, C126_two_steps _ _ 6 2 (by simp) (by simp) h⟩

/-- The hypotheses of the theorem on reversal and of that on power are met. -/
example : resample [1, 2, 4, 3] 4 = .ok (1 :: [2, 4, 3]) := C38_identity_even_partial [1, 2, 4, 3] (by simp)

end SciRs.Props

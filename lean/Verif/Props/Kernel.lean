import Verif.Lemmas.Kernel

/-!
# C118: zero-phase filtering is convolution with a symmetric kernel, away from the ends
-/

namespace SciRs.Props

open SciRs SciRs.Spec SciRs.Rounded

set_option maxHeartbeats 1600000 in
/-- **C118** Away from the ends of the signal, zero-phase filtering with stable sections is convolution with a symmetric
kernel: the autocorrelation of the impulse response, which decays geometrically.  The difference at sample `i` decays
geometrically with the distance to the ends.  `φ`, `K` and `ρ` depend on the coefficients only. -/
theorem C118_kernel (sos : List (Sos ℝ)) (hs : ∀ s ∈ sos, Stable s) :
    ∃ (φ : ℕ → ℝ) (K ρ : ℝ), 0 < ρ ∧ ρ < 1 ∧
      (∀ d, HasSum (fun k => impulseResponse sos k * impulseResponse sos (k + d)) (φ d)) ∧
      (∀ d, |φ d| ≤ K * ρ ^ d) ∧
      ∀ (D : ℝ) (y z : List ℝ), (∀ v ∈ y, |v| ≤ D) → sosfiltfiltDyn y sos = .ok z →
        ∀ i < y.length, |z.getD i 0 - symConv φ y i| ≤ K * D * (ρ ^ i + ρ ^ (y.length - 1 - i)) := by
  obtain ⟨K, ρ, hK, h0, h1, H⟩ := run_diff sos hs
  have hsum : ∀ d, HasSum (fun k => impulseResponse sos k * impulseResponse sos (k + d)) (filtKernel sos d) :=
    fun d => (kernel_summable H hK h0 h1 d).hasSum
  obtain ⟨g, hg⟩ : ∃ g, g = (1 - ρ)⁻¹ := ⟨_, rfl⟩
  have hg0 : 0 < g := by rw [hg]; exact inv_pos.mpr (by linarith)
  obtain ⟨C, hC⟩ : ∃ C, C = K ^ 2 * g := ⟨_, rfl⟩
  have hC0 : 0 ≤ C := by rw [hC]; positivity
  have hbound : ∀ d, |filtKernel sos d| ≤ C * ρ ^ d := by
    intro d
    rw [hC, hg]
    exact kernel_bound H hK h0 h1 d
  by_cases hok : ∃ r, sosfiltZiDyn sos = .ok r
  swap
  · refine ⟨filtKernel sos, C, ρ, h0, h1, hsum, hbound, fun D y z _ hz => ?_⟩
    obtain ⟨r, hr, -⟩ := filtfilt_ok hz
    exact absurd ⟨r, hr⟩ hok
  obtain ⟨R, hR⟩ := hok
  obtain ⟨Z, hZ1, hZ⟩ := exists_level R
  obtain ⟨P, hP⟩ : ∃ P, P = 3 * Z := ⟨_, rfl⟩
  obtain ⟨Q, hQ⟩ : ∃ Q, Q = Z * (K * P) := ⟨_, rfl⟩
  have hZ0 : 0 ≤ Z := by linarith
  have hP0 : 0 ≤ P := by rw [hP]; linarith
  have hQ0 : 0 ≤ Q := by rw [hQ]; exact mul_nonneg hZ0 (mul_nonneg (by linarith) hP0)
  have hK0 : 0 ≤ K := by linarith
  have hW0 : 0 ≤ K * (K * P) + K * Q + 3 * (C * P * g) + C * P * g := by positivity
  refine ⟨filtKernel sos, C + (K * (K * P) + K * Q + 3 * (C * P * g) + C * P * g), ρ, h0, h1, hsum,
    fun d => (hbound d).trans (mul_le_mul_of_nonneg_right (by linarith) (by positivity)), fun D y z hy hz i hi => ?_⟩
  obtain ⟨r, hr, hc, hl, rfl⟩ := filtfilt_ok hz
  rw [hR] at hr
  cases hr
  have hD : 0 ≤ D := (abs_nonneg _).trans (hy y[0] (List.getElem_mem (by omega)))
  have hyb : ∀ j, |y.getD j 0| ≤ D := by
    intro j
    by_cases hj : j < y.length
    · rw [List.getD_eq_getElem _ _ hj]
      exact hy _ (List.getElem_mem hj)
    · rw [List.getD_eq_default _ _ (by omega), abs_zero]
      exact hD
  obtain ⟨n, hndef⟩ : ∃ n, n = 3 * sosNtaps sos := ⟨_, rfl⟩
  obtain ⟨f, hf⟩ : ∃ f, f = (sosfiltDyn (extList y (3 * sosNtaps sos))
    (scaleStates ((extList y (3 * sosNtaps sos)).getD 0 0) R)).1 := ⟨_, rfl⟩
  rw [ffOut_getD y _ R f hf i hi]
  rw [← hndef] at hf ⊢
  obtain ⟨x, hx⟩ : ∃ x, x = extList y n := ⟨_, rfl⟩
  have hxl : x.length = y.length + 2 * n := by rw [hx, extList_length]
  rw [← hx] at hf
  have hrR : rested R = rested sos := rested_congr hc
  obtain ⟨f0, hf0⟩ : ∃ f0, f0 = (sosfiltDyn x (rested sos)).1 := ⟨_, rfl⟩
  have hfl : f.length = x.length := by rw [hf, (C24_length _ _).1]
  have hfl0 : f0.length = x.length := by rw [hf0, (C24_length _ _).1]
  have hcr : ∀ c, (scaleStates c R).map coeffs = sos.map coeffs := fun c => (scaled_coeffs _ _).trans hc
  have hPD : 0 ≤ P * D := mul_nonneg hP0 hD
  have hQD : 0 ≤ Q * D := mul_nonneg hQ0 hD
  have hDP : 3 * D ≤ P * D := by rw [hP]; nlinarith
  have hsc : ∀ (c B : ℝ), |c| ≤ B → StatesWithin (Z * B) (scaleStates c R) (rested sos) := by
    intro c B hB
    rw [← hrR]
    refine (scaleStates_within c 0 R hZ).mono ?_
    rw [sub_zero]
    exact mul_le_mul_of_nonneg_left hB hZ0
  have hE : ∀ j, |x.getD j 0| ≤ P * D := fun j => by rw [hx]; exact (ext_bound hyb n j).trans hDP
  have e0 : StatesWithin (P * D) (scaleStates (x.getD 0 0) R) (rested sos) := by
    refine (hsc (x.getD 0 0) (3 * D) (by rw [hx]; exact ext_bound hyb n 0)).mono ?_
    rw [hP]
    linarith
  -- the forward pass against the forward pass from rest
  have b1 : ∀ j, |f.getD j 0 - f0.getD j 0| ≤ K * (P * D) * ρ ^ j := by
    intro j
    rw [hf, hf0]
    refine (H (P * D) ρ _ _ (.inl rfl) hPD (hcr _) e0 x x rfl).1 j fun k _ => ?_
    rw [sub_self, abs_zero]
    positivity
  have hfb : ∀ j, |f.getD j 0| ≤ K * (P * D) := by
    rw [hf]
    exact (bounded_run H hPD (hcr _) (rested_rest sos) e0 hE).1
  have hrev0 : |f.reverse.getD 0 0| ≤ K * (P * D) := by
    rw [List.getD_eq_getElem?_getD, List.getElem?_reverse (by omega), ← List.getD_eq_getElem?_getD]
    exact hfb _
  have e1 : StatesWithin (Q * D) (scaleStates (f.reverse.getD 0 0) R) (rested sos) :=
    (hsc _ _ hrev0).mono (le_of_eq (by rw [hQ]; ring))
  -- the backward pass
  obtain ⟨c, hcdef⟩ : ∃ c, c = n + i := ⟨_, rfl⟩
  have hcx : c < x.length := by omega
  have b2 := pass_backward (sos := sos) (E := K * (P * D) * ρ ^ c + Q * D * ρ ^ (f.length - 1 - c)) (r := 0) (c := c)
    H h0 (by positivity) (hfl.trans hfl0.symm) (by omega) (fun j hj => by
      rw [zero_add]
      have h2 : ρ ^ j ≤ ρ ^ c := pow_anti h0 h1 hj
      have h3 : 0 ≤ Q * D * ρ ^ (f.length - 1 - c) := by positivity
      calc _ ≤ K * (P * D) * ρ ^ j * ρ ^ j := mul_le_mul_of_nonneg_right (b1 j) (by positivity)
        _ ≤ K * (P * D) * ρ ^ c * ρ ^ c := by gcongr
        _ ≤ _ := mul_le_mul_of_nonneg_right (by linarith) (by positivity)) (hcr _) e1 (by
      have : 0 ≤ K * (P * D) * ρ ^ c := by positivity
      rw [pow_zero, mul_one]
      linarith)
  rw [hfl, pow_zero, mul_one, hf0, two_passes_rest (sos := sos) x c hcx] at b2
  -- from the truncated kernel to the kernel
  have b3 : |(∑ j ∈ Finset.range x.length, (∑ k ∈ Finset.range (x.length - max c j),
        impulseResponse sos k * impulseResponse sos (k + gap c j)) * x.getD j 0) -
      ∑ j ∈ Finset.range x.length, filtKernel sos (gap c j) * x.getD j 0| ≤ 3 * (C * P * g) * D * ρ ^ (x.length - c) := by
    rw [← Finset.sum_sub_distrib]
    refine (Finset.abs_sum_le_sum_abs _ _).trans ?_
    have hterm : ∀ j ∈ Finset.range x.length, |(∑ k ∈ Finset.range (x.length - max c j),
        impulseResponse sos k * impulseResponse sos (k + gap c j)) * x.getD j 0 - filtKernel sos (gap c j) * x.getD j 0| ≤
        C * (P * D) * ρ ^ (x.length - c) * (ρ ^ gap c j + ρ ^ (x.length - j)) := by
      intro j hj
      rw [Finset.mem_range] at hj
      rw [← sub_mul, abs_mul, abs_sub_comm]
      have ht := kernel_tail H hK h0 h1 (x.length - max c j) (gap c j)
      rw [← hg, ← hC] at ht
      have hp : ρ ^ (gap c j + 2 * (x.length - max c j)) ≤ ρ ^ (x.length - c) * (ρ ^ gap c j + ρ ^ (x.length - j)) := by
        rw [mul_add, ← pow_add, ← pow_add]
        rcases le_total j c with hjc | hjc
        · refine (pow_anti h0 h1 (m := x.length - c + gap c j) ?_).trans (le_add_of_nonneg_right (by positivity))
          rw [max_eq_left hjc]
          omega
        · refine (pow_anti h0 h1 (m := x.length - c + (x.length - j)) ?_).trans (le_add_of_nonneg_left (by positivity))
          rw [max_eq_right hjc]
          unfold gap
          omega
      calc _ ≤ C * ρ ^ (gap c j + 2 * (x.length - max c j)) * (P * D) := mul_le_mul ht (hE j) (abs_nonneg _) (by positivity)
        _ ≤ C * (ρ ^ (x.length - c) * (ρ ^ gap c j + ρ ^ (x.length - j))) * (P * D) :=
          mul_le_mul_of_nonneg_right (mul_le_mul_of_nonneg_left hp hC0) hPD
        _ = _ := by ring
    refine (Finset.sum_le_sum hterm).trans ?_
    rw [← Finset.mul_sum, Finset.sum_add_distrib]
    have s1 := sum_gap_le h0 h1 x.length c
    have s2 := sum_reflect_le h0 h1 x.length
    rw [← hg] at s1 s2
    have hpos : 0 ≤ C * (P * D) * ρ ^ (x.length - c) := by positivity
    nlinarith
  -- the ends
  have b4 : |(∑ j ∈ Finset.range x.length, filtKernel sos (gap c j) * x.getD j 0) - symConv (filtKernel sos) y i| ≤
      C * P * g * D * (ρ ^ i + ρ ^ (y.length - 1 - i)) := by
    have hmid : ∑ j ∈ Finset.range y.length, filtKernel sos (gap c (n + j)) * x.getD (n + j) 0 =
        symConv (filtKernel sos) y i := by
      unfold symConv
      refine Finset.sum_congr rfl fun j hj => ?_
      rw [Finset.mem_range] at hj
      rw [hx, extList_getD, if_pos (by omega), oddExt, if_neg (by omega), if_pos (by omega)]
      rw [show gap c (n + j) = gap i j by unfold gap; omega, show n + j - n = j by omega]
    rw [hxl, show y.length + 2 * n = n + y.length + n by omega, Finset.sum_range_add, Finset.sum_range_add, hmid,
      show ∀ a b c : ℝ, a + b + c - b = a + c by intros; ring, mul_add]
    refine (abs_add_le _ _).trans (add_le_add ?_ ?_)
    · refine (Finset.abs_sum_le_sum_abs _ _).trans ?_
      have hterm : ∀ j ∈ Finset.range n, |filtKernel sos (gap c j) * x.getD j 0| ≤ C * (P * D) * ρ ^ i * ρ ^ (n - j) := by
        intro j hj
        rw [Finset.mem_range] at hj
        rw [abs_mul]
        calc _ ≤ C * ρ ^ gap c j * (P * D) := mul_le_mul (hbound _) (hE j) (abs_nonneg _) (by positivity)
          _ = C * ρ ^ (i + (n - j)) * (P * D) := by rw [show gap c j = i + (n - j) by unfold gap; omega]
          _ = _ := by ring
      refine (Finset.sum_le_sum hterm).trans ?_
      rw [← Finset.mul_sum]
      have s2 := sum_reflect_le h0 h1 n
      rw [← hg] at s2
      have hpos : 0 ≤ C * (P * D) * ρ ^ i := by positivity
      nlinarith
    · refine (Finset.abs_sum_le_sum_abs _ _).trans ?_
      have hterm : ∀ j ∈ Finset.range n, |filtKernel sos (gap c (n + y.length + j)) * x.getD (n + y.length + j) 0| ≤
          C * (P * D) * ρ ^ (y.length - 1 - i) * ρ ^ j := by
        intro j hj
        rw [abs_mul]
        calc _ ≤ C * ρ ^ gap c (n + y.length + j) * (P * D) :=
              mul_le_mul (hbound _) (hE _) (abs_nonneg _) (by positivity)
          _ ≤ C * ρ ^ (y.length - 1 - i + j) * (P * D) := by
              refine mul_le_mul_of_nonneg_right (mul_le_mul_of_nonneg_left (pow_anti h0 h1 ?_) hC0) hPD
              unfold gap
              omega
          _ = _ := by ring
      refine (Finset.sum_le_sum hterm).trans ?_
      rw [← Finset.mul_sum]
      have s2 := sum_le_geom h0 h1 n
      rw [← hg] at s2
      have hpos : 0 ≤ C * (P * D) * ρ ^ (y.length - 1 - i) := by positivity
      nlinarith
  -- together
  rw [show n + (y.length - 1 - i) = x.length - 1 - c by omega]
  have p1 : ρ ^ c ≤ ρ ^ i := pow_anti h0 h1 (by omega)
  have p2 : ρ ^ (x.length - 1 - c) ≤ ρ ^ (y.length - 1 - i) := pow_anti h0 h1 (by omega)
  have p3 : ρ ^ (x.length - c) ≤ ρ ^ (y.length - 1 - i) := pow_anti h0 h1 (by omega)
  have q1 : 0 < ρ ^ i := by positivity
  have q2 : 0 < ρ ^ (y.length - 1 - i) := by positivity
  refine (abs_sub_le _ _ _).trans ((add_le_add_right (abs_sub_le _ _ _) _).trans
    ((add_le_add b2 (add_le_add b3 b4)).trans ?_))
  have m1 : K * (K * (P * D) * ρ ^ c) ≤ K * (K * P) * D * ρ ^ i := by
    rw [show K * (K * (P * D) * ρ ^ c) = K * (K * P) * D * ρ ^ c by ring]
    gcongr
  have m2 : K * (Q * D * ρ ^ (x.length - 1 - c)) ≤ K * Q * D * ρ ^ (y.length - 1 - i) := by
    rw [show K * (Q * D * ρ ^ (x.length - 1 - c)) = K * Q * D * ρ ^ (x.length - 1 - c) by ring]
    gcongr
  have m3 : 3 * (C * P * g) * D * ρ ^ (x.length - c) ≤ 3 * (C * P * g) * D * ρ ^ (y.length - 1 - i) := by gcongr
  have r1 : 0 ≤ C * D * (ρ ^ i + ρ ^ (y.length - 1 - i)) := by positivity
  have r2 : 0 ≤ K * (K * P) * D * ρ ^ (y.length - 1 - i) := by positivity
  have r3 : 0 ≤ K * Q * D * ρ ^ i := by positivity
  have r4 : 0 ≤ 3 * (C * P * g) * D * ρ ^ i := by positivity
  rw [mul_add K]
  linarith

/-- **C118** Zero-phase filtering commutes with time reversal up to an amount that decays geometrically with the distance
to the ends. -/
theorem C118_reverse (sos : List (Sos ℝ)) (hs : ∀ s ∈ sos, Stable s) :
    ∃ K ρ : ℝ, 0 < ρ ∧ ρ < 1 ∧ ∀ (D : ℝ) (y z z' : List ℝ), (∀ v ∈ y, |v| ≤ D) → sosfiltfiltDyn y sos = .ok z →
      sosfiltfiltDyn y.reverse sos = .ok z' →
      ∀ i < y.length, |z.getD i 0 - z'.reverse.getD i 0| ≤ K * D * (ρ ^ i + ρ ^ (y.length - 1 - i)) := by
  obtain ⟨φ, K, ρ, h0, h1, -, -, H⟩ := C118_kernel sos hs
  refine ⟨2 * K, ρ, h0, h1, fun D y z z' hy hz hz' i hi => ?_⟩
  obtain ⟨r, -, -, -, e⟩ := filtfilt_ok hz'
  have hzl : z'.length = y.length := by
    have := (C30_length _ _ _ hz')
    simpa using this
  have b1 := H D y z hy hz i hi
  have b2 := H D y.reverse z' (by simpa using hy) hz' (y.length - 1 - i) (by simp; omega)
  rw [List.length_reverse, show y.length - 1 - (y.length - 1 - i) = i by omega] at b2
  have hsym : symConv φ y.reverse (y.length - 1 - i) = symConv φ y i := by
    unfold symConv
    rw [List.length_reverse, ← Finset.sum_range_reflect]
    refine Finset.sum_congr rfl fun j hj => ?_
    rw [Finset.mem_range] at hj
    rw [List.getD_eq_getElem?_getD, List.getElem?_reverse (by omega), ← List.getD_eq_getElem?_getD,
      show gap (y.length - 1 - i) (y.length - 1 - j) = gap i j by unfold gap; omega,
      show y.length - 1 - (y.length - 1 - j) = j by omega]
  rw [hsym, abs_sub_comm] at b2
  rw [List.getD_eq_getElem?_getD (l := z'.reverse), List.getElem?_reverse (by omega), ← List.getD_eq_getElem?_getD, hzl]
  refine (abs_sub_le _ (symConv φ y i) _).trans ?_
  linarith

/-- **C118** The kernel has its largest value in the middle. -/
theorem C118_peak (sos : List (Sos ℝ)) (φ : ℕ → ℝ)
    (h : ∀ d, HasSum (fun k => impulseResponse sos k * impulseResponse sos (k + d)) (φ d)) (d : ℕ) : |φ d| ≤ φ 0 := by
  have h0 := h 0
  simp only [Nat.add_zero] at h0
  have hn : ∀ k, 0 ≤ impulseResponse sos k * impulseResponse sos k := fun k => mul_self_nonneg _
  have ht : (∑' k, impulseResponse sos (k + d) * impulseResponse sos (k + d)) ≤ φ 0 := by
    have e := h0.summable.sum_add_tsum_nat_add d
    rw [h0.tsum_eq] at e
    rw [← e]
    exact le_add_of_nonneg_left (Finset.sum_nonneg fun k _ => hn k)
  have hs := (summable_nat_add_iff d).mpr h0.summable
  have h2 := h0.add hs.hasSum
  rw [abs_le]
  constructor
  · have := hasSum_le (fun k => (by nlinarith [sq_nonneg (impulseResponse sos k + impulseResponse sos (k + d))] :
      -(2 * (impulseResponse sos k * impulseResponse sos (k + d))) ≤ impulseResponse sos k * impulseResponse sos k +
        impulseResponse sos (k + d) * impulseResponse sos (k + d))) ((h d).mul_left 2).neg h2
    linarith
  · have := hasSum_le (fun k => (by nlinarith [sq_nonneg (impulseResponse sos k - impulseResponse sos (k + d))] :
      2 * (impulseResponse sos k * impulseResponse sos (k + d)) ≤ impulseResponse sos k * impulseResponse sos k +
        impulseResponse sos (k + d) * impulseResponse sos (k + d))) ((h d).mul_left 2) h2
    linarith

/-- **C118** Exactly, zero-phase filtering does not commute with time reversal: seven samples, one section. -/
theorem C118_reverse_false :
    ∃ (sos : List (Sos ℚ)) (y z z' : List ℚ), (sosfiltfiltDyn y sos = .ok z) ∧ (sosfiltfiltDyn y.reverse sos = .ok z') ∧
      z'.reverse ≠ z := by
  refine ⟨[⟨1, 0, 0, 1, -1 / 2, 0, 0, 0⟩], [1, 0, 0, 0, 0, 0, 0], ?_⟩
  have h : (do
      let z ← sosfiltfiltDyn [1, 0, 0, 0, 0, 0, 0] [(⟨1, 0, 0, 1, -1 / 2, 0, 0, 0⟩ : Sos ℚ)]
      let z' ← sosfiltfiltDyn [1, 0, 0, 0, 0, 0, 0].reverse [(⟨1, 0, 0, 1, -1 / 2, 0, 0, 0⟩ : Sos ℚ)]
      pure (decide (z'.reverse ≠ z)) : Res Bool) = .ok true := by decide +kernel
  cases h1 : sosfiltfiltDyn [1, 0, 0, 0, 0, 0, 0] [(⟨1, 0, 0, 1, -1 / 2, 0, 0, 0⟩ : Sos ℚ)] with
  | error e => rw [h1] at h; simp [Bind.bind, Except.bind] at h
  | ok z =>
    cases h2 : sosfiltfiltDyn [1, 0, 0, 0, 0, 0, 0].reverse [(⟨1, 0, 0, 1, -1 / 2, 0, 0, 0⟩ : Sos ℚ)] with
    | error e => rw [h1, h2] at h; simp [Bind.bind, Except.bind] at h
    | ok z' =>
      rw [h1, h2] at h
      simp [Bind.bind, Except.bind, pure, Except.pure] at h
      exact ⟨z, z', rfl, rfl, h⟩

/-- **C118** In floating point, up to the rounding error, which does not grow with the signal. -/
theorem C118_float (sos : List (Sos ℝ)) (hs : ∀ s ∈ sos, Stable s) (hn : ∀ s ∈ sos, s.a0 + s.a1 + s.a2 ≠ 0) :
    ∃ (φ : ℕ → ℝ) (K ρ u0 : ℝ), 0 < ρ ∧ ρ < 1 ∧ 0 < u0 ∧
      (∀ d, HasSum (fun k => impulseResponse sos k * impulseResponse sos (k + d)) (φ d)) ∧
      ∀ r : Rounding, r.u ≤ u0 → r.t ≤ r.u → ∀ (D : ℝ) (y : List ℝ), (∀ v ∈ y, |v| ≤ D) →
        3 * sosNtaps sos < y.length →
        ∃ z, sosfiltfiltDyn (y.map (Fl.mk (r := r))) (sos.map (flSection r)) = .ok z ∧
          ∀ i < y.length, |(z.getD i 0).val - symConv φ y i| ≤
            K * (D * (ρ ^ i + ρ ^ (y.length - 1 - i)) + (r.u * D + r.t)) := by
  obtain ⟨φ, K1, ρ, h0, h1, hφ, -, H1⟩ := C118_kernel sos hs
  obtain ⟨K2, u0, hu0, H2⟩ := C94_filtfilt sos hs hn
  refine ⟨φ, |K1| + |K2|, ρ, u0, h0, h1, hu0, hφ, fun r hu ht D y hy hl => ?_⟩
  have hD : 0 ≤ D := (abs_nonneg _).trans (hy y[0] (List.getElem_mem (by omega)))
  obtain ⟨z, zf, hz, hzf, -, -, e⟩ := H2 r hu ht D y hy (by omega)
  refine ⟨zf, hzf, fun i hi => ?_⟩
  have b := H1 D y z hy hz i hi
  have b1 := e i
  have hx : 0 ≤ D * (ρ ^ i + ρ ^ (y.length - 1 - i)) := by positivity
  have hu' : 0 ≤ r.u * D + r.t := add_nonneg (mul_nonneg r.u_nonneg hD) r.t_nonneg
  have c1 : K1 * D * (ρ ^ i + ρ ^ (y.length - 1 - i)) ≤ |K1| * (D * (ρ ^ i + ρ ^ (y.length - 1 - i))) := by
    rw [mul_assoc]
    exact mul_le_mul_of_nonneg_right (le_abs_self _) hx
  have c2 : K2 * (r.u * D + r.t) ≤ |K2| * (r.u * D + r.t) := mul_le_mul_of_nonneg_right (le_abs_self _) hu'
  have t1 := abs_sub_le (zf.getD i 0).val (z.getD i 0) (symConv φ y i)
  have p1 : 0 ≤ |K1| * (r.u * D + r.t) := by positivity
  have p2 : 0 ≤ |K2| * (D * (ρ ^ i + ρ ^ (y.length - 1 - i))) := by positivity
  nlinarith

/-- In the middle of a signal of 1001 samples the result is the convolution up to `2 K ρ^500`. -/
example (y : List ℝ) (hy : y.length = 1001) (hb : ∀ v ∈ y, |v| ≤ 1) :
    ∃ z, sosfiltfiltDyn y [demoSection 0] = .ok z ∧
      ∃ (φ : ℕ → ℝ) (K ρ : ℝ), ρ < 1 ∧ |z.getD 500 0 - symConv φ y 500| ≤ K * 1 * (ρ ^ 500 + ρ ^ (1001 - 1 - 500)) := by
  have hnp : ¬ Panics (sosfiltfiltDyn y [demoSection 0]) := by
    rw [(C30_panics_iff _ _).1]
    simp [sosNtaps, NoDenominator, demoSection]
    omega
  have hub := (C30_panics_iff y [demoSection 0]).2
  obtain ⟨φ, K, ρ, -, h1, -, -, H⟩ := C118_kernel [demoSection 0] (demo_stable 0)
  cases h : sosfiltfiltDyn y [demoSection 0] with
  | ok z =>
    refine ⟨z, rfl, φ, K, ρ, h1, ?_⟩
    have := H 1 y z hb h 500 (by omega)
    rwa [hy] at this
  | error e =>
    rw [h] at hnp hub
    rw [panics_error] at hnp
    exact absurd (by rw [not_not.mp hnp]) hub

/-- The response of a first-order section to an impulse is `1, 1/2, 1/4, …`: the kernel is not trivial. -/
example : impulseResponse [⟨1, 0, 0, 1, -1 / 2, 0, 7, 0⟩] 0 = 1 ∧ impulseResponse [⟨1, 0, 0, 1, -1 / 2, 0, 7, 0⟩] 1 = 1 / 2 := by
  constructor <;> norm_num [impulseResponse, sosfiltDyn_eq, mapMut, sosfiltItem, foldMut, itemStep]

end SciRs.Props

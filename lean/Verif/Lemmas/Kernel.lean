import Verif.Props.Forgetting
import Verif.Spec.Kernel
import Mathlib.Analysis.SpecificLimits.Normed

/-! Helper lemmas: the kernel of forward-backward filtering. -/

namespace SciRs

open Spec Props PowerSeries

theorem rested_eq (sos : List (Sos ℝ)) : rested sos = sos.map fun s => { s with zi0 := 0, zi1 := 0 } := by
  simp [rested, scaleStates]

theorem rested_congr {l l' : List (Sos ℝ)} (h : l.map coeffs = l'.map coeffs) : rested l = rested l' := by
  have e : ∀ l : List (Sos ℝ), rested l =
      (l.map coeffs).map fun c => ⟨c.1, c.2.1, c.2.2.1, c.2.2.2.1, c.2.2.2.2.1, c.2.2.2.2.2, 0, 0⟩ := by
    intro l
    rw [rested_eq, List.map_map]
    rfl
  rw [e, e, h]

theorem impulse_of_long (sos : List (Sos ℝ)) (k N : ℕ) (h : k ≤ N) :
    (sosfiltDyn (1 :: List.replicate N 0) (rested sos)).1.getD k 0 = impulseResponse sos k := by
  have e : (1 :: List.replicate N (0 : ℝ)).take (k + 1) = 1 :: List.replicate k 0 := by
    rw [List.take_succ_cons, List.take_replicate, Nat.min_eq_left h]
  have := C24_causal (1 :: List.replicate N (0 : ℝ)) (rested sos) (k + 1)
  rw [e] at this
  unfold impulseResponse
  rw [← rested_eq, ← this, List.getD_eq_getElem?_getD, List.getD_eq_getElem?_getD, List.getElem?_take, if_pos (by omega)]

/-- From rest the output is the convolution of the input with the impulse response. -/
theorem rest_conv (sos : List (Sos ℝ)) (x : List ℝ) (i : ℕ) (hi : i < x.length) :
    (sosfiltDyn x (rested sos)).1.getD i 0 =
      ∑ j ∈ Finset.range (i + 1), impulseResponse sos (i - j) * x.getD j 0 := by
  obtain ⟨N, hN⟩ : ∃ N, x.length = N + 1 := ⟨x.length - 1, by omega⟩
  obtain ⟨l, hl⟩ : ∃ l, l = rested sos := ⟨_, rfl⟩
  have hr : AtRest l := hl ▸ rested_rest sos
  obtain ⟨δ, hδ⟩ : ∃ δ : List ℝ, δ = 1 :: List.replicate N 0 := ⟨_, rfl⟩
  have lδ : δ.length = x.length := by rw [hδ, hN]; simp
  have sδ : signal δ = 1 := by
    rw [hδ]
    ext n
    rw [signal, PowerSeries.coeff_mk, PowerSeries.coeff_one]
    cases n with
    | zero => simp
    | succ n =>
      rw [List.getD_cons_succ, List.getD_eq_getElem?_getD, List.getElem?_replicate]
      split <;> simp
  have h1 : (X : PowerSeries ℝ) ^ x.length ∣
      signal (sosfiltDyn x l).1 * (l.map den).prod - signal x * (l.map num).prod := by
    rw [X_pow_dvd_iff]
    intro m hm
    rw [map_sub, C23_transfer l hr x m hm, sub_self]
  have h2 : (X : PowerSeries ℝ) ^ x.length ∣
      signal (sosfiltDyn δ l).1 * (l.map den).prod - (l.map num).prod := by
    rw [X_pow_dvd_iff]
    intro m hm
    rw [map_sub, C23_transfer l hr δ m (by omega), sδ, one_mul, sub_self]
  have h3 : (X : PowerSeries ℝ) ^ x.length ∣
      (l.map den).prod * (signal (sosfiltDyn x l).1 - signal x * signal (sosfiltDyn δ l).1) := by
    have e3 : (l.map den).prod * (signal (sosfiltDyn x l).1 - signal x * signal (sosfiltDyn δ l).1) =
        (signal (sosfiltDyn x l).1 * (l.map den).prod - signal x * (l.map num).prod) -
        signal x * (signal (sosfiltDyn δ l).1 * (l.map den).prod - (l.map num).prod) := by ring
    rw [e3]
    exact dvd_sub h1 (Dvd.dvd.mul_left h2 _)
  have h4 := (isUnit_den_prod l).dvd_mul_left.mp h3
  rw [X_pow_dvd_iff] at h4
  have h5 := h4 i hi
  rw [map_sub, sub_eq_zero, PowerSeries.coeff_mul, Finset.Nat.sum_antidiagonal_eq_sum_range_succ_mk] at h5
  simp only [signal, PowerSeries.coeff_mk] at h5
  rw [← hl, h5]
  refine Finset.sum_congr rfl fun j hj => ?_
  rw [mul_comm, hδ, hl, impulse_of_long sos (i - j) N (by omega)]

/-! ### The kernel -/

/-- The autocorrelation of the impulse response. -/
noncomputable def filtKernel (sos : List (Sos ℝ)) (d : ℕ) : ℝ :=
  ∑' k, impulseResponse sos k * impulseResponse sos (k + d)

section kernel

variable {sos : List (Sos ℝ)} {K ρ : ℝ}

theorem impulse_bound (H : RunBound sos K ρ) (h0 : 0 < ρ) (k : ℕ) : |impulseResponse sos k| ≤ K * ρ ^ k := by
  have hz := C24_shift (rested sos) (rested_rest sos) [] (k + 1)
  have hnil : sosfiltDyn ([] : List ℝ) (rested sos) = ([], rested sos) := by rw [sosfiltDyn_eq]; rfl
  rw [List.append_nil, hnil, List.append_nil] at hz
  have hg : ∀ n i, (List.replicate n (0 : ℝ)).getD i 0 = 0 := by
    intro n i
    rw [List.getD_eq_getElem?_getD, List.getElem?_replicate]
    split <;> rfl
  have := (H 1 ρ (rested sos) (rested sos) (.inl rfl) zero_le_one (scaled_coeffs _ _)
    (StatesWithin.refl zero_le_one _) (1 :: List.replicate k 0) (List.replicate (k + 1) 0) (by simp)).1 k (fun i _ => by
      rw [hg]
      cases i with
      | zero => simp
      | succ i =>
        rw [List.getD_cons_succ, hg, sub_self, abs_zero]
        positivity)
  rw [hz, hg, sub_zero, mul_one, rested_eq] at this
  exact this

theorem kernel_term (H : RunBound sos K ρ) (hK : 1 ≤ K) (h0 : 0 < ρ) (h1 : ρ < 1) (n d k : ℕ) :
    ‖impulseResponse sos (k + n) * impulseResponse sos (k + n + d)‖ ≤ K ^ 2 * ρ ^ (d + 2 * n) * ρ ^ k := by
  rw [Real.norm_eq_abs, abs_mul]
  calc _ ≤ (K * ρ ^ (k + n)) * (K * ρ ^ (k + n + d)) :=
        mul_le_mul (impulse_bound H h0 _) (impulse_bound H h0 _) (abs_nonneg _) (by positivity)
    _ = K ^ 2 * ρ ^ (d + 2 * n) * ρ ^ (k + k) := by ring
    _ ≤ K ^ 2 * ρ ^ (d + 2 * n) * ρ ^ k := mul_le_mul_of_nonneg_left (pow_anti h0 h1 (by omega)) (by positivity)

theorem geom_hasSum (h0 : 0 < ρ) (h1 : ρ < 1) (C : ℝ) : HasSum (fun k => C * ρ ^ k) (C * (1 - ρ)⁻¹) :=
  (hasSum_geometric_of_lt_one h0.le h1).mul_left C

theorem kernel_summable (H : RunBound sos K ρ) (hK : 1 ≤ K) (h0 : 0 < ρ) (h1 : ρ < 1) (d : ℕ) :
    Summable fun k => impulseResponse sos k * impulseResponse sos (k + d) := by
  refine Summable.of_norm_bounded (geom_hasSum h0 h1 (K ^ 2 * ρ ^ (d + 2 * 0))).summable fun k => ?_
  exact kernel_term H hK h0 h1 0 d k

/-- Truncated, the kernel is off by a small amount. -/
theorem kernel_tail (H : RunBound sos K ρ) (hK : 1 ≤ K) (h0 : 0 < ρ) (h1 : ρ < 1) (n d : ℕ) :
    |filtKernel sos d - ∑ k ∈ Finset.range n, impulseResponse sos k * impulseResponse sos (k + d)| ≤
      K ^ 2 * (1 - ρ)⁻¹ * ρ ^ (d + 2 * n) := by
  have hs := kernel_summable H hK h0 h1 d
  have e := hs.sum_add_tsum_nat_add n
  rw [filtKernel, ← e, add_sub_cancel_left, ← Real.norm_eq_abs]
  refine (tsum_of_norm_bounded (geom_hasSum h0 h1 (K ^ 2 * ρ ^ (d + 2 * n))) fun k => kernel_term H hK h0 h1 n d k).trans
    (le_of_eq (by ring))

theorem kernel_bound (H : RunBound sos K ρ) (hK : 1 ≤ K) (h0 : 0 < ρ) (h1 : ρ < 1) (d : ℕ) :
    |filtKernel sos d| ≤ K ^ 2 * (1 - ρ)⁻¹ * ρ ^ d := by
  have := kernel_tail H hK h0 h1 0 d
  simpa using this

/-- Both passes from rest. -/
theorem two_passes_rest (x : List ℝ) (c : ℕ) (hc : c < x.length) :
    (sosfiltDyn (sosfiltDyn x (rested sos)).1.reverse (rested sos)).1.getD (x.length - 1 - c) 0 =
      ∑ j ∈ Finset.range x.length, (∑ k ∈ Finset.range (x.length - max c j),
        impulseResponse sos k * impulseResponse sos (k + gap c j)) * x.getD j 0 := by
  obtain ⟨h, hh⟩ : ∃ h, h = impulseResponse sos := ⟨_, rfl⟩
  obtain ⟨L, hL⟩ : ∃ L, L = x.length := ⟨_, rfl⟩
  obtain ⟨f, hf⟩ : ∃ f, f = (sosfiltDyn x (rested sos)).1 := ⟨_, rfl⟩
  have hfl : f.length = L := by rw [hf, (C24_length _ _).1, hL]
  rw [← hh, ← hL, ← hf, rest_conv _ _ _ (by rw [List.length_reverse, hfl]; omega), ← hh]
  -- the backward pass, read forwards
  have e1 : ∑ j ∈ Finset.range (L - 1 - c + 1), h (L - 1 - c - j) * f.reverse.getD j 0 =
      ∑ m ∈ Finset.range L, if c ≤ m then h (m - c) * f.getD m 0 else 0 := by
    rw [← Finset.sum_filter]
    refine Finset.sum_bij' (fun j _ => L - 1 - j) (fun m _ => L - 1 - m) ?_ ?_ ?_ ?_ ?_
    · intro j hj
      rw [Finset.mem_range] at hj
      rw [Finset.mem_filter, Finset.mem_range]
      omega
    · intro m hm
      rw [Finset.mem_filter, Finset.mem_range] at hm
      rw [Finset.mem_range]
      omega
    · intro j hj
      rw [Finset.mem_range] at hj
      omega
    · intro m hm
      rw [Finset.mem_filter, Finset.mem_range] at hm
      omega
    · intro j hj
      rw [Finset.mem_range] at hj
      rw [List.getD_eq_getElem?_getD, List.getElem?_reverse (by omega), ← List.getD_eq_getElem?_getD, hfl]
      congr 2
      omega
  rw [e1]
  have e2 : ∀ m ∈ Finset.range L, (if c ≤ m then h (m - c) * f.getD m 0 else 0) =
      ∑ j ∈ Finset.range L, if c ≤ m ∧ j ≤ m then h (m - c) * h (m - j) * x.getD j 0 else 0 := by
    intro m hm
    rw [Finset.mem_range] at hm
    by_cases hcm : c ≤ m
    · rw [if_pos hcm, hf, rest_conv _ _ _ (by omega), ← hh, Finset.mul_sum]
      rw [show Finset.range (m + 1) = (Finset.range L).filter (fun j => j ≤ m) by
        ext j; simp only [Finset.mem_range, Finset.mem_filter]; omega, Finset.sum_filter]
      refine Finset.sum_congr rfl fun j _ => ?_
      by_cases hj : j ≤ m
      · rw [if_pos hj, if_pos ⟨hcm, hj⟩]; ring
      · rw [if_neg hj, if_neg (by tauto)]
    · rw [if_neg hcm]
      refine (Finset.sum_eq_zero fun j _ => ?_).symm
      rw [if_neg (by tauto)]
  rw [Finset.sum_congr rfl e2, Finset.sum_comm]
  refine Finset.sum_congr rfl fun j hj => ?_
  rw [Finset.mem_range] at hj
  rw [Finset.sum_mul, ← Finset.sum_filter]
  refine Finset.sum_bij' (fun m _ => m - max c j) (fun k _ => k + max c j) ?_ ?_ ?_ ?_ ?_
  · intro m hm
    rw [Finset.mem_filter, Finset.mem_range] at hm
    rw [Finset.mem_range]
    omega
  · intro k hk
    rw [Finset.mem_range] at hk
    rw [Finset.mem_filter, Finset.mem_range]
    omega
  · intro m hm
    rw [Finset.mem_filter, Finset.mem_range] at hm
    omega
  · intro k hk
    omega
  · intro m hm
    rw [Finset.mem_filter, Finset.mem_range] at hm
    rcases le_total c j with hcj | hcj
    · rw [max_eq_right hcj, gap, show m - j + (c - j + (j - c)) = m - c by omega]
      ring
    · rw [max_eq_left hcj, gap, show m - c + (c - j + (j - c)) = m - j by omega]

theorem sum_le_geom (h0 : 0 < ρ) (h1 : ρ < 1) (n : ℕ) : ∑ k ∈ Finset.range n, ρ ^ k ≤ (1 - ρ)⁻¹ := by
  rw [← tsum_geometric_of_lt_one h0.le h1]
  exact (summable_geometric_of_lt_one h0.le h1).sum_le_tsum _ fun _ _ => by positivity

theorem sum_reflect_le (h0 : 0 < ρ) (h1 : ρ < 1) (n : ℕ) : ∑ j ∈ Finset.range n, ρ ^ (n - j) ≤ (1 - ρ)⁻¹ := by
  rw [← Finset.sum_range_reflect]
  refine (Finset.sum_le_sum fun j hj => ?_).trans (sum_le_geom h0 h1 n)
  rw [Finset.mem_range] at hj
  exact pow_anti h0 h1 (by omega)

theorem sum_gap_le (h0 : 0 < ρ) (h1 : ρ < 1) (n c : ℕ) : ∑ j ∈ Finset.range n, ρ ^ gap c j ≤ 2 * (1 - ρ)⁻¹ := by
  have hle : ∀ j ∈ Finset.range n, ρ ^ gap c j ≤ (if j < c + 1 then ρ ^ (c - j) else 0) + (if c ≤ j then ρ ^ (j - c) else 0) := by
    intro j _
    unfold gap
    rcases lt_or_ge j (c + 1) with h | h
    · rw [if_pos h, show c - j + (j - c) = c - j by omega]
      refine le_add_of_nonneg_right ?_
      split <;> positivity
    · rw [if_neg (by omega), if_pos (by omega), show c - j + (j - c) = j - c by omega, zero_add]
  refine (Finset.sum_le_sum hle).trans ?_
  rw [Finset.sum_add_distrib, two_mul]
  refine add_le_add ?_ ?_
  · rw [← Finset.sum_filter]
    calc _ ≤ ∑ j ∈ Finset.range (c + 1), ρ ^ (c - j) := by
          refine Finset.sum_le_sum_of_subset_of_nonneg ?_ fun _ _ _ => by positivity
          intro j hj
          rw [Finset.mem_filter] at hj
          exact Finset.mem_range.mpr hj.2
      _ = ∑ j ∈ Finset.range (c + 1), ρ ^ j := by
          rw [← Finset.sum_range_reflect]
          refine Finset.sum_congr rfl fun j hj => ?_
          rw [Finset.mem_range] at hj
          congr 1
          omega
      _ ≤ _ := sum_le_geom h0 h1 _
  · rw [← Finset.sum_filter]
    calc _ = ∑ j ∈ ((Finset.range n).filter (fun j => c ≤ j)).image (fun j => j - c), ρ ^ j := by
          rw [Finset.sum_image]
          intro a ha b hb hab
          simp only [Finset.coe_filter, Set.mem_setOf_eq] at ha hb
          simp only at hab
          omega
      _ ≤ ∑ j ∈ Finset.range n, ρ ^ j := by
          refine Finset.sum_le_sum_of_subset_of_nonneg ?_ fun _ _ _ => by positivity
          intro j hj
          obtain ⟨a, ha, rfl⟩ := Finset.mem_image.mp hj
          rw [Finset.mem_filter, Finset.mem_range] at ha
          exact Finset.mem_range.mpr (by omega)
      _ ≤ _ := sum_le_geom h0 h1 _

end kernel

end SciRs

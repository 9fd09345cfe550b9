import Verif.Model.SquareFloat
import Verif.Props.Square
import Mathlib.Analysis.Real.Pi.Bounds

/-!
# C78: the square wave in floating point
-/

namespace SciRs.Props

open SciRs SciRs.Wave SciRs.Spec

/-- `x` is the exact phase of `t` for the period `P`: it lies in `[0, P)` and differs from `t` by whole
periods. -/
def PhaseMod (P x t : ℝ) : Prop := 0 ≤ x ∧ x < P ∧ ∃ n : ℤ, t = x + n * P

theorem phaseMod_unique (P x y t : ℝ) (hx : PhaseMod P x t) (hy : PhaseMod P y t) : x = y := by
  obtain ⟨a, b, n, hn⟩ := hx
  obtain ⟨c, d, m, hm⟩ := hy
  have hP : 0 < P := by linarith
  have h : ((m - n : ℤ) : ℝ) * P = x - y := by push_cast; linarith
  have h1 : ((m - n : ℤ) : ℝ) < 1 := by
    by_contra hc
    have := mul_le_mul_of_nonneg_right (not_lt.mp hc) hP.le
    linarith
  have h2 : (-1 : ℝ) < ((m - n : ℤ) : ℝ) := by
    by_contra hc
    have := mul_le_mul_of_nonneg_right (not_lt.mp hc) hP.le
    linarith
  have h3 : m - n = 0 := by
    have a1 : m - n < 1 := by exact_mod_cast h1
    have a2 : -1 < m - n := by exact_mod_cast h2
    omega
  rw [h3] at h
  push_cast at h
  linarith

/-- Reducing a time: for a time `≥ 0` the remainder is the phase, for a negative time it is the phase or the
phase minus one period. -/
theorem fmod_phase (P t : ℝ) (hP : 0 < P) :
    (PhaseMod P (fmod t P) t) ∨ (t < 0 ∧ fmod t P < 0 ∧ PhaseMod P (fmod t P + P) t) := by
  by_cases ht : 0 ≤ t / P
  · have h1 := Int.floor_le (t / P)
    have h2 := Int.lt_floor_add_one (t / P)
    rw [le_div_iff₀ hP] at h1
    rw [div_lt_iff₀ hP] at h2
    have e : fmod t P = t - P * ⌊t / P⌋ := by
      unfold fmod; rw [if_pos ht]
    left
    rw [e]
    exact ⟨by linarith, by linarith, ⌊t / P⌋, by ring⟩
  · have h1 := Int.le_ceil (t / P)
    have h2 := Int.ceil_lt_add_one (t / P)
    rw [div_le_iff₀ hP] at h1
    rw [← sub_lt_iff_lt_add, lt_div_iff₀ hP] at h2
    have e : fmod t P = t - P * ⌈t / P⌉ := by
      unfold fmod; rw [if_neg ht]
    have ht' : t < 0 := by
      by_contra hc
      exact ht (div_nonneg (not_lt.mp hc) hP.le)
    by_cases hneg : fmod t P < 0
    · right
      refine ⟨ht', hneg, ?_⟩
      rw [e] at hneg ⊢
      exact ⟨by linarith, by linarith, ⌈t / P⌉ - 1, by push_cast; ring⟩
    · left
      rw [e] at hneg ⊢
      exact ⟨by linarith, by linarith, ⌈t / P⌉, by ring⟩

/-- The phase the code works with. -/
noncomputable def computedPhase (r : Rounding) (P t : ℝ) : ℝ :=
  if fmod t P < 0 then r.rnd (fmod t P + P) else fmod t P

section

variable (r : Rounding) (P : ℝ) (hP : 0 < P) (hr : r.rnd P = P)
include hP hr

theorem computedPhase_bounds (t x : ℝ) (hx : PhaseMod P x t) :
    0 ≤ computedPhase r P t ∧ computedPhase r P t ≤ P ∧ |computedPhase r P t - x| ≤ r.u * P + r.t ∧
      (0 ≤ t → computedPhase r P t = x) := by
  have hu := r.u_nonneg
  have htt := r.t_nonneg
  have hpos : 0 ≤ r.u * P + r.t := by positivity
  unfold computedPhase
  rcases fmod_phase P t hP with h | ⟨ht, hn, h⟩
  · have e := phaseMod_unique P _ _ t h hx
    rw [if_neg (not_lt.mpr h.1), e]
    exact ⟨hx.1, hx.2.1.le, by rw [sub_self, abs_zero]; exact hpos, fun _ => rfl⟩
  · have e := phaseMod_unique P _ _ t h hx
    rw [if_pos hn, e]
    refine ⟨?_, ?_, ?_, fun hc => absurd ht (not_lt.mpr hc)⟩
    · have := r.mono 0 x hx.1
      rwa [r.zero] at this
    · have := r.mono x P hx.2.1.le
      rwa [hr] at this
    · refine (r.err x).trans ?_
      have : r.u * |x| ≤ r.u * P := mul_le_mul_of_nonneg_left (by rw [abs_of_nonneg hx.1]; exact hx.2.1.le) hu
      linarith

theorem phaseMod_exists (t : ℝ) : ∃ x, PhaseMod P x t := by
  rcases fmod_phase P t hP with h | ⟨_, _, h⟩
  · exact ⟨_, h⟩
  · exact ⟨_, h⟩

theorem squareFl_ok (t : List ℝ) (duty : ℝ) (h0 : 0 ≤ duty) (h1 : duty ≤ 1) :
    squareFl r P t duty =
      .ok (t.map fun v => if computedPhase r P v < r.rnd (P * duty) then 1 else -1) := by
  unfold squareFl
  rw [check_true ⟨h0, h1⟩, ok_bind]
  refine mapv_ok _ _ (fun v => ?_) t
  obtain ⟨x, hx⟩ := phaseMod_exists r P hP hr v
  have hb := computedPhase_bounds r P hP hr v x hx
  unfold computedPhase at hb ⊢
  unfold squareFlAt
  dsimp only
  rw [check_true ⟨hb.1, hb.2.1⟩]
  rfl

/-- **C78** In any arithmetic in which the constant `P` is representable the call panics exactly when the duty
cycle is outside `[0, 1]` (the `debug_assert!` never fires); otherwise the result has as many elements as the
input and each is `1` or `-1`. -/
theorem C78_total (t : List ℝ) (duty : ℝ) :
    (Panics (squareFl r P t duty) ↔ duty < 0 ∨ 1 < duty) ∧
    ∀ y, squareFl r P t duty = .ok y → y.length = t.length ∧ ∀ v ∈ y, v = 1 ∨ v = -1 := by
  by_cases h : 0 ≤ duty ∧ duty ≤ 1
  · rw [squareFl_ok r P hP hr _ _ h.1 h.2]
    refine ⟨?_, ?_⟩
    · simp only [panics_ok, false_iff, not_or, not_lt]
      exact h
    · rintro y hy
      cases hy
      refine ⟨by simp, fun v hv => ?_⟩
      obtain ⟨w, _, rfl⟩ := List.mem_map.mp hv
      split <;> simp
  · unfold squareFl
    rw [check_false h]
    refine ⟨?_, fun y hy => by simp at hy⟩
    simp only [error_bind, panics_error, ne_eq, reduceCtorEq, not_false_eq_true, true_iff]
    by_contra hcon
    push Not at hcon
    exact h hcon

/-- **C78** Away from the two edges of the wave rounding has no effect: with `x` the exact phase of the time
for the period `P`, the value is `1` when `x` lies below `P·duty` by more than `2(uP + t)`, and `-1` when `x`
lies above it by at least as much. -/
theorem C78_value (t : List ℝ) (duty : ℝ) (h0 : 0 ≤ duty) (h1 : duty ≤ 1) :
    ∃ y, squareFl r P t duty = .ok y ∧ y.length = t.length ∧ ∀ i < t.length, ∀ x, PhaseMod P x (t.getD i 0) →
      (x + 2 * (r.u * P + r.t) < P * duty → y.getD i 0 = 1) ∧
      (P * duty + 2 * (r.u * P + r.t) ≤ x → y.getD i 0 = -1) := by
  refine ⟨_, squareFl_ok r P hP hr t duty h0 h1, by simp, fun i hi x hx => ?_⟩
  obtain ⟨-, -, hb, -⟩ := computedPhase_bounds r P hP hr _ x hx
  have he := r.err (P * duty)
  have hu := r.u_nonneg
  have : r.u * |P * duty| ≤ r.u * P := mul_le_mul_of_nonneg_left (by
    rw [abs_of_nonneg (by positivity)]
    nlinarith) hu
  rw [abs_le] at hb he
  simp only [List.getD_eq_getElem?_getD, List.getElem?_map, List.getElem?_eq_getElem hi, Option.map_some,
    Option.getD_some] at hb ⊢
  refine ⟨fun h => if_pos (by linarith), fun h => if_neg (by linarith)⟩

/-- **C78** For times `≥ 0` the phase is computed without error: the value is `1` exactly when the phase lies
below the rounded threshold.  In particular duty 1 gives `1` and duty 0 gives `-1`. -/
theorem C78_nonneg_times (t : List ℝ) (ht : ∀ v ∈ t, 0 ≤ v) (duty : ℝ) (h0 : 0 ≤ duty) (h1 : duty ≤ 1) :
    (∃ y, squareFl r P t duty = .ok y ∧ y.length = t.length ∧ ∀ i < t.length, ∀ x, PhaseMod P x (t.getD i 0) →
      (x < r.rnd (P * duty) → y.getD i 0 = 1) ∧ (r.rnd (P * duty) ≤ x → y.getD i 0 = -1)) ∧
    squareFl r P t 1 = .ok (t.map fun _ => 1) := by
  constructor
  · refine ⟨_, squareFl_ok r P hP hr t duty h0 h1, by simp, fun i hi x hx => ?_⟩
    obtain ⟨-, -, -, hb⟩ := computedPhase_bounds r P hP hr _ x hx
    simp only [List.getD_eq_getElem?_getD, List.getElem?_map, List.getElem?_eq_getElem hi, Option.map_some,
      Option.getD_some] at hb ⊢
    rw [hb (ht _ (List.getElem_mem hi))]
    exact ⟨fun h => if_pos h, fun h => if_neg (not_lt.mpr h)⟩
  · rw [squareFl_ok r P hP hr t 1 zero_le_one le_rfl]
    congr 1
    refine List.map_congr_left fun v hv => ?_
    obtain ⟨x, hx⟩ := phaseMod_exists r P hP hr v
    rw [(computedPhase_bounds r P hP hr v x hx).2.2.2 (ht v hv), mul_one, hr, if_pos hx.2.1]

/-- **C78** Duty 0 gives `-1` for all times, negative ones included. -/
theorem C78_duty_zero (t : List ℝ) : squareFl r P t 0 = .ok (t.map fun _ => -1) := by
  rw [squareFl_ok r P hP hr t 0 le_rfl zero_le_one]
  congr 1
  refine List.map_congr_left fun v _ => ?_
  obtain ⟨x, hx⟩ := phaseMod_exists r P hP hr v
  rw [mul_zero, r.zero, if_neg (not_lt.mpr (computedPhase_bounds r P hP hr v x hx).1)]

end

/-- Numbers in `[4, 8)` are rounded to multiples of `2⁻⁵⁰` in `f64`. -/
theorem rnd64_of_mem (x : ℝ) (h4 : 4 ≤ x) (h8 : x < 8) :
    binary64.rnd x = (Binary.rne (x * 2 ^ 50) : ℤ) * (2 : ℝ) ^ (-50 : ℤ) := by
  have hx : 0 < x := by linarith
  have hl : Int.log 2 |x| = 2 := by
    rw [abs_of_pos hx]
    apply le_antisymm
    · have : Int.log 2 x < 3 := (Int.lt_zpow_iff_log_lt (b := 2) (by norm_num) hx).mp (by norm_num; exact h8)
      omega
    · exact (Int.zpow_le_iff_le_log (b := 2) (by norm_num) hx).mp (by norm_num; exact h4)
  have hp : Binary.lastPlace 53 (-1074) x = -50 := by
    unfold Binary.lastPlace; rw [hl]; norm_num
  change Binary.rnd 53 (-1074) x = _
  unfold Binary.rnd
  rw [hp]
  congr 3
  rw [zpow_neg, div_inv_eq_mul]
  norm_cast

theorem twoPi64_eq : twoPi64 * 2 ^ 50 = ((7074237752028440 : ℤ) : ℝ) := by
  unfold twoPi64
  rw [zpow_neg, mul_assoc]
  norm_num

theorem twoPi64_bounds : 6 < twoPi64 ∧ twoPi64 < 7 := by
  have := twoPi64_eq
  push_cast at this
  constructor <;> nlinarith

/-- The constant is representable. -/
theorem twoPi64_rnd : binary64.rnd twoPi64 = twoPi64 := by
  obtain ⟨a, b⟩ := twoPi64_bounds
  rw [rnd64_of_mem _ (by linarith) (by linarith), twoPi64_eq, Binary.rne_intCast]
  unfold twoPi64
  push_cast
  rfl

theorem twoPi64_err : twoPi64 < 2 * Real.pi ∧ 2 * Real.pi - twoPi64 < (2 : ℝ) ^ (-51 : ℤ) := by
  have h1 := Real.pi_gt_d20
  have h2 := Real.pi_lt_d20
  unfold twoPi64
  rw [zpow_neg, zpow_neg]
  constructor
  · norm_num at h1 ⊢; linarith
  · norm_num at h2 ⊢; linarith

/-- **C78** for `f64` against the wave of period `2π`: at a time `x + 2πn` with phase `x` and `n ≥ 0` the value
is the one of the exact wave (C34) unless the phase is within `(n + 4) 2⁻⁵¹` of an edge. -/
theorem C78_exact_wave (t : List ℝ) (duty : ℝ) (h0 : 0 ≤ duty) (h1 : duty ≤ 1) :
    ∃ y, squareFl binary64 twoPi64 t duty = .ok y ∧ y.length = t.length ∧
      ∀ i < t.length, ∀ (x : ℝ) (n : ℕ), 0 ≤ x → t.getD i 0 = x + n * (2 * Real.pi) →
        (x + (n + 4) * (2 : ℝ) ^ (-51 : ℤ) < 2 * Real.pi * duty → y.getD i 0 = 1) ∧
        (2 * Real.pi * duty + (n + 4) * (2 : ℝ) ^ (-51 : ℤ) ≤ x →
          x + (n + 4) * (2 : ℝ) ^ (-51 : ℤ) < 2 * Real.pi → y.getD i 0 = -1) := by
  obtain ⟨a, b⟩ := twoPi64_bounds
  obtain ⟨e1, e2⟩ := twoPi64_err
  have hP : 0 < twoPi64 := by linarith
  refine ⟨_, squareFl_ok _ _ hP twoPi64_rnd t duty h0 h1, by simp, fun i hi x n hx ht => ?_⟩
  obtain ⟨d, hd⟩ : ∃ d, d = (2 : ℝ) ^ (-51 : ℤ) := ⟨_, rfl⟩
  have hd0 : 0 < d := by rw [hd]; positivity
  have herr := binary64.err (twoPi64 * duty)
  have hu : binary64.u = d / 4 := by
    rw [hd]
    change (2 : ℝ) ^ (-((53 : ℕ) : ℤ)) = _
    rw [show (-((53 : ℕ) : ℤ)) = -51 - 2 by norm_num, zpow_sub₀ (by norm_num)]
    norm_num
  have htt : binary64.t ≤ d / 4 := by
    rw [← hu]
    change (2 : ℝ) ^ (-1074 - 1 : ℤ) ≤ (2 : ℝ) ^ (-((53 : ℕ) : ℤ))
    exact zpow_le_zpow_right₀ (by norm_num) (by norm_num)
  rw [← hd] at e2 ⊢
  have hthr : |binary64.rnd (twoPi64 * duty) - twoPi64 * duty| ≤ 2 * d := by
    refine herr.trans ?_
    rw [hu, abs_of_nonneg (by positivity)]
    have : twoPi64 * duty ≤ 7 := by nlinarith
    nlinarith
  have hdiff : 0 ≤ 2 * Real.pi * duty - twoPi64 * duty ∧ 2 * Real.pi * duty - twoPi64 * duty ≤ d := by
    constructor <;> nlinarith
  rw [abs_le] at hthr
  have hn : (0 : ℝ) ≤ n := Nat.cast_nonneg n
  have hgap : 0 ≤ n * (2 * Real.pi - twoPi64) ∧ n * (2 * Real.pi - twoPi64) ≤ n * d := by
    constructor
    · exact mul_nonneg hn (by linarith)
    · exact mul_le_mul_of_nonneg_left e2.le hn
  have hph : x + (n + 4) * d < 2 * Real.pi →
      computedPhase binary64 twoPi64 (t.getD i 0) = x + n * (2 * Real.pi - twoPi64) := by
    intro h
    have hphase : PhaseMod twoPi64 (x + n * (2 * Real.pi - twoPi64)) (t.getD i 0) :=
      ⟨by linarith, by linarith, n, by rw [ht]; push_cast; ring⟩
    refine (computedPhase_bounds _ _ hP twoPi64_rnd _ _ hphase).2.2.2 ?_
    rw [ht]
    have := Real.pi_pos
    positivity
  have hlt : 2 * Real.pi * duty ≤ 2 * Real.pi := by nlinarith [Real.pi_pos]
  simp only [List.getD_eq_getElem?_getD, List.getElem?_map, List.getElem?_eq_getElem hi, Option.map_some,
    Option.getD_some] at hph ⊢
  constructor
  · intro h
    rw [hph (by linarith)]
    exact if_pos (by linarith)
  · intro h h'
    rw [hph h']
    exact if_neg (by linarith)

/-- The theorems above hold for `f64` with its constant `2π`. -/
example (t : List ℝ) : squareFl binary64 twoPi64 t 0 = .ok (t.map fun _ => -1) :=
  C78_duty_zero binary64 twoPi64 (by linarith [twoPi64_bounds.1]) twoPi64_rnd t

/-- **C78 fails for tiny negative times**: with duty 1 the wave should be `1` everywhere, but in `f64` the sum
of a negative time above `-2⁻⁵²` and `2π` rounds to `2π`, which is not below the threshold, and the result is
`-1`. -/
theorem C78_duty_one_negative_false (t : ℝ) (h0 : t < 0) (h1 : -(2 : ℝ) ^ (-52 : ℤ) < t) :
    squareFl binary64 twoPi64 [t] 1 = .ok [-1] := by
  obtain ⟨a, b⟩ := twoPi64_bounds
  have hP : 0 < twoPi64 := by linarith
  rw [squareFl_ok _ _ hP twoPi64_rnd [t] 1 zero_le_one le_rfl, mul_one, twoPi64_rnd]
  have h52 : (2 : ℝ) ^ (-52 : ℤ) * 2 ^ 50 = 1 / 4 := by
    rw [zpow_neg]; norm_num
  have ht50 : -(1 / 4) < t * 2 ^ 50 := by
    have := mul_lt_mul_of_pos_right h1 (by norm_num : (0 : ℝ) < 2 ^ 50)
    rw [neg_mul, h52] at this
    exact this
  have hsm : (2 : ℝ) ^ (-52 : ℤ) < 1 := by
    rw [zpow_neg]; norm_num
  have hq : t / twoPi64 < 0 := div_neg_of_neg_of_pos h0 hP
  have hc : ⌈t / twoPi64⌉ = 0 := by
    rw [Int.ceil_eq_iff]
    refine ⟨?_, by push_cast; exact hq.le⟩
    rw [lt_div_iff₀ hP]
    push_cast
    linarith
  have hf : fmod t twoPi64 = t := by
    unfold fmod
    rw [if_neg (not_le.mpr hq), hc]
    simp
  have hr : binary64.rnd (t + twoPi64) = twoPi64 := by
    rw [rnd64_of_mem _ (by linarith) (by linarith)]
    have : Binary.rne ((t + twoPi64) * 2 ^ 50) = 7074237752028440 := by
      have ht0 : t * 2 ^ 50 < 0 := by nlinarith
      rw [Binary.rne_eq_round, round_eq, Int.floor_eq_iff, add_mul, twoPi64_eq]
      · push_cast
        constructor <;> linarith
      · rw [add_mul, twoPi64_eq, Int.fract_add_intCast]
        intro hf
        have hfl := Int.floor_add_fract (t * 2 ^ 50)
        have : ⌊t * 2 ^ 50⌋ = -1 := by
          rw [Int.floor_eq_iff]; push_cast; constructor <;> linarith
        rw [this, hf] at hfl
        push_cast at hfl
        linarith
    rw [this]
    unfold twoPi64
    push_cast
    rfl
  simp [computedPhase, hf, h0, hr]

/-- Such times exist. -/
example : -(2 : ℝ) ^ (-60 : ℤ) < 0 ∧ -(2 : ℝ) ^ (-52 : ℤ) < -(2 : ℝ) ^ (-60 : ℤ) := by
  rw [zpow_neg, zpow_neg]; norm_num

end SciRs.Props

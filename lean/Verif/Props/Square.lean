import Verif.Model.Square
import Mathlib.Algebra.Order.Floor.Ring
import Mathlib.Tactic.Linarith
import Mathlib.Tactic.Ring
import Mathlib.Tactic.FieldSimp
import Mathlib.Tactic.NormNum

/-! # C34: the square wave -/

namespace SciRs.Props

open SciRs SciRs.Wave

/-- `x` is the phase of `t`: it lies in `[0, 2π)` and differs from `t` by whole periods. -/
def IsPhase (x t : ℝ) : Prop := 0 ≤ x ∧ x < 2 * Real.pi ∧ ∃ n : ℤ, t = x + n * (2 * Real.pi)

/-- Every `t` has exactly one phase. -/
theorem phase_exists (t : ℝ) : ∃! x, IsPhase x t := by
  have hp : 0 < 2 * Real.pi := by positivity
  refine ⟨t - ⌊t / (2 * Real.pi)⌋ * (2 * Real.pi), ⟨?_, ?_, ⌊t / (2 * Real.pi)⌋, by ring⟩, ?_⟩
  · have := Int.floor_le (t / (2 * Real.pi))
    rw [le_div_iff₀ hp] at this
    linarith
  · have := Int.lt_floor_add_one (t / (2 * Real.pi))
    rw [div_lt_iff₀ hp] at this
    linarith
  · rintro x ⟨h0, h1, n, hn⟩
    have : ⌊t / (2 * Real.pi)⌋ = n := by
      rw [Int.floor_eq_iff, le_div_iff₀ hp, div_lt_iff₀ hp]
      constructor <;> linarith
    rw [this]; linarith

theorem reduce_isPhase (t : ℝ) :
    IsPhase (if fmod t (2 * Real.pi) < 0 then fmod t (2 * Real.pi) + 2 * Real.pi
      else fmod t (2 * Real.pi)) t := by
  have hp : 0 < 2 * Real.pi := by positivity
  by_cases ht : 0 ≤ t / (2 * Real.pi)
  · have h1 := Int.floor_le (t / (2 * Real.pi))
    have h2 := Int.lt_floor_add_one (t / (2 * Real.pi))
    rw [le_div_iff₀ hp] at h1
    rw [div_lt_iff₀ hp] at h2
    have e : fmod t (2 * Real.pi) = t - 2 * Real.pi * ⌊t / (2 * Real.pi)⌋ := by
      unfold fmod; rw [if_pos ht]
    have hn : ¬ fmod t (2 * Real.pi) < 0 := by rw [e]; linarith
    rw [if_neg hn, e]
    exact ⟨by linarith, by linarith, ⌊t / (2 * Real.pi)⌋, by ring⟩
  · have h1 := Int.le_ceil (t / (2 * Real.pi))
    have h2 := Int.ceil_lt_add_one (t / (2 * Real.pi))
    rw [div_le_iff₀ hp] at h1
    rw [← sub_lt_iff_lt_add, lt_div_iff₀ hp] at h2
    have e : fmod t (2 * Real.pi) = t - 2 * Real.pi * ⌈t / (2 * Real.pi)⌉ := by
      unfold fmod; rw [if_neg ht]
    by_cases hneg : fmod t (2 * Real.pi) < 0
    · rw [if_pos hneg]
      rw [e] at hneg ⊢
      exact ⟨by linarith, by linarith, ⌈t / (2 * Real.pi)⌉ - 1, by push_cast; ring⟩
    · rw [if_neg hneg]
      rw [e] at hneg ⊢
      exact ⟨by linarith, by linarith, ⌈t / (2 * Real.pi)⌉, by ring⟩

theorem squareAt_ok (thr t : ℝ) :
    ∃ x, IsPhase x t ∧ squareAt thr t = .ok (if x < thr then 1 else -1) := by
  have h := reduce_isPhase t
  refine ⟨_, h, ?_⟩
  unfold squareAt
  dsimp only
  rw [check_true ⟨h.1, h.2.1.le⟩]
  rfl

theorem mapv_ok (f : ℝ → Res ℝ) (g : ℝ → ℝ) (h : ∀ t, f t = .ok (g t)) (l : List ℝ) :
    mapv f l = .ok (l.map g) := by
  induction l with
  | nil => rfl
  | cons t ts ih => rw [mapv, h, ok_bind, ih]; rfl

/-- The value of the wave at a point. -/
noncomputable def waveAt (duty t : ℝ) : ℝ :=
  if (phase_exists t).choose < 2 * Real.pi * duty then 1 else -1

theorem waveAt_eq (duty t x : ℝ) (hx : IsPhase x t) :
    waveAt duty t = if x < 2 * Real.pi * duty then 1 else -1 := by
  have := (phase_exists t).choose_spec.2 x hx
  rw [waveAt, ← this]

theorem square_ok (t : List ℝ) (duty : ℝ) (h0 : 0 ≤ duty) (h1 : duty ≤ 1) :
    square t duty = .ok (t.map (waveAt duty)) := by
  unfold square
  rw [check_true ⟨h0, h1⟩, ok_bind]
  refine mapv_ok _ _ (fun v => ?_) t
  obtain ⟨x, hx, e⟩ := squareAt_ok (2 * Real.pi * duty) v
  rw [e, waveAt_eq duty v x hx]

/-- **C34** For every duty cycle in `[0, 1]` the call returns an array of the same number of elements; the
value at a point is `+1` when its phase modulo `2π` lies in `[0, 2π·duty)` and `-1` otherwise. -/
theorem C34_value (t : List ℝ) (duty : ℝ) (h0 : 0 ≤ duty) (h1 : duty ≤ 1) :
    ∃ y, square t duty = .ok y ∧ y.length = t.length ∧ ∀ i (hi : i < t.length) (hi' : i < y.length),
      ∀ x, IsPhase x t[i] →
        (x < 2 * Real.pi * duty → y[i] = 1) ∧ (2 * Real.pi * duty ≤ x → y[i] = -1) := by
  refine ⟨_, square_ok t duty h0 h1, by simp, fun i hi hi' x hx => ?_⟩
  rw [List.getElem_map, waveAt_eq duty _ x hx]
  exact ⟨fun h => if_pos h, fun h => if_neg (not_lt.mpr h)⟩

/-- Phases of a negative time and of a time beyond one period. -/
example : IsPhase (3 * Real.pi / 2) (-(Real.pi / 2)) ∧ IsPhase Real.pi (3 * Real.pi) := by
  have hp := Real.pi_pos
  exact ⟨⟨by positivity, by linarith, -1, by push_cast; ring⟩,
    ⟨by positivity, by linarith, 1, by push_cast; ring⟩⟩

/-- **C34** The wave is `2π`-periodic: shifting every time by whole periods does not change the result. -/
theorem C34_periodic (t : List ℝ) (duty : ℝ) (n : ℤ) :
    square (t.map (fun v => v + n * (2 * Real.pi))) duty = square t duty := by
  by_cases h : 0 ≤ duty ∧ duty ≤ 1
  · rw [square_ok _ _ h.1 h.2, square_ok _ _ h.1 h.2, List.map_map]
    congr 1
    refine List.map_congr_left (fun v _ => ?_)
    obtain ⟨x, hx, _⟩ := phase_exists v
    obtain ⟨a, b, m, hm⟩ := hx
    rw [Function.comp, waveAt_eq duty v x ⟨a, b, m, hm⟩,
      waveAt_eq duty _ x ⟨a, b, m + n, by rw [hm]; push_cast; ring⟩]
  · unfold square
    rw [check_false h]
    rfl

/-- **C34** The call panics exactly when the duty cycle is outside `[0, 1]`; in particular the internal
`debug_assert!` never fires. -/
theorem C34_panics_iff (t : List ℝ) (duty : ℝ) :
    Panics (square t duty) ↔ duty < 0 ∨ 1 < duty := by
  by_cases h : 0 ≤ duty ∧ duty ≤ 1
  · rw [square_ok _ _ h.1 h.2]
    simp only [panics_ok, false_iff, not_or, not_lt]
    exact h
  · unfold square
    rw [check_false h]
    simp only [error_bind, panics_error, ne_eq, reduceCtorEq, not_false_eq_true, true_iff]
    by_contra hcon
    push Not at hcon
    exact h hcon

/-- **C34** Duty 0 gives `-1` everywhere, duty 1 gives `+1` everywhere. -/
theorem C34_extremes (t : List ℝ) :
    square t 0 = .ok (t.map (fun _ => -1)) ∧ square t 1 = .ok (t.map (fun _ => 1)) := by
  rw [square_ok t 0 le_rfl zero_le_one, square_ok t 1 zero_le_one le_rfl]
  refine ⟨?_, ?_⟩ <;> congr 1 <;> refine List.map_congr_left (fun v _ => ?_) <;>
    obtain ⟨x, hx, _⟩ := phase_exists v <;> rw [waveAt_eq _ v x hx]
  · exact if_neg (by rw [mul_zero]; exact not_lt.mpr hx.1)
  · exact if_pos (by rw [mul_one]; exact hx.2.1)

end SciRs.Props

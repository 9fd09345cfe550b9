import Verif.Spec.Rounding
import Mathlib.Tactic.Linarith
import Mathlib.Tactic.Positivity
import Mathlib.Tactic.Ring
import Mathlib.Tactic.FieldSimp

/-! Helper lemmas: quantities computed in rounded arithmetic whose error is of the order of the unit
roundoff. -/

namespace SciRs.Rounded

open SciRs SciRs.Spec

/-- The computed quantity `f` is within a constant times the unit roundoff of `v`, in every arithmetic
that is precise enough and whose underflow error is below its unit roundoff. -/
def Lim (f : Rounding → ℝ) (v : ℝ) : Prop :=
  ∃ C u0 : ℝ, 0 ≤ C ∧ 0 < u0 ∧ ∀ r : Rounding, r.u ≤ u0 → r.t ≤ r.u → |f r - v| ≤ C * r.u

namespace Lim

theorem const (v : ℝ) : Lim (fun _ => v) v :=
  ⟨0, 1, le_rfl, one_pos, fun r _ _ => by simp⟩

theorem add {f g : Rounding → ℝ} {v w : ℝ} (hf : Lim f v) (hg : Lim g w) :
    Lim (fun r => f r + g r) (v + w) := by
  obtain ⟨C, u1, hC, hu1, h1⟩ := hf
  obtain ⟨D, u2, hD, hu2, h2⟩ := hg
  refine ⟨C + D, min u1 u2, by positivity, lt_min hu1 hu2, fun r hu ht => ?_⟩
  have a := h1 r (hu.trans (min_le_left _ _)) ht
  have b := h2 r (hu.trans (min_le_right _ _)) ht
  have e : f r + g r - (v + w) = (f r - v) + (g r - w) := by ring
  rw [e]
  have := abs_add_le (f r - v) (g r - w)
  linarith

theorem neg {f : Rounding → ℝ} {v : ℝ} (hf : Lim f v) : Lim (fun r => -f r) (-v) := by
  obtain ⟨C, u1, hC, hu1, h1⟩ := hf
  refine ⟨C, u1, hC, hu1, fun r hu ht => ?_⟩
  have e : -f r - -v = -(f r - v) := by ring
  rw [e, abs_neg]
  exact h1 r hu ht

theorem sub {f g : Rounding → ℝ} {v w : ℝ} (hf : Lim f v) (hg : Lim g w) :
    Lim (fun r => f r - g r) (v - w) := by
  simpa only [sub_eq_add_neg] using hf.add hg.neg

/-- A bound on the computed quantity. -/
theorem bounded {f : Rounding → ℝ} {v : ℝ} (hf : Lim f v) :
    ∃ C u0 : ℝ, 0 ≤ C ∧ 0 < u0 ∧ ∀ r : Rounding, r.u ≤ u0 → r.t ≤ r.u →
      |f r - v| ≤ C * r.u ∧ |f r| ≤ |v| + C := by
  obtain ⟨C, u1, hC, hu1, h1⟩ := hf
  refine ⟨C, min u1 1, hC, lt_min hu1 one_pos, fun r hu ht => ?_⟩
  have a := h1 r (hu.trans (min_le_left _ _)) ht
  refine ⟨a, ?_⟩
  have b : C * r.u ≤ C * 1 := mul_le_mul_of_nonneg_left (hu.trans (min_le_right _ _)) hC
  have c := abs_add_le (f r - v) v
  rw [sub_add_cancel] at c
  linarith

theorem mul {f g : Rounding → ℝ} {v w : ℝ} (hf : Lim f v) (hg : Lim g w) :
    Lim (fun r => f r * g r) (v * w) := by
  obtain ⟨C, u1, hC, hu1, h1⟩ := hf.bounded
  obtain ⟨D, u2, hD, hu2, h2⟩ := hg.bounded
  refine ⟨(|v| + C) * D + |w| * C, min u1 u2, by positivity, lt_min hu1 hu2, fun r hu ht => ?_⟩
  obtain ⟨a, a'⟩ := h1 r (hu.trans (min_le_left _ _)) ht
  obtain ⟨b, _⟩ := h2 r (hu.trans (min_le_right _ _)) ht
  have e : f r * g r - v * w = f r * (g r - w) + w * (f r - v) := by ring
  rw [e]
  have s := abs_add_le (f r * (g r - w)) (w * (f r - v))
  rw [abs_mul, abs_mul] at s
  have p1 := mul_le_mul a' b (abs_nonneg _) (by positivity)
  have p2 := mul_le_mul_of_nonneg_left a (abs_nonneg w)
  linarith

theorem inv {g : Rounding → ℝ} {w : ℝ} (hw : w ≠ 0) (hg : Lim g w) :
    Lim (fun r => (g r)⁻¹) w⁻¹ := by
  obtain ⟨D, u2, hD, hu2, h2⟩ := hg
  have hw0 : 0 < |w| := abs_pos.mpr hw
  refine ⟨2 * D / |w| ^ 2, min u2 (|w| / (2 * (D + 1))), by positivity, lt_min hu2 (by positivity),
    fun r hu ht => ?_⟩
  have b := h2 r (hu.trans (min_le_left _ _)) ht
  have hu' : r.u ≤ |w| / (2 * (D + 1)) := hu.trans (min_le_right _ _)
  have hDu : D * r.u ≤ |w| / 2 := by
    rw [le_div_iff₀ (by positivity)] at hu'
    have := r.u_nonneg
    nlinarith
  have hge : |w| / 2 ≤ |g r| := by
    have c := abs_add_le (g r) (w - g r)
    rw [add_sub_cancel, abs_sub_comm w] at c
    linarith
  have hg0 : g r ≠ 0 := by
    intro h
    rw [h, abs_zero] at hge
    linarith
  have hgp : 0 < |g r| := abs_pos.mpr hg0
  have e : (g r)⁻¹ - w⁻¹ = (w - g r) / (g r * w) := by field_simp
  rw [e, abs_div, abs_mul, abs_sub_comm, div_le_iff₀ (by positivity)]
  refine b.trans ?_
  have h3 : 2 * D / |w| ^ 2 * r.u * (|w| / 2 * |w|) ≤ 2 * D / |w| ^ 2 * r.u * (|g r| * |w|) := by
    have := r.u_nonneg
    gcongr
  have h4 : 2 * D / |w| ^ 2 * r.u * (|w| / 2 * |w|) = D * r.u := by field_simp
  linarith

theorem div {f g : Rounding → ℝ} {v w : ℝ} (hw : w ≠ 0) (hf : Lim f v) (hg : Lim g w) :
    Lim (fun r => f r / g r) (v / w) := by
  simpa only [div_eq_mul_inv] using hf.mul (hg.inv hw)

theorem rnd {f : Rounding → ℝ} {v : ℝ} (hf : Lim f v) : Lim (fun r => r.rnd (f r)) v := by
  obtain ⟨C, u1, hC, hu1, h1⟩ := hf.bounded
  refine ⟨|v| + C + 1 + C, u1, by positivity, hu1, fun r hu ht => ?_⟩
  obtain ⟨a, b⟩ := h1 r hu ht
  have c := r.err (f r)
  have d := abs_sub_le (r.rnd (f r)) (f r) v
  have e := mul_le_mul_of_nonneg_left b r.u_nonneg
  linarith

/-- Finitely many computed quantities have common constants. -/
theorem uniform (n : ℕ) (f : ℕ → Rounding → ℝ) (v : ℕ → ℝ) (h : ∀ j < n, Lim (f j) (v j)) :
    ∃ C u0 : ℝ, 0 ≤ C ∧ 0 < u0 ∧ ∀ r : Rounding, r.u ≤ u0 → r.t ≤ r.u →
      ∀ j < n, |f j r - v j| ≤ C * r.u := by
  induction n with
  | zero => exact ⟨0, 1, le_rfl, one_pos, fun r _ _ j hj => absurd hj (by omega)⟩
  | succ n ih =>
    obtain ⟨C, u1, hC, hu1, h1⟩ := ih fun j hj => h j (by omega)
    obtain ⟨D, u2, hD, hu2, h2⟩ := h n (by omega)
    refine ⟨C + D, min u1 u2, by positivity, lt_min hu1 hu2, fun r hu ht j hj => ?_⟩
    have hu0 := r.u_nonneg
    have hCu : 0 ≤ C * r.u := by positivity
    have hDu : 0 ≤ D * r.u := by positivity
    rcases Nat.lt_or_eq_of_le (Nat.le_of_lt_succ hj) with hj' | rfl
    · have := h1 r (hu.trans (min_le_left _ _)) ht j hj'
      linarith
    · have := h2 r (hu.trans (min_le_right _ _)) ht
      linarith

end Lim

end SciRs.Rounded

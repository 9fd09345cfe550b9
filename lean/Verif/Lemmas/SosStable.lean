import Verif.Lemmas.Sosfilt
import Mathlib.Analysis.Complex.Polynomial.Basic
import Mathlib.Analysis.Complex.Norm
import Mathlib.Tactic.Ring
import Mathlib.Tactic.LinearCombination
import Mathlib.Tactic.Linarith
import Mathlib.Tactic.Positivity

/-! Helper lemmas: boundedness of stable sections. -/

namespace SciRs

open Spec

/-- Factor a real monic quadratic over `ℂ`. -/
theorem exists_roots (a1 a2 : ℝ) :
    ∃ r1 r2 : ℂ, r1 + r2 = -(a1 : ℂ) ∧ r1 * r2 = (a2 : ℂ) ∧
      r1 ^ 2 + a1 * r1 + a2 = 0 ∧ r2 ^ 2 + a1 * r2 + a2 = 0 := by
  obtain ⟨d, hd⟩ := IsAlgClosed.exists_pow_nat_eq ((a1 : ℂ) ^ 2 - 4 * a2) (n := 2) (by norm_num)
  refine ⟨(-a1 + d) / 2, (-a1 - d) / 2, by ring, ?_, ?_, ?_⟩
  · linear_combination (-1 / 4) * hd
  · linear_combination (1 / 4) * hd
  · linear_combination (1 / 4) * hd

theorem tdf2_length' {F : Type} [Add F] [Sub F] [Mul F] (b0 b1 b2 a1 a2 z0 z1 : F)
    (x : List F) : (tdf2 b0 b1 b2 a1 a2 z0 z1 x).1.length = x.length := by
  induction x generalizing z0 z1 with
  | nil => rfl
  | cons x xs ih => simp [tdf2, ih]

theorem tdf2_bound (b0 b1 b2 a1 a2 : ℝ) (r1 r2 : ℂ) (h1 : r1 + r2 = -(a1 : ℂ))
    (h2 : r1 * r2 = (a2 : ℂ)) (ρ M V Z : ℝ) (hρ : 0 ≤ ρ)
    (hV : ‖r1‖ * V + (|b2 - a2 * b0| + ‖r1‖ * |b1 - a1 * b0|) * M ≤ V * ρ)
    (hZ : ‖r2‖ * Z + V + |b1 - a1 * b0| * M ≤ Z * ρ)
    (x : List ℝ) (z0 z1 t : ℝ) (ht : 0 ≤ t)
    (hv : ‖(z1 : ℂ) + r1 * z0‖ ≤ V * t) (hz : |z0| ≤ Z * t)
    (hx : ∀ i, |x.getD i 0| ≤ M * ρ ^ i * t) :
    ∀ i, i < x.length →
      |(tdf2 b0 b1 b2 a1 a2 z0 z1 x).1.getD i 0| ≤ (|b0| * M + Z) * ρ ^ i * t := by
  induction x generalizing z0 z1 t with
  | nil => intro i hi; simp at hi
  | cons x xs ih =>
    have hx0 : |x| ≤ M * t := by simpa using hx 0
    intro i hi
    cases i with
    | zero =>
      simp only [tdf2, List.getD_cons_zero, pow_zero, mul_one]
      calc |b0 * x + z0| ≤ |b0 * x| + |z0| := abs_add_le _ _
        _ ≤ |b0| * (M * t) + Z * t := by
            rw [abs_mul]
            exact add_le_add (mul_le_mul_of_nonneg_left hx0 (abs_nonneg _)) hz
        _ = (|b0| * M + Z) * t := by ring
    | succ i =>
      simp only [tdf2, List.getD_cons_succ]
      have key := ih (b1 * x - a1 * (b0 * x + z0) + z1) (b2 * x - a2 * (b0 * x + z0)) (ρ * t)
        (mul_nonneg hρ ht) ?_ ?_ ?_ i (by simpa using hi)
      · calc _ ≤ (|b0| * M + Z) * ρ ^ i * (ρ * t) := key
          _ = (|b0| * M + Z) * ρ ^ (i + 1) * t := by ring
      · have e : ((b2 * x - a2 * (b0 * x + z0) : ℝ) : ℂ)
            + r1 * ((b1 * x - a1 * (b0 * x + z0) + z1 : ℝ) : ℂ)
            = r1 * (z1 + r1 * z0) + (((b2 - a2 * b0 : ℝ) : ℂ) * (x : ℂ)
              + r1 * (((b1 - a1 * b0 : ℝ) : ℂ) * (x : ℂ))) := by
          push_cast
          linear_combination (-(z0 : ℂ)) * (-h2) + (-(r1 * (z0 : ℂ))) * h1
        rw [e]
        calc _ ≤ ‖r1 * (z1 + r1 * z0)‖ + (‖((b2 - a2 * b0 : ℝ) : ℂ) * (x : ℂ)‖
              + ‖r1 * (((b1 - a1 * b0 : ℝ) : ℂ) * (x : ℂ))‖) :=
              (norm_add_le _ _).trans (add_le_add_right (norm_add_le _ _) _)
          _ = ‖r1‖ * ‖(z1 : ℂ) + r1 * z0‖ + (|b2 - a2 * b0| * |x|
              + ‖r1‖ * (|b1 - a1 * b0| * |x|)) := by
              simp only [norm_mul, Complex.norm_real, Real.norm_eq_abs]
          _ ≤ ‖r1‖ * (V * t) + (|b2 - a2 * b0| * (M * t) + ‖r1‖ * (|b1 - a1 * b0| * (M * t))) := by
              gcongr
          _ = (‖r1‖ * V + (|b2 - a2 * b0| + ‖r1‖ * |b1 - a1 * b0|) * M) * t := by ring
          _ ≤ V * ρ * t := mul_le_mul_of_nonneg_right hV ht
          _ = V * (ρ * t) := by ring
      · have e : ((b1 * x - a1 * (b0 * x + z0) + z1 : ℝ) : ℂ)
            = r2 * z0 + ((z1 + r1 * z0) + ((b1 - a1 * b0 : ℝ) : ℂ) * (x : ℂ)) := by
          push_cast
          linear_combination (-(z0 : ℂ)) * h1
        rw [← Real.norm_eq_abs, ← Complex.norm_real, e]
        calc _ ≤ ‖r2 * (z0 : ℂ)‖ + (‖(z1 : ℂ) + r1 * z0‖ + ‖((b1 - a1 * b0 : ℝ) : ℂ) * (x : ℂ)‖) :=
              (norm_add_le _ _).trans (add_le_add_right (norm_add_le _ _) _)
          _ = ‖r2‖ * |z0| + (‖(z1 : ℂ) + r1 * z0‖ + |b1 - a1 * b0| * |x|) := by
              simp only [norm_mul, Complex.norm_real, Real.norm_eq_abs]
          _ ≤ ‖r2‖ * (Z * t) + (V * t + |b1 - a1 * b0| * (M * t)) := by
              gcongr
          _ = (‖r2‖ * Z + V + |b1 - a1 * b0| * M) * t := by ring
          _ ≤ Z * ρ * t := mul_le_mul_of_nonneg_right hZ ht
          _ = Z * (ρ * t) := by ring
      · intro j
        have := hx (j + 1)
        simp only [List.getD_cons_succ] at this
        calc _ ≤ M * ρ ^ (j + 1) * t := this
          _ = M * ρ ^ j * (ρ * t) := by ring

/-- The roots of `z² + a1 z + a2` all have modulus below `ρ`. -/
def RootsBelow (ρ : ℝ) (s : Sos ℝ) : Prop :=
  ∀ z : ℂ, z ^ 2 + s.a1 * z + s.a2 = 0 → ‖z‖ < ρ

theorem section_bound (s : Sos ℝ) (ρ : ℝ) (hρ : 0 ≤ ρ) (hs : RootsBelow ρ s) (M : ℝ)
    (hM : 0 ≤ M) :
    ∃ K, 0 ≤ K ∧ ∀ x : List ℝ, (∀ i, |x.getD i 0| ≤ M * ρ ^ i) →
      ∀ i, |(tdf2 s.b0 s.b1 s.b2 s.a1 s.a2 s.zi0 s.zi1 x).1.getD i 0| ≤ K * ρ ^ i := by
  obtain ⟨r1, r2, h1, h2, h3, h4⟩ := exists_roots s.a1 s.a2
  have hr1 : 0 < ρ - ‖r1‖ := by linarith [hs r1 h3]
  have hr2 : 0 < ρ - ‖r2‖ := by linarith [hs r2 h4]
  let U1 := (|s.b2 - s.a2 * s.b0| + ‖r1‖ * |s.b1 - s.a1 * s.b0|) * M
  let U0 := |s.b1 - s.a1 * s.b0| * M
  have hU1 : 0 ≤ U1 := by positivity
  have hU0 : 0 ≤ U0 := by positivity
  let V := U1 / (ρ - ‖r1‖) + ‖(s.zi1 : ℂ) + r1 * s.zi0‖
  have hV0 : 0 ≤ V := by positivity
  let Z := (V + U0) / (ρ - ‖r2‖) + |s.zi0|
  have hZ0 : 0 ≤ Z := by positivity
  have hV : ‖r1‖ * V + U1 ≤ V * ρ := by
    have : V * (ρ - ‖r1‖) ≥ U1 := by
      have : V * (ρ - ‖r1‖) = U1 + ‖(s.zi1 : ℂ) + r1 * s.zi0‖ * (ρ - ‖r1‖) := by
        simp only [V]; field_simp
      rw [this]
      have := mul_nonneg (norm_nonneg ((s.zi1 : ℂ) + r1 * s.zi0)) hr1.le
      linarith
    linarith
  have hZ : ‖r2‖ * Z + V + U0 ≤ Z * ρ := by
    have : Z * (ρ - ‖r2‖) ≥ V + U0 := by
      have : Z * (ρ - ‖r2‖) = (V + U0) + |s.zi0| * (ρ - ‖r2‖) := by
        simp only [Z]; field_simp
      rw [this]
      have := mul_nonneg (abs_nonneg s.zi0) hr2.le
      linarith
    linarith
  refine ⟨|s.b0| * M + Z, by positivity, fun x hx i => ?_⟩
  by_cases hi : i < x.length
  · have := tdf2_bound s.b0 s.b1 s.b2 s.a1 s.a2 r1 r2 h1 h2 ρ M V Z hρ hV hZ x s.zi0 s.zi1 1
      (by norm_num) ?_ ?_ (by simpa using hx) i hi
    · simpa using this
    · rw [mul_one]
      exact le_add_of_nonneg_left (div_nonneg hU1 hr1.le)
    · rw [mul_one]
      exact le_add_of_nonneg_left (div_nonneg (add_nonneg hV0 hU0) hr2.le)
  · rw [List.getD_eq_getElem?_getD, List.getElem?_eq_none (by rw [tdf2_length']; omega)]
    simp only [Option.getD_none, abs_zero]
    positivity

theorem cascade_bound (sos : List (Sos ℝ)) (ρ : ℝ) (hρ : 0 ≤ ρ)
    (hs : ∀ s ∈ sos, RootsBelow ρ s) (M : ℝ) (hM : 0 ≤ M) :
    ∃ K, 0 ≤ K ∧ ∀ x : List ℝ, (∀ i, |x.getD i 0| ≤ M * ρ ^ i) →
      ∀ i, |(cascade sos x).1.getD i 0| ≤ K * ρ ^ i := by
  induction sos generalizing M with
  | nil => exact ⟨M, hM, fun x hx => hx⟩
  | cons s ss ih =>
    obtain ⟨K1, hK1, h1⟩ := section_bound s ρ hρ (hs s (by simp)) M hM
    obtain ⟨K2, hK2, h2⟩ := ih (fun t ht => hs t (by simp [ht])) K1 hK1
    exact ⟨K2, hK2, fun x hx => h2 _ (h1 x hx)⟩

/-- Finitely many stable sections leave room below the unit circle. -/
theorem exists_radius (sos : List (Sos ℝ)) (hs : ∀ s ∈ sos, RootsBelow 1 s) :
    ∃ ρ : ℝ, 0 < ρ ∧ ρ < 1 ∧ ∀ s ∈ sos, RootsBelow ρ s := by
  induction sos with
  | nil => exact ⟨1 / 2, by norm_num, by norm_num, by simp⟩
  | cons s ss ih =>
    obtain ⟨ρ, h0, h1, h⟩ := ih (fun t ht => hs t (by simp [ht]))
    obtain ⟨r1, r2, e1, e2, h3, h4⟩ := exists_roots s.a1 s.a2
    have b1 := hs s (by simp) r1 h3
    have b2 := hs s (by simp) r2 h4
    let m := max ρ (max ‖r1‖ ‖r2‖)
    have hm : m < 1 := max_lt h1 (max_lt b1 b2)
    have hm0 : 0 < m := lt_of_lt_of_le h0 (le_max_left _ _)
    refine ⟨(m + 1) / 2, by linarith, by linarith, ?_⟩
    intro t ht
    rcases List.mem_cons.mp ht with rfl | ht
    · intro z hz
      have : (z - r1) * (z - r2) = 0 := by
        rw [← hz]
        linear_combination e2 - z * e1
      have hz' : ‖z‖ ≤ m := by
        rcases mul_eq_zero.mp this with hh | hh
        · rw [sub_eq_zero.mp hh]
          exact (le_max_left _ _).trans (le_max_right _ _)
        · rw [sub_eq_zero.mp hh]
          exact (le_max_right _ _).trans (le_max_right _ _)
      linarith
    · intro z hz
      have := h t ht z hz
      have : ρ ≤ m := le_max_left _ _
      linarith

end SciRs

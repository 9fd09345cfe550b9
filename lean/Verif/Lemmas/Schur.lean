import Mathlib.Analysis.Complex.Norm
import Mathlib.Tactic.Linarith
import Mathlib.Tactic.Ring

/-! # The stability triangle of a quadratic -/

namespace SciRs.Rounded

open Complex

/-- Both roots of `z² + a z + b` lie inside the unit circle exactly when `b < 1` and `|a| < 1 + b`. -/
theorem schur_iff (a b : ℝ) :
    (∀ z : ℂ, z ^ 2 + a * z + b = 0 → ‖z‖ < 1) ↔ b < 1 ∧ |a| < 1 + b := by
  constructor
  · intro h
    by_cases hd : a ^ 2 < 4 * b
    · -- complex roots
      set y := Real.sqrt (b - a ^ 2 / 4) with hy
      have hy2 : y ^ 2 = b - a ^ 2 / 4 := Real.sq_sqrt (by linarith)
      have hroot := h ⟨-a / 2, y⟩ (by
        apply Complex.ext
        · simp [pow_two]; nlinarith
        · simp [pow_two]; ring)
      rw [← sq_lt_one_iff₀ (norm_nonneg _), ← Complex.normSq_eq_norm_sq, Complex.normSq_apply] at hroot
      simp only at hroot
      have hb : b < 1 := by nlinarith
      refine ⟨hb, ?_⟩
      rw [← abs_of_nonneg (show 0 ≤ 1 + b by nlinarith [sq_nonneg a])]
      apply sq_lt_sq.mp
      nlinarith [sq_nonneg (1 - b)]
    · set w := Real.sqrt (a ^ 2 / 4 - b) with hw
      have hw2 : w ^ 2 = a ^ 2 / 4 - b := Real.sq_sqrt (by linarith)
      have key : ∀ x : ℝ, x ^ 2 + a * x + b = 0 → |x| < 1 := by
        intro x hx
        have := h (x : ℂ) (by exact_mod_cast hx)
        rwa [Complex.norm_real, Real.norm_eq_abs] at this
      have h1 := abs_lt.mp (key (-a / 2 + w) (by nlinarith))
      have h2 := abs_lt.mp (key (-a / 2 - w) (by nlinarith))
      refine ⟨by nlinarith, abs_lt.mpr ⟨by nlinarith, by nlinarith⟩⟩
  · rintro ⟨hb, ha⟩ z hz
    obtain ⟨ha1, ha2⟩ := abs_lt.mp ha
    have hre := congrArg Complex.re hz
    have him := congrArg Complex.im hz
    simp [pow_two] at hre him
    rw [← sq_lt_one_iff₀ (norm_nonneg z), ← Complex.normSq_eq_norm_sq, Complex.normSq_apply]
    have hf : z.im * (2 * z.re + a) = 0 := by linarith
    rcases mul_eq_zero.mp hf with h | h
    · rw [h] at hre ⊢
      have hx : z.re ^ 2 + a * z.re + b = 0 := by linarith
      have l1 : z.re < 1 := by
        by_contra hge
        push Not at hge
        nlinarith [mul_nonneg (sub_nonneg.mpr hge) (sub_nonneg.mpr hge)]
      have l2 : -1 < z.re := by
        by_contra hge
        push Not at hge
        nlinarith [mul_nonneg (sub_nonneg.mpr hge) (sub_nonneg.mpr hge)]
      nlinarith
    · have : a = -2 * z.re := by linarith
      rw [this] at hre
      nlinarith

end SciRs.Rounded

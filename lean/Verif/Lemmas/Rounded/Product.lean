import Verif.Lemmas.Rounded.Error
import Verif.Model.Rounded.Zpk

/-! # Products and powers in floating point -/

namespace SciRs.Rounded

open SciRs.Spec

variable {r : Rounding} {h σ : ℝ}

/-- The error of a complex product. -/
theorem Small.flMul (S : Small r h σ) (hh : h ≤ 1 / 64) (hr : r.Nearest) {a b : ℂ} {B : ℝ} (hB : ‖a‖ * ‖b‖ ≤ B)
    (h1 : σ ≤ B) : ‖Rounded.flMul r a b - a * b‖ ≤ 4.4 * h * B := by
  have h0 := S.h_nonneg
  have hBp : 0 < B := lt_of_lt_of_le S.pos h1
  have c1 : |a.re * b.re| + |a.im * b.im| ≤ B := by
    rw [abs_mul, abs_mul]
    refine (cauchy _ _ _ _).trans ?_
    rwa [← norm_eq_parts, ← norm_eq_parts]
  have c2 : |a.re * b.im| + |a.im * b.re| ≤ B := by
    rw [abs_mul, abs_mul]
    have := cauchy |a.re| |a.im| |b.im| |b.re|
    refine this.trans ?_
    rwa [add_comm (|b.im| ^ 2), ← norm_eq_parts, ← norm_eq_parts]
  have d1 := S.sum_sub hh hr c1 h1
  have d2 := S.sum hh c2 h1
  have k := norm_le_of_parts (z := Rounded.flMul r a b - a * b) (B := 3.04 * h * B)
    (by rw [Complex.sub_re, Complex.mul_re]; exact d1) (by rw [Complex.sub_im, Complex.mul_im]; exact d2)
  have : 0 ≤ h * B := by positivity
  nlinarith

/-- Bernoulli's inequality from above. -/
theorem one_add_pow_le {κ : ℝ} (hκ : 0 ≤ κ) {n : ℕ} (hn : n * κ ≤ 1 / 11) : (1 + κ) ^ n ≤ 1 + 1.1 * (n * κ) := by
  have h0 : 0 ≤ n * κ := by positivity
  have h1 : (1 + κ) ^ n ≤ Real.exp (n * κ) := by
    have : 1 + κ ≤ Real.exp κ := by linarith [Real.add_one_le_exp κ]
    calc (1 + κ) ^ n ≤ (Real.exp κ) ^ n := pow_le_pow_left₀ (by linarith) this n
      _ = Real.exp (n * κ) := by rw [← Real.exp_nat_mul]
  have h2 := Real.add_one_le_exp (-(n * κ))
  rw [Real.exp_neg] at h2
  have h3 : 0 < Real.exp (n * κ) := Real.exp_pos _
  refine h1.trans ?_
  obtain ⟨E, hE⟩ : ∃ E, E = Real.exp (n * κ) := ⟨_, rfl⟩
  obtain ⟨x, hx⟩ : ∃ x, x = n * κ := ⟨_, rfl⟩
  rw [← hE, ← hx] at h2
  rw [← hE] at h3 ⊢
  rw [← hx] at hn h0 ⊢
  have h4 : (1 - x) * E ≤ 1 := by
    calc (1 - x) * E ≤ E⁻¹ * E := mul_le_mul_of_nonneg_right (by linarith) h3.le
      _ = 1 := inv_mul_cancel₀ h3.ne'
  nlinarith

/-- A product of complex numbers, each known up to the relative error `c`. -/
theorem foldl_flMul_err (S : Small r h σ) (hσ : σ ≤ 1 / 4) (hh : h ≤ 1 / 64) (hr : r.Nearest) {c : ℝ} (hc : 0 ≤ c)
    (hc2 : c ≤ 1 / 2) {α : Type} (x x' : α → ℂ) (l : List α) (hx : ∀ q ∈ l, ‖x' q - x q‖ ≤ c * ‖x q‖)
    (h1 : ∀ q ∈ l, 1 ≤ ‖x q‖) :
    ∀ (a a' : ℂ) (E : ℝ), 0 ≤ E → 1 ≤ ‖a‖ → ‖a' - a‖ ≤ E * ‖a‖ →
      (1 + E) * ((1 + c) * (1 + 4.4 * h)) ^ l.length ≤ 3 / 2 →
      ‖(l.map x').foldl (fun acc y => Rounded.flMul r acc y) a' - a * (l.map x).prod‖ ≤
        ((1 + E) * ((1 + c) * (1 + 4.4 * h)) ^ l.length - 1) * ‖a * (l.map x).prod‖ := by
  have h0 := S.h_nonneg
  have hk1 : 1 ≤ (1 + c) * (1 + 4.4 * h) := by nlinarith [mul_nonneg hc h0]
  induction l with
  | nil =>
    intro a a' E hE ha hE' _
    simpa using hE'
  | cons q l ih =>
    intro a a' E hE ha hE' hb
    have hq := hx q (by simp)
    have hq1 := h1 q (by simp)
    have ih := ih (fun q hq => hx q (by simp [hq])) (fun q hq => h1 q (by simp [hq]))
      (a * x q) (Rounded.flMul r a' (x' q)) ((1 + E) * ((1 + c) * (1 + 4.4 * h)) - 1)
    have e1 : (1 + ((1 + E) * ((1 + c) * (1 + 4.4 * h)) - 1)) * ((1 + c) * (1 + 4.4 * h)) ^ l.length =
        (1 + E) * ((1 + c) * (1 + 4.4 * h)) ^ (q :: l).length := by
      rw [List.length_cons, pow_succ]; ring
    rw [e1] at ih
    have hp : 1 ≤ ((1 + c) * (1 + 4.4 * h)) ^ l.length := one_le_pow₀ hk1
    have hEk : (1 + E) * ((1 + c) * (1 + 4.4 * h)) ≤ 3 / 2 := by
      refine le_trans ?_ hb
      rw [← e1]
      have : 0 ≤ (1 + E) * ((1 + c) * (1 + 4.4 * h)) := by positivity
      nlinarith
    have hE2 : E ≤ 1 / 2 := by nlinarith
    rw [List.map_cons, List.foldl_cons, List.map_cons, List.prod_cons, ← mul_assoc]
    refine ih ?_ ?_ ?_ hb
    · nlinarith
    · rw [norm_mul]; nlinarith
    · -- one step
      have n1 : ‖a'‖ ≤ (1 + E) * ‖a‖ := by
        have := norm_add_le (a' - a) a
        rw [sub_add_cancel] at this
        linarith
      have n2 : ‖x' q‖ ≤ (1 + c) * ‖x q‖ := by
        have := norm_add_le (x' q - x q) (x q)
        rw [sub_add_cancel] at this
        linarith
      have n3 : ‖a'‖ * ‖x' q‖ ≤ (1 + E) * (1 + c) * (‖a‖ * ‖x q‖) := by
        calc ‖a'‖ * ‖x' q‖ ≤ ((1 + E) * ‖a‖) * ((1 + c) * ‖x q‖) :=
              mul_le_mul n1 n2 (norm_nonneg _) (by positivity)
          _ = _ := by ring
      have n4 : 1 ≤ ‖a‖ * ‖x q‖ := by nlinarith
      have s1 := S.flMul hh hr n3 (by nlinarith [mul_nonneg hE hc])
      have s2 : ‖a' * x' q - a * x q‖ ≤ ((1 + E) * (1 + c) - 1) * (‖a‖ * ‖x q‖) := by
        have e : a' * x' q - a * x q = (a' - a) * x' q + a * (x' q - x q) := by ring
        rw [e]
        refine (norm_add_le _ _).trans ?_
        rw [norm_mul, norm_mul]
        have t1 : ‖a' - a‖ * ‖x' q‖ ≤ (E * ‖a‖) * ((1 + c) * ‖x q‖) :=
          mul_le_mul hE' n2 (norm_nonneg _) (by positivity)
        have t2 : ‖a‖ * ‖x' q - x q‖ ≤ ‖a‖ * (c * ‖x q‖) := mul_le_mul_of_nonneg_left hq (norm_nonneg _)
        linarith
      have s3 := norm_add_le (Rounded.flMul r a' (x' q) - a' * x' q) (a' * x' q - a * x q)
      rw [sub_add_sub_cancel] at s3
      rw [norm_mul a]
      linarith

/-- The same, with the error in closed form. -/
theorem foldMul_err (S : Small r h σ) (hσ : σ ≤ 1 / 4) (hh : h ≤ 1 / 64) (hr : r.Nearest) {m : Libm} {c κ : ℝ}
    (hc : 0 ≤ c) (hc2 : c ≤ 1 / 2) (hκ : (1 + c) * (1 + 4.4 * h) ≤ 1 + κ) {α : Type} (x x' : α → ℂ) (l : List α)
    (hx : ∀ q ∈ l, ‖x' q - x q‖ ≤ c * ‖x q‖) (h1 : ∀ q ∈ l, 1 ≤ ‖x q‖) (hl : l.length * κ ≤ 1 / 11) :
    ‖foldMul (.ofRounding r m) (l.map x') - (l.map x).prod‖ ≤ 1.1 * (l.length * κ) * ‖(l.map x).prod‖ := by
  have h0 := S.h_nonneg
  have hκ0 : 0 ≤ κ := by nlinarith [mul_nonneg hc h0]
  have hp := one_add_pow_le hκ0 hl
  have hp' : ((1 + c) * (1 + 4.4 * h)) ^ l.length ≤ (1 + κ) ^ l.length :=
    pow_le_pow_left₀ (by positivity) hκ _
  have := foldl_flMul_err S hσ hh hr hc hc2 x x' l hx h1 1 1 0 le_rfl (by simp) (by simp) (by
    rw [add_zero, one_mul]; linarith)
  rw [one_mul, add_zero, one_mul] at this
  refine this.trans (mul_le_mul_of_nonneg_right ?_ (norm_nonneg _))
  linarith

end SciRs.Rounded

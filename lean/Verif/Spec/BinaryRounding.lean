import Verif.Spec.Rounding
import Mathlib.Data.Int.Log
import Mathlib.Algebra.Order.Round
import Mathlib.Algebra.Order.Field.Power
import Mathlib.Tactic.Positivity
import Mathlib.Tactic.FieldSimp
import Mathlib.Tactic.Linarith
import Mathlib.Tactic.Ring

/-!
# Rounding to binary floating-point numbers

Rounding to nearest, ties to even, with `p` significant bits and least exponent `emin` (gradual underflow, no
overflow) is a `Rounding`.  `f64` has `p = 53`, `emin = -1074`; `f32` has `p = 24`, `emin = -149`.
-/

namespace SciRs.Spec.Binary

variable (p : ℕ) (emin : ℤ)

/-- The exponent of the last place of `x`. -/
noncomputable def lastPlace (x : ℝ) : ℤ := max (Int.log 2 |x| + 1 - p) emin

open Classical in
/-- The nearest integer; of two equally near ones the even one. -/
noncomputable def rne (x : ℝ) : ℤ := if Int.fract x = 1 / 2 ∧ Even ⌊x⌋ then ⌊x⌋ else round x

/-- Round to the nearest multiple of the last place, ties to even. -/
noncomputable def rnd (x : ℝ) : ℝ :=
  (rne (x / 2 ^ lastPlace p emin x) : ℤ) * (2 : ℝ) ^ lastPlace p emin x

theorem round_mono {a b : ℝ} (h : a ≤ b) : round a ≤ round b := by
  rw [round_eq, round_eq]
  exact Int.floor_mono (by linarith)

theorem floor_le_round (a : ℝ) : ⌊a⌋ ≤ round a := by
  rw [round_eq]
  exact Int.floor_mono (by linarith)

theorem rne_le_round (a : ℝ) : rne a ≤ round a := by
  unfold rne
  split
  · exact floor_le_round a
  · exact le_rfl

theorem rne_eq_round {a : ℝ} (h : Int.fract a ≠ 1 / 2) : rne a = round a := by
  unfold rne
  rw [if_neg (fun hc => h hc.1)]

theorem rne_intCast (n : ℤ) : rne (n : ℝ) = n := by
  rw [rne_eq_round (by rw [Int.fract_intCast]; norm_num), round_intCast]

theorem rne_mono {a b : ℝ} (h : a ≤ b) : rne a ≤ rne b := by
  by_cases hb : Int.fract b = 1 / 2 ∧ Even ⌊b⌋
  · have eb : rne b = ⌊b⌋ := by unfold rne; rw [if_pos hb]
    rw [eb]
    have hf := Int.floor_add_fract b
    rw [hb.1] at hf
    have ha := Int.floor_add_fract a
    have hfl := Int.floor_mono h
    rcases hfl.eq_or_lt with e | e
    · by_cases hab : Int.fract a = 1 / 2
      · have : rne a = ⌊a⌋ := by unfold rne; rw [if_pos ⟨hab, by rw [e]; exact hb.2⟩]
        rw [this, e]
      · have hlt : Int.fract a < 1 / 2 := by
          refine lt_of_le_of_ne ?_ hab
          rw [← e] at hf
          linarith
        rw [rne_eq_round hab, round_eq, ← e]
        apply le_of_eq
        rw [Int.floor_eq_iff]
        have := Int.fract_nonneg a
        constructor <;> linarith
    · refine (rne_le_round a).trans ?_
      rw [round_eq]
      refine le_trans ?_ (Int.add_one_le_iff.mpr e)
      rw [← Int.floor_add_one]
      exact Int.floor_mono (by linarith)
  · have eb : rne b = round b := by unfold rne; rw [if_neg hb]
    rw [eb]
    exact (rne_le_round a).trans (round_mono h)

theorem abs_sub_rne (a : ℝ) : |a - (rne a : ℤ)| ≤ 1 / 2 := by
  unfold rne
  split
  · rename_i h
    rw [Int.self_sub_floor, h.1]
    norm_num
  · exact abs_sub_round a

theorem rnd_le {x : ℝ} {c j : ℤ} (hj : lastPlace p emin x ≤ j) (h : x ≤ c * (2 : ℝ) ^ j) :
    rnd p emin x ≤ c * (2 : ℝ) ^ j := by
  obtain ⟨n, hn⟩ := Int.eq_ofNat_of_zero_le (sub_nonneg.mpr hj)
  have e2 : (2 : ℝ) ^ j = 2 ^ n * 2 ^ lastPlace p emin x := by
    rw [← zpow_natCast, ← zpow_add₀ (by norm_num)]; congr 1; omega
  have hp : (0 : ℝ) < 2 ^ lastPlace p emin x := by positivity
  have hc : ((c * 2 ^ n : ℤ) : ℝ) = c * 2 ^ n := by push_cast; ring
  unfold rnd
  rw [e2, ← mul_assoc, ← hc] at h ⊢
  refine mul_le_mul_of_nonneg_right ?_ hp.le
  have : x / 2 ^ lastPlace p emin x ≤ ((c * 2 ^ n : ℤ) : ℝ) := by
    rw [div_le_iff₀ hp]; exact h
  have := rne_mono this
  rw [rne_intCast] at this
  exact_mod_cast this

theorem le_rnd {x : ℝ} {c j : ℤ} (hj : lastPlace p emin x ≤ j) (h : c * (2 : ℝ) ^ j ≤ x) :
    c * (2 : ℝ) ^ j ≤ rnd p emin x := by
  obtain ⟨n, hn⟩ := Int.eq_ofNat_of_zero_le (sub_nonneg.mpr hj)
  have e2 : (2 : ℝ) ^ j = 2 ^ n * 2 ^ lastPlace p emin x := by
    rw [← zpow_natCast, ← zpow_add₀ (by norm_num)]; congr 1; omega
  have hp : (0 : ℝ) < 2 ^ lastPlace p emin x := by positivity
  have hc : ((c * 2 ^ n : ℤ) : ℝ) = c * 2 ^ n := by push_cast; ring
  unfold rnd
  rw [e2, ← mul_assoc, ← hc] at h ⊢
  refine mul_le_mul_of_nonneg_right ?_ hp.le
  have : ((c * 2 ^ n : ℤ) : ℝ) ≤ x / 2 ^ lastPlace p emin x := by
    rw [le_div_iff₀ hp]; exact h
  have := rne_mono this
  rw [rne_intCast] at this
  exact_mod_cast this

theorem rnd_zero : rnd p emin 0 = 0 := by
  have h := rne_intCast 0
  simp only [Int.cast_zero] at h
  simp [rnd, h]

theorem rnd_err (x : ℝ) : |rnd p emin x - x| ≤ (2 : ℝ) ^ (-(p : ℤ)) * |x| + 2 ^ (emin - 1) := by
  by_cases hx : x = 0
  · subst hx; rw [rnd_zero]; simp; positivity
  have hp : (0 : ℝ) < 2 ^ lastPlace p emin x := by positivity
  have e : rnd p emin x - x
      = -(x / 2 ^ lastPlace p emin x - (rne (x / 2 ^ lastPlace p emin x) : ℤ))
        * 2 ^ lastPlace p emin x := by
    unfold rnd; field_simp; ring
  rw [e, abs_mul, abs_neg, abs_of_pos hp]
  have h1 := mul_le_mul_of_nonneg_right (abs_sub_rne (x / 2 ^ lastPlace p emin x)) hp.le
  refine h1.trans ?_
  have half : (1 / 2 : ℝ) * 2 ^ lastPlace p emin x = 2 ^ (lastPlace p emin x - 1) := by
    rw [zpow_sub₀ (by norm_num)]; ring
  rw [half]
  have t1 : (0 : ℝ) ≤ 2 ^ (-(p : ℤ)) * |x| := by positivity
  have t2 : (0 : ℝ) ≤ 2 ^ (emin - 1) := by positivity
  rcases max_choice (Int.log 2 |x| + 1 - (p : ℤ)) emin with h | h
  · have : (2 : ℝ) ^ (lastPlace p emin x - 1) ≤ 2 ^ (-(p : ℤ)) * |x| := by
      unfold lastPlace; rw [h]
      have hl : (2 : ℝ) ^ Int.log 2 |x| ≤ |x| := by
        have := Int.zpow_log_le_self (R := ℝ) (b := 2) (r := |x|) (by norm_num) (abs_pos.mpr hx)
        exact_mod_cast this
      have e3 : (2 : ℝ) ^ (Int.log 2 |x| + 1 - (p : ℤ) - 1) = 2 ^ (-(p : ℤ)) * 2 ^ Int.log 2 |x| := by
        rw [← zpow_add₀ (by norm_num)]; congr 1; ring
      rw [e3]
      exact mul_le_mul_of_nonneg_left hl (by positivity)
    linarith
  · have : (2 : ℝ) ^ (lastPlace p emin x - 1) = 2 ^ (emin - 1) := by
      unfold lastPlace; rw [h]
    linarith

theorem rnd_eq_mono {x y : ℝ} (h : x ≤ y) (he : lastPlace p emin x = lastPlace p emin y) :
    rnd p emin x ≤ rnd p emin y := by
  unfold rnd
  rw [he]
  have hp : (0 : ℝ) < 2 ^ lastPlace p emin y := by positivity
  refine mul_le_mul_of_nonneg_right ?_ hp.le
  exact_mod_cast rne_mono (div_le_div_of_nonneg_right h hp.le)

/-- Below the leading bit of a number with a larger last place. -/
theorem lt_lead {x y : ℝ} (hp : 1 ≤ p) (h : lastPlace p emin x < lastPlace p emin y) :
    |x| < (2 : ℝ) ^ Int.log 2 |y| ∧ lastPlace p emin x ≤ Int.log 2 |y| ∧
      lastPlace p emin y ≤ Int.log 2 |y| := by
  have hy : lastPlace p emin y = Int.log 2 |y| + 1 - p := by
    unfold lastPlace at h ⊢; omega
  have hl : Int.log 2 |x| < Int.log 2 |y| := by
    unfold lastPlace at h hy; omega
  refine ⟨?_, by omega, by omega⟩
  have := Int.lt_zpow_succ_log_self (R := ℝ) (b := 2) (by norm_num) |x|
  refine lt_of_lt_of_le (by exact_mod_cast this) ?_
  exact zpow_le_zpow_right₀ (by norm_num) (by omega)

theorem lead_le {y : ℝ} (hy : y ≠ 0) : (2 : ℝ) ^ Int.log 2 |y| ≤ |y| := by
  have := Int.zpow_log_le_self (R := ℝ) (b := 2) (r := |y|) (by norm_num) (abs_pos.mpr hy)
  exact_mod_cast this

theorem lastPlace_mono {x y : ℝ} (hx : x ≠ 0) (h : |x| ≤ |y|) :
    lastPlace p emin x ≤ lastPlace p emin y := by
  have := Int.log_mono_right (b := 2) (abs_pos.mpr hx) h
  unfold lastPlace; omega

theorem rnd_mono (hp : 1 ≤ p) (x y : ℝ) (h : x ≤ y) : rnd p emin x ≤ rnd p emin y := by
  by_cases h0 : x ≤ 0 ∧ 0 ≤ y
  · have a := rnd_le p emin (x := x) (c := 0) le_rfl (by simpa using h0.1)
    have b := le_rnd p emin (x := y) (c := 0) le_rfl (by simpa using h0.2)
    simp at a b
    linarith
  rw [not_and_or, not_le, not_le] at h0
  rcases h0 with hx | hy
  · have hy : 0 < y := lt_of_lt_of_le hx h
    have hle := lastPlace_mono p emin (y := y) hx.ne' (by rw [abs_of_pos hx, abs_of_pos hy]; exact h)
    rcases hle.eq_or_lt with he | hlt
    · exact rnd_eq_mono p emin h he
    · obtain ⟨a, b, c⟩ := lt_lead p emin hp hlt
      have d := lead_le hy.ne'
      rw [abs_of_pos hx] at a
      rw [abs_of_pos hy] at a b c d
      have e := rnd_le p emin (x := x) (c := 1) b (by simpa using a.le)
      have f := le_rnd p emin (x := y) (c := 1) c (by simpa using d)
      exact e.trans f
  · have hx : x < 0 := lt_of_le_of_lt h hy
    have hle := lastPlace_mono p emin (y := x) hy.ne (by
      rw [abs_of_neg hx, abs_of_neg hy]; linarith)
    rcases hle.eq_or_lt with he | hlt
    · exact rnd_eq_mono p emin h he.symm
    · obtain ⟨a, b, c⟩ := lt_lead p emin hp hlt
      have d := lead_le hx.ne
      rw [abs_of_neg hy] at a
      rw [abs_of_neg hx] at a b c d
      have e := le_rnd p emin (x := y) (c := -1) b (by push_cast; linarith)
      have f := rnd_le p emin (x := x) (c := -1) c (by push_cast; linarith)
      exact f.trans e

/-- Round to nearest, ties to even, with `p ≥ 1` significant bits and least exponent `emin`. -/
noncomputable def rounding (hp : 1 ≤ p) : Rounding where
  u := 2 ^ (-(p : ℤ))
  t := 2 ^ (emin - 1)
  rnd := rnd p emin
  u_nonneg := by positivity
  t_nonneg := by positivity
  err := rnd_err p emin
  mono := rnd_mono p emin hp
  zero := rnd_zero p emin

/-- Integers of at most `p` bits are kept. -/
theorem rnd_int (he : emin ≤ 0) (n : ℤ) (hn : |n| < 2 ^ p) : rnd p emin n = n := by
  by_cases h0 : n = 0
  · subst h0; simpa using rnd_zero p emin
  have hl : lastPlace p emin n ≤ 0 := by
    have h1 : (2 : ℝ) ^ Int.log 2 |(n : ℝ)| ≤ |(n : ℝ)| := lead_le (by exact_mod_cast h0)
    have h2 : |(n : ℝ)| < (2 : ℝ) ^ (p : ℤ) := by
      rw [zpow_natCast]; exact_mod_cast hn
    have h3 := (zpow_lt_zpow_iff_right₀ (by norm_num : (1 : ℝ) < 2)).mp (lt_of_le_of_lt h1 h2)
    unfold lastPlace; omega
  apply le_antisymm
  · simpa using rnd_le p emin (x := n) (c := n) hl (by simp)
  · simpa using le_rnd p emin (x := n) (c := n) hl (by simp)

/-- Doubling a representable number is exact. -/
theorem rnd_double (v : ℝ) (h : rnd p emin v = v) : rnd p emin (v + v) = v + v := by
  by_cases h0 : v = 0
  · subst h0; simpa using rnd_zero p emin
  have hl : lastPlace p emin (v + v) ≤ lastPlace p emin v + 1 := by
    have h1 : (2 : ℝ) ^ Int.log 2 |v + v| ≤ |v + v| := lead_le (by
      intro h; exact h0 (by linarith))
    have h2 : |v| < (2 : ℝ) ^ (Int.log 2 |v| + 1) := by
      have := Int.lt_zpow_succ_log_self (R := ℝ) (b := 2) (by norm_num) |v|
      exact_mod_cast this
    have h3 : |v + v| < (2 : ℝ) ^ (Int.log 2 |v| + 2) := by
      have e : (2 : ℝ) ^ (Int.log 2 |v| + 2) = 2 * 2 ^ (Int.log 2 |v| + 1) := by
        rw [← zpow_one_add₀ (by norm_num)]; congr 1; ring
      rw [e, ← two_mul, abs_mul, abs_of_pos (by norm_num : (0 : ℝ) < 2)]
      linarith
    have h4 := (zpow_lt_zpow_iff_right₀ (by norm_num : (1 : ℝ) < 2)).mp (lt_of_le_of_lt h1 h3)
    unfold lastPlace; omega
  obtain ⟨c, hc⟩ : ∃ c : ℤ, v = c * (2 : ℝ) ^ lastPlace p emin v := ⟨_, h.symm⟩
  have e : v + v = c * (2 : ℝ) ^ (lastPlace p emin v + 1) := by
    rw [zpow_add_one₀ (by norm_num), ← mul_assoc, ← hc]; ring
  apply le_antisymm
  · exact (rnd_le p emin hl e.le).trans e.ge
  · exact e.le.trans (le_rnd p emin hl e.ge)

end SciRs.Spec.Binary

namespace SciRs.Spec

/-- `f64` arithmetic, as long as nothing overflows. -/
noncomputable def binary64 : Rounding := Binary.rounding 53 (-1074) (by norm_num)

/-- `f32` arithmetic, as long as nothing overflows. -/
noncomputable def binary32 : Rounding := Binary.rounding 24 (-149) (by norm_num)

end SciRs.Spec

import Verif.Spec.BinaryRounding

/-! # Lemmas: rounding to nearest is odd and idempotent -/

namespace SciRs.Spec.Binary

variable (p : ℕ) (emin : ℤ)

theorem rne_unique {a : ℝ} {n : ℤ} (h : |a - n| < 1 / 2) : rne a = n := by
  have h1 := abs_sub_rne a
  have h2 : |((rne a - n : ℤ) : ℝ)| < 1 := by
    push_cast
    have e : ((rne a : ℤ) : ℝ) - n = (a - n) - (a - rne a) := by ring
    rw [e]
    have := abs_sub (a - n) (a - rne a)
    linarith
  have h3 : |rne a - n| < 1 := by exact_mod_cast h2
  rw [Int.abs_lt_one_iff] at h3
  omega

theorem rne_neg (a : ℝ) : rne (-a) = -rne a := by
  by_cases hf : Int.fract a = 1 / 2
  · have hfl := Int.floor_add_fract a
    rw [hf] at hfl
    have hfn : Int.fract (-a) = 1 / 2 := by
      rw [Int.fract_neg (by rw [hf]; norm_num), hf]; norm_num
    have hnf : ⌊-a⌋ = -⌊a⌋ - 1 := by
      have := Int.floor_add_fract (-a)
      rw [hfn] at this
      have h : ((⌊-a⌋ : ℤ) : ℝ) = ((-⌊a⌋ - 1 : ℤ) : ℝ) := by push_cast; linarith
      exact_mod_cast h
    have hr : ∀ b : ℝ, Int.fract b = 1 / 2 → round b = ⌊b⌋ + 1 := by
      intro b hb
      rw [round_eq, Int.floor_eq_iff]
      have := Int.floor_add_fract b
      rw [hb] at this
      push_cast
      constructor <;> linarith
    unfold rne
    by_cases he : Even ⌊a⌋
    · have hne : ¬ Even ⌊-a⌋ := by
        rw [hnf, Int.not_even_iff_odd]
        exact (he.neg).sub_odd odd_one
      rw [if_neg (fun h => hne h.2), if_pos ⟨hf, he⟩, hr _ hfn, hnf]
      ring
    · have hev : Even ⌊-a⌋ := by
        rw [hnf]
        exact (Int.not_even_iff_odd.mp he).neg.sub_odd odd_one
      rw [if_pos ⟨hfn, hev⟩, if_neg (fun h => he h.2), hr _ hf, hnf]
      ring
  · have h1 : |a - (rne a : ℤ)| < 1 / 2 := by
      rw [rne_eq_round hf, abs_sub_round_eq_min]
      have h0 := Int.fract_nonneg a
      rcases lt_or_gt_of_ne hf with h | h
      · exact (min_le_left _ _).trans_lt h
      · exact (min_le_right _ _).trans_lt (by linarith)
    refine rne_unique ?_
    push_cast
    rw [show -a - -((rne a : ℤ) : ℝ) = -(a - (rne a : ℤ)) by ring, abs_neg]
    exact h1

theorem rnd_neg (x : ℝ) : rnd p emin (-x) = -rnd p emin x := by
  unfold rnd
  have h : lastPlace p emin (-x) = lastPlace p emin x := by unfold lastPlace; rw [abs_neg]
  rw [h, neg_div, rne_neg]
  push_cast
  ring

/-- A multiple of its own last place is kept. -/
theorem rnd_multiple {x : ℝ} (c : ℤ) {j : ℤ} (hj : lastPlace p emin x ≤ j) (h : x = c * (2 : ℝ) ^ j) :
    rnd p emin x = x :=
  le_antisymm ((rnd_le p emin hj h.le).trans h.ge) (h.le.trans (le_rnd p emin hj h.ge))

theorem rnd_rnd (hp : 1 ≤ p) (x : ℝ) : rnd p emin (rnd p emin x) = rnd p emin x := by
  obtain ⟨y, hy⟩ : ∃ y, y = rnd p emin x := ⟨_, rfl⟩
  rw [← hy]
  by_cases hy0 : y = 0
  · rw [hy0, rnd_zero]
  have hx0 : x ≠ 0 := by
    rintro rfl
    exact hy0 (by rw [hy, rnd_zero])
  -- the result is below the next power of two, or equal to it
  have hlt : |x| < (2 : ℝ) ^ (Int.log 2 |x| + 1) := by
    have := Int.lt_zpow_succ_log_self (R := ℝ) (b := 2) (by norm_num) |x|
    exact_mod_cast this
  set j := lastPlace p emin x with hj
  set m := max (Int.log 2 |x| + 1) j with hm
  have hle : |y| ≤ (2 : ℝ) ^ m := by
    have h1 : (2 : ℝ) ^ (Int.log 2 |x| + 1) ≤ 2 ^ m :=
      zpow_le_zpow_right₀ (by norm_num) (le_max_left _ _)
    have hab := abs_lt.mp hlt
    have a := rnd_le p emin (x := x) (c := 1) (j := m) (le_max_right _ _) (by push_cast; linarith)
    have b := le_rnd p emin (x := x) (c := -1) (j := m) (le_max_right _ _) (by push_cast; linarith)
    rw [abs_le, hy]
    push_cast at a b
    constructor <;> linarith
  rcases hle.lt_or_eq with h | h
  · -- same last place at most
    have hl : lastPlace p emin y ≤ j := by
      have h1 := lead_le hy0
      have h2 := (zpow_lt_zpow_iff_right₀ (by norm_num : (1 : ℝ) < 2)).mp (lt_of_le_of_lt h1 h)
      have h3 : j = max (Int.log 2 |x| + 1 - p) emin := rfl
      unfold lastPlace
      omega
    exact rnd_multiple p emin (rne (x / 2 ^ j)) hl (by rw [hy]; rfl)
  · -- a power of two
    have hl : lastPlace p emin y ≤ m := by
      have h1 : Int.log 2 |y| = m := by
        rw [h]
        exact_mod_cast Int.log_zpow (R := ℝ) (b := 2) (by norm_num) m
      have h3 : j = max (Int.log 2 |x| + 1 - p) emin := rfl
      unfold lastPlace
      omega
    rcases abs_choice y with h2 | h2
    · exact rnd_multiple p emin 1 hl (by rw [← h2, h]; push_cast; ring)
    · exact rnd_multiple p emin (-1) hl (by push_cast; linarith)

end SciRs.Spec.Binary

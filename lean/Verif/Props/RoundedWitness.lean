import Verif.Props.RoundedStats
import Mathlib.Tactic.NormNum

/-!
# C69: what rounding does to the statistics of constant samples

The claim "the variance of constant samples is zero and the mean lies between the smallest and the largest
sample" is false in `f64`.
-/

namespace SciRs.Props

open SciRs SciRs.Spec SciRs.Stats SciRs.Rounded

/-- A number of at most 53 bits is kept. -/
theorem rnd64_dyadic (m e : ℤ) (hm : |m| < 2 ^ 53) (he : -1074 ≤ e) :
    binary64.rnd (m * (2 : ℝ) ^ e) = m * (2 : ℝ) ^ e := by
  change Binary.rnd 53 (-1074) _ = _
  by_cases h0 : m = 0
  · subst h0; simpa using Binary.rnd_zero 53 (-1074)
  have hne : (m * (2 : ℝ) ^ e) ≠ 0 := mul_ne_zero (by exact_mod_cast h0) (by positivity)
  have hl : Binary.lastPlace 53 (-1074) (m * (2 : ℝ) ^ e) ≤ e := by
    have h1 := Binary.lead_le hne
    have h2 : |(m * (2 : ℝ) ^ e)| < (2 : ℝ) ^ (53 + e) := by
      rw [abs_mul, abs_of_pos (by positivity : (0 : ℝ) < 2 ^ e), zpow_add₀ (by norm_num)]
      refine mul_lt_mul_of_pos_right ?_ (by positivity)
      exact_mod_cast hm
    have h3 := (zpow_lt_zpow_iff_right₀ (by norm_num : (1 : ℝ) < 2)).mp (lt_of_le_of_lt h1 h2)
    unfold Binary.lastPlace; omega
  exact le_antisymm (Binary.rnd_le 53 (-1074) hl le_rfl) (Binary.le_rnd 53 (-1074) hl le_rfl)

/-- Rounding a number between two powers of two. -/
theorem rnd64_binade (x : ℝ) (k : ℤ) (hk : -1022 ≤ k) (h1 : (2 : ℝ) ^ k ≤ x) (h2 : x < (2 : ℝ) ^ (k + 1)) :
    binary64.rnd x = (Binary.rne (x / (2 : ℝ) ^ (k - 52)) : ℤ) * (2 : ℝ) ^ (k - 52) := by
  have hx : 0 < x := lt_of_lt_of_le (by positivity) h1
  have hl : Int.log 2 |x| = k := by
    rw [abs_of_pos hx]
    apply le_antisymm
    · have : Int.log 2 x < k + 1 := (Int.lt_zpow_iff_log_lt (b := 2) (by norm_num) hx).mp (by exact_mod_cast h2)
      omega
    · exact (Int.zpow_le_iff_le_log (b := 2) (by norm_num) hx).mp (by exact_mod_cast h1)
  have hp : Binary.lastPlace 53 (-1074) x = k - 52 := by
    unfold Binary.lastPlace; rw [hl]; omega
  change Binary.rnd 53 (-1074) x = _
  unfold Binary.rnd
  rw [hp]

/-- The `f64` literal `0.1`. -/
noncomputable def tenth : ℝ := (7205759403792794 : ℤ) * (2 : ℝ) ^ (-56 : ℤ)

/-- It is the rounding of one tenth. -/
theorem tenth_eq : binary64.rnd (1 / 10) = tenth := by
  rw [rnd64_binade (1 / 10) (-4) (by norm_num) (by rw [zpow_neg]; norm_num)
    (by rw [show (-4 + 1 : ℤ) = -3 by norm_num, zpow_neg]; norm_num)]
  rw [show (-4 - 52 : ℤ) = -56 by norm_num]
  unfold tenth
  congr 2
  have e : (1 / 10 : ℝ) / 2 ^ (-56 : ℤ) = 36028797018963968 / 5 := by
    rw [zpow_neg]; norm_num
  have hfl : ⌊(36028797018963968 / 5 : ℝ)⌋ = 7205759403792793 := by
    rw [Int.floor_eq_iff]; norm_num
  rw [e, Binary.rne_eq_round, round_eq, Int.floor_eq_iff]
  · norm_num
  · rw [Int.fract, hfl]; norm_num

theorem sum_tenths : binary64.rnd (binary64.rnd (binary64.rnd (0 + tenth) + tenth) + tenth) =
    (5404319552844596 : ℤ) * (2 : ℝ) ^ (-54 : ℤ) := by
  have h1 : binary64.rnd (0 + tenth) = tenth := by
    rw [zero_add]; exact rnd64_dyadic _ _ (by norm_num) (by norm_num)
  have h2 : binary64.rnd (tenth + tenth) = tenth + tenth := by
    have : tenth + tenth = (7205759403792794 : ℤ) * (2 : ℝ) ^ (-55 : ℤ) := by
      unfold tenth; rw [zpow_neg, zpow_neg]; norm_num
    rw [this]; exact rnd64_dyadic _ _ (by norm_num) (by norm_num)
  rw [h1, h2]
  have h3 : tenth + tenth + tenth = 10808639105689191 / 2 ^ 55 := by
    unfold tenth; rw [zpow_neg]; norm_num
  rw [h3, rnd64_binade _ (-2) (by norm_num) (by rw [zpow_neg]; norm_num)
    (by rw [show (-2 + 1 : ℤ) = -1 by norm_num, zpow_neg]; norm_num), show (-2 - 52 : ℤ) = -54 by norm_num]
  congr 2
  have e : (10808639105689191 / 2 ^ 55 : ℝ) / 2 ^ (-54 : ℤ) = 10808639105689191 / 2 := by
    rw [zpow_neg]; norm_num
  have hfl : ⌊(10808639105689191 / 2 : ℝ)⌋ = 5404319552844595 := by
    rw [Int.floor_eq_iff]; norm_num
  rw [e]
  unfold Binary.rne
  rw [hfl, if_neg (by rintro ⟨-, h⟩; revert h; decide), round_eq, Int.floor_eq_iff]
  norm_num

/-- The mean of three samples `0.1`. -/
theorem mean_tenths : binary64.rnd ((5404319552844596 : ℤ) * (2 : ℝ) ^ (-54 : ℤ) / binary64.rnd (3 : ℕ)) =
    tenth + (2 : ℝ) ^ (-56 : ℤ) := by
  rw [C68_counts_exact.1 3 (by norm_num)]
  have e0 : ((5404319552844596 : ℤ) : ℝ) * (2 : ℝ) ^ (-54 : ℤ) / (3 : ℕ) = 5404319552844596 / 3 / 2 ^ 54 := by
    rw [zpow_neg]; norm_num
  rw [e0, rnd64_binade _ (-4) (by norm_num) (by rw [zpow_neg]; norm_num)
    (by rw [show (-4 + 1 : ℤ) = -3 by norm_num, zpow_neg]; norm_num), show (-4 - 52 : ℤ) = -56 by norm_num]
  have e : (5404319552844596 / 3 / 2 ^ 54 : ℝ) / 2 ^ (-56 : ℤ) = 21617278211378384 / 3 := by
    rw [zpow_neg]; norm_num
  have hfl : ⌊(21617278211378384 / 3 : ℝ)⌋ = 7205759403792794 := by
    rw [Int.floor_eq_iff]; norm_num
  have : Binary.rne (21617278211378384 / 3) = 7205759403792795 := by
    rw [Binary.rne_eq_round, round_eq, Int.floor_eq_iff]
    · norm_num
    · rw [Int.fract, hfl]; norm_num
  rw [e, this]
  unfold tenth
  push_cast
  ring

/-- **C69 fails in `f64`**: the mean of three samples `0.1` is larger than `0.1`, and their variance is not
zero. -/
theorem C69_constant_false :
    tenth < (mean [(⟨tenth⟩ : Fl binary64), ⟨tenth⟩, ⟨tenth⟩]).1.val ∧
    (variance [(⟨tenth⟩ : Fl binary64), ⟨tenth⟩, ⟨tenth⟩]).1.val = (2 : ℝ) ^ (-112 : ℤ) := by
  have hm : (mean [(⟨tenth⟩ : Fl binary64), ⟨tenth⟩, ⟨tenth⟩]).1.val = tenth + (2 : ℝ) ^ (-56 : ℤ) := by
    rw [← mean_tenths, ← sum_tenths]
    rfl
  refine ⟨by rw [hm]; linarith [(by positivity : (0 : ℝ) < 2 ^ (-56 : ℤ))], ?_⟩
  have hm' : (mean [(⟨tenth⟩ : Fl binary64), ⟨tenth⟩, ⟨tenth⟩]).1 = ⟨tenth + (2 : ℝ) ^ (-56 : ℤ)⟩ := by
    rw [← hm]
  have hd : (⟨tenth⟩ - ⟨tenth + (2 : ℝ) ^ (-56 : ℤ)⟩ : Fl binary64) = ⟨(-1 : ℤ) * (2 : ℝ) ^ (-56 : ℤ)⟩ := by
    change (⟨binary64.rnd (tenth - (tenth + (2 : ℝ) ^ (-56 : ℤ)))⟩ : Fl binary64) = _
    rw [← rnd64_dyadic (-1) (-56) (by norm_num) (by norm_num)]
    congr 2
    push_cast
    ring
  have hsq : ((⟨(-1 : ℤ) * (2 : ℝ) ^ (-56 : ℤ)⟩ : Fl binary64) * ⟨(-1 : ℤ) * (2 : ℝ) ^ (-56 : ℤ)⟩) =
      ⟨(1 : ℤ) * (2 : ℝ) ^ (-112 : ℤ)⟩ := by
    change (⟨binary64.rnd _⟩ : Fl binary64) = _
    rw [← rnd64_dyadic 1 (-112) (by norm_num) (by norm_num)]
    congr 2
    rw [zpow_neg, zpow_neg]
    norm_num
  rw [variance_eq_mean, hm']
  simp only [List.map_cons, List.map_nil, hd, hsq]
  change binary64.rnd (binary64.rnd (binary64.rnd (binary64.rnd (0 + (1 : ℤ) * (2 : ℝ) ^ (-112 : ℤ)) +
    (1 : ℤ) * (2 : ℝ) ^ (-112 : ℤ)) + (1 : ℤ) * (2 : ℝ) ^ (-112 : ℤ)) / binary64.rnd (3 : ℕ)) = _
  rw [C68_counts_exact.1 3 (by norm_num), zero_add, rnd64_dyadic 1 (-112) (by norm_num) (by norm_num)]
  rw [show ((1 : ℤ) * (2 : ℝ) ^ (-112 : ℤ) + (1 : ℤ) * (2 : ℝ) ^ (-112 : ℤ) : ℝ) = (2 : ℤ) * (2 : ℝ) ^ (-112 : ℤ) by
    push_cast; ring, rnd64_dyadic 2 (-112) (by norm_num) (by norm_num),
    show ((2 : ℤ) * (2 : ℝ) ^ (-112 : ℤ) + (1 : ℤ) * (2 : ℝ) ^ (-112 : ℤ) : ℝ) = (3 : ℤ) * (2 : ℝ) ^ (-112 : ℤ) by
    push_cast; ring, rnd64_dyadic 3 (-112) (by norm_num) (by norm_num),
    show ((3 : ℤ) * (2 : ℝ) ^ (-112 : ℤ) / (3 : ℕ) : ℝ) = (1 : ℤ) * (2 : ℝ) ^ (-112 : ℤ) by push_cast; ring,
    rnd64_dyadic 1 (-112) (by norm_num) (by norm_num)]
  push_cast
  ring

/-- **C69 fails in `f64`**: the z-scores of three samples `0.1` are `-1`, not zero (nor undefined). -/
theorem C69_zscore_constant_false :
    (zscore Fl.sqrt [(⟨tenth⟩ : Fl binary64), ⟨tenth⟩, ⟨tenth⟩]).map Fl.val = [-1, -1, -1] := by
  have hm : (mean [(⟨tenth⟩ : Fl binary64), ⟨tenth⟩, ⟨tenth⟩]).1 = ⟨tenth + (2 : ℝ) ^ (-56 : ℤ)⟩ := by
    have : (mean [(⟨tenth⟩ : Fl binary64), ⟨tenth⟩, ⟨tenth⟩]).1.val = tenth + (2 : ℝ) ^ (-56 : ℤ) := by
      rw [← mean_tenths, ← sum_tenths]
      rfl
    rw [← this]
  have hsd : (stdev Fl.sqrt [(⟨tenth⟩ : Fl binary64), ⟨tenth⟩, ⟨tenth⟩]).1 = ⟨(2 : ℝ) ^ (-56 : ℤ)⟩ := by
    have e : (stdev Fl.sqrt [(⟨tenth⟩ : Fl binary64), ⟨tenth⟩, ⟨tenth⟩]).1 =
        ⟨binary64.rnd (Real.sqrt (variance [(⟨tenth⟩ : Fl binary64), ⟨tenth⟩, ⟨tenth⟩]).1.val)⟩ := rfl
    have hs : Real.sqrt ((2 : ℝ) ^ (-112 : ℤ)) = (1 : ℤ) * (2 : ℝ) ^ (-56 : ℤ) := by
      rw [show (2 : ℝ) ^ (-112 : ℤ) = ((1 : ℤ) * (2 : ℝ) ^ (-56 : ℤ)) ^ 2 by
        rw [zpow_neg, zpow_neg]; norm_num, Real.sqrt_sq (by positivity)]
    rw [e, C69_constant_false.2, hs, rnd64_dyadic 1 (-56) (by norm_num) (by norm_num)]
    simp
  have hd : (⟨tenth⟩ - ⟨tenth + (2 : ℝ) ^ (-56 : ℤ)⟩ : Fl binary64) = ⟨(-1 : ℤ) * (2 : ℝ) ^ (-56 : ℤ)⟩ := by
    change (⟨binary64.rnd (tenth - (tenth + (2 : ℝ) ^ (-56 : ℤ)))⟩ : Fl binary64) = _
    rw [← rnd64_dyadic (-1) (-56) (by norm_num) (by norm_num)]
    congr 2
    push_cast
    ring
  have hq : ((⟨(-1 : ℤ) * (2 : ℝ) ^ (-56 : ℤ)⟩ : Fl binary64) / ⟨(2 : ℝ) ^ (-56 : ℤ)⟩).val = -1 := by
    have h := rnd64_dyadic (-1) 0 (by norm_num) (by norm_num)
    rw [zpow_zero] at h
    rw [Fl.val_div]
    dsimp only
    rw [mul_div_assoc, div_self (by positivity), h]
    norm_num
  unfold zscore
  rw [hm, hsd]
  simp only [List.map_cons, List.map_nil, hd, hq]

/-- **C69** In every arithmetic the autocorrelation at lag zero is the rounding of 1 (1 itself in `f64` and
`f32`) as soon as the computed variance is not zero: numerator and denominator are the same computation. -/
theorem C69_autocorr_zero (r : Rounding) (y : List (Fl r)) (h : (variance y).1.val ≠ 0) :
    (autocorr y 0).val = r.rnd 1 := by
  have e : autocorr y 0 = (variance y).1 / (variance y).1 := by
    unfold autocorr
    congr 1
    have hz : (y.zip (y.drop 0)).map (fun p : Fl r × Fl r => (p.1 - (mean y).1) * (p.2 - (mean y).1)) =
        y.map (fun f => (f - (mean y).1) * (f - (mean y).1)) := by
      rw [List.drop_zero]
      generalize (mean y).1 = m
      clear h
      induction y with
      | nil => rfl
      | cons a l ih => simp only [List.zip_cons_cons, List.map_cons, ih]
    by_cases hc : (mean y).2 > 0
    · unfold variance
      simp only [hz, if_pos hc]
    · exfalso
      apply h
      unfold variance
      simp only [if_neg hc]
      rfl
  rw [e, Fl.val_div, div_self h]

/-- The samples `1, 3` have a computed variance of 1 in `f64`. -/
example : (variance [(⟨1⟩ : Fl binary64), ⟨3⟩]).1.val ≠ 0 := by
  have hi : ∀ n : ℤ, |n| < 2 ^ 53 → binary64.rnd (n : ℝ) = n := fun n hn => by
    have := rnd64_dyadic n 0 hn (by norm_num)
    simpa using this
  have h1 : binary64.rnd 1 = 1 := by simpa using hi 1 (by norm_num)
  have h2 : binary64.rnd 2 = 2 := by simpa using hi 2 (by norm_num)
  have h4 : binary64.rnd 4 = 4 := by simpa using hi 4 (by norm_num)
  have hn : binary64.rnd (-1) = -1 := by simpa using hi (-1) (by norm_num)
  have hm : (mean [(⟨1⟩ : Fl binary64), ⟨3⟩]).1 = ⟨2⟩ := by
    change (⟨binary64.rnd (binary64.rnd (binary64.rnd (0 + 1) + 3) / binary64.rnd (2 : ℕ))⟩ : Fl binary64) = _
    rw [zero_add, h1, show (1 + 3 : ℝ) = 4 by norm_num, h4, Nat.cast_ofNat, h2,
      show (4 / 2 : ℝ) = 2 by norm_num, h2]
  rw [variance_eq_mean, hm]
  change binary64.rnd (binary64.rnd (binary64.rnd (0 + binary64.rnd (binary64.rnd (1 - 2) * binary64.rnd (1 - 2))) +
    binary64.rnd (binary64.rnd (3 - 2) * binary64.rnd (3 - 2))) / binary64.rnd (2 : ℕ)) ≠ 0
  rw [show (1 - 2 : ℝ) = -1 by norm_num, hn, show (3 - 2 : ℝ) = 1 by norm_num, h1, Nat.cast_ofNat, h2]
  norm_num [h1, h2]

end SciRs.Props

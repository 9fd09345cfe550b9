import Verif.Props.Factorial
import Verif.Props.Combinatorics
import Mathlib.Data.Nat.Choose.Sum
import Mathlib.Algebra.BigOperators.Intervals

/-!
# C115: the combinatorial functions are consistent with each other

For every integer type, in builds with overflow checks: the identities between factorials, binomial coefficients,
permutations and Stirling numbers hold between the values the calls return, and where the larger quantity is returned
the smaller ones are returned too.
-/

namespace SciRs.Props

open SciRs SciRs.Spec Finset
open scoped Nat

variable (c : Cfg) (t : IntTy)

section values

variable {c t} (hc : c.checked = true)
include hc

theorem comb_value {n k : ℕ} (hn : (n : ℤ) ≤ t.hi) {v : ℤ} (h : primintComb c t n k = .ok v) :
    v = n.choose k ∧ (k ≤ n → (n : ℤ) < t.hi ∧ ((min k (n - k) * n.choose k : ℕ) : ℤ) ≤ t.hi) := by
  by_cases hk : k ≤ n
  · have hp : ¬ Panics (primintComb c t n k) := by rw [h]; simp
    rw [C13_panics_iff c t hc n k hk hn, not_or, not_lt] at hp
    have hlt : (n : ℤ) < t.hi := lt_of_le_of_ne hn hp.1
    rw [C13_exact_partial c t n k hk hlt hp.2] at h
    cases h
    exact ⟨rfl, fun _ => ⟨hlt, hp.2⟩⟩
  · rw [C13_outside c t n k (by omega)] at h
    cases h
    exact ⟨by rw [Nat.choose_eq_zero_of_lt (by omega)]; rfl, fun h => absurd h hk⟩

theorem perm_value {n k : ℕ} (hn : (n : ℤ) ≤ t.hi) {v : ℤ} (h : primintPerm c t n k = .ok v) :
    v = n.descFactorial k ∧ (k ≤ n → (n : ℤ) < t.hi ∧ ((n + 1 : ℕ) : ℤ) ≤ c.usizeMax ∧
      ((n.descFactorial k : ℕ) : ℤ) ≤ t.hi) := by
  by_cases hk : k ≤ n
  · have hp : ¬ Panics (primintPerm c t n k) := by rw [h]; simp
    rw [C15_panics_iff c t hc n k hk hn, not_or, not_or, not_lt, not_lt] at hp
    have hlt : (n : ℤ) < t.hi := lt_of_le_of_ne hn hp.1
    rw [C15_exact c t n k hk hlt hp.2.1 hp.2.2] at h
    cases h
    exact ⟨rfl, fun _ => ⟨hlt, hp.2⟩⟩
  · rw [C15_outside c t n k (by omega)] at h
    cases h
    exact ⟨by rw [Nat.descFactorial_of_lt (by omega)]; rfl, fun h => absurd h hk⟩

theorem factorial_value {n : ℕ} (hn : (n : ℤ) ≤ t.hi) {v : ℤ} (h : RunReturns (primintFactorial c t n) v) :
    v = n ! ∧ ((n ! : ℕ) : ℤ) ≤ t.hi := by
  have hp := runReturns_not_panics h
  rw [C10_panics_iff c t hc n (in_of_nonneg t (by positivity) hn)] at hp
  have hle : ((n ! : ℕ) : ℤ) ≤ t.hi := by
    by_contra hcon
    exact hp ⟨by positivity, by simpa using hcon⟩
  have := endsWith_unique h (C10_exact c t n hle)
  cases this
  exact ⟨rfl, hle⟩

theorem factorial2_value {n : ℕ} {v : ℤ} (h : RunReturns (primintFactorial2 c t n) v) :
    v = n ‼ ∧ ((n ‼ : ℕ) : ℤ) ≤ t.hi := by
  have hp := runReturns_not_panics h
  rw [C11_panics_iff c t hc n] at hp
  have hle : ((n ‼ : ℕ) : ℤ) ≤ t.hi := by
    by_contra hcon
    exact hp ⟨by positivity, by simpa using hcon⟩
  have := endsWith_unique h (C11_exact c t n hle)
  cases this
  exact ⟨rfl, hle⟩

theorem stirling_value {n k : ℕ} (hn : (n : ℤ) ≤ t.hi) {v : ℤ} (h : RunReturns (primintStirling2 c t n k) v) :
    v = n.stirlingSecond k ∧ ((n.stirlingSecond k : ℕ) : ℤ) ≤ t.hi := by
  have hp := runReturns_not_panics h
  rw [C16_panics_iff c t hc n k hn, not_lt] at hp
  have := endsWith_unique h (C16_exact c t n k hn hp)
  cases this
  exact ⟨rfl, hp⟩

end values

/-! ### Binomial coefficients and permutations -/

/-- **C115** `n.comb(k)` and `n.comb(n - k)` are the same call, panics and wrapped results included, in every build. -/
theorem C115_comb_symmetric (n k : ℕ) (hk : k ≤ n) (hn : (n : ℤ) ≤ t.hi) :
    primintComb c t n (n - k : ℤ) = primintComb c t n k := by
  have g : ¬ ((k : ℤ) > n ∨ (n : ℤ) < 0 ∨ (k : ℤ) < 0) := by omega
  have g' : ¬ ((n - k : ℤ) > n ∨ (n : ℤ) < 0 ∨ (n - k : ℤ) < 0) := by omega
  have e1 : c.sub t n k = .ok ((n : ℤ) - k) := norm_ok c t (in_of_nonneg t (by omega) (by omega))
  have e2 : c.sub t n (n - k : ℤ) = .ok (k : ℤ) := by
    rw [Cfg.sub, show (n : ℤ) - (n - k) = k by ring]
    exact norm_ok c t (in_of_nonneg t (by omega) (by omega))
  simp only [primintComb, g, g', if_false, e1, e2, ok_bind]
  rw [min_comm]

/-- **C115** Pascal's rule between returned values; where the larger coefficient is returned, both summands are. -/
theorem C115_pascal (hc : c.checked = true) (n k : ℕ) (hn : ((n + 1 : ℕ) : ℤ) ≤ t.hi) (v : ℤ)
    (h : primintComb c t (n + 1 : ℕ) (k + 1 : ℕ) = .ok v) :
    ∃ a b, primintComb c t n k = .ok a ∧ primintComb c t n (k + 1 : ℕ) = .ok b ∧ v = a + b := by
  obtain ⟨rfl, hb⟩ := comb_value hc hn h
  by_cases hk : k + 1 ≤ n + 1
  · obtain ⟨h1, h2⟩ := hb hk
    rw [Nat.choose_succ_succ] at h2
    have ha : primintComb c t n k = .ok (n.choose k : ℤ) := by
      refine C13_exact_partial c t n k (by omega) (by push_cast at h1; omega) (le_trans ?_ h2)
      exact_mod_cast Nat.mul_le_mul (by omega) (by omega)
    refine ⟨_, (n.choose (k + 1) : ℤ), ha, ?_, by rw [Nat.choose_succ_succ]; push_cast; rfl⟩
    by_cases hk' : k + 1 ≤ n
    · refine C13_exact_partial c t n (k + 1) hk' (by push_cast at h1; omega) (le_trans ?_ h2)
      exact_mod_cast Nat.mul_le_mul (by omega) (Nat.le_add_left _ _)
    · rw [C13_outside c t n (k + 1 : ℕ) (by omega), Nat.choose_eq_zero_of_lt (by omega)]
      rfl
  · refine ⟨0, 0, C13_outside c t n k (by omega), C13_outside c t n (k + 1 : ℕ) (by omega), ?_⟩
    rw [Nat.choose_eq_zero_of_lt (by omega)]
    rfl

/-- **C115** `perm` is `comb` times `factorial`; where `perm` is returned for `k ≤ n` so are the two factors. -/
theorem C115_perm_comb (hc : c.checked = true) (n k : ℕ) (hk : k ≤ n) (hn : (n : ℤ) ≤ t.hi) (v : ℤ)
    (h : primintPerm c t n k = .ok v) :
    ∃ a b, primintComb c t n k = .ok a ∧ RunReturns (primintFactorial c t k) b ∧ v = a * b := by
  obtain ⟨rfl, hb⟩ := perm_value hc hn h
  obtain ⟨h1, h2, h3⟩ := hb hk
  have e : n.descFactorial k = k ! * n.choose k := Nat.descFactorial_eq_factorial_mul_choose n k
  have hpos : 0 < n.choose k := Nat.choose_pos hk
  refine ⟨_, _, C13_exact_partial c t n k hk h1 (le_trans ?_ h3), C10_exact c t k (le_trans ?_ h3), ?_⟩
  · rw [e]
    exact_mod_cast Nat.mul_le_mul_right _ ((min_le_left _ _).trans (Nat.self_le_factorial k))
  · rw [e]
    exact_mod_cast Nat.le_mul_of_pos_right _ hpos
  · rw [e]
    push_cast
    ring

/-- **C115** `n.perm(n)` is `n.factorial()`. -/
theorem C115_perm_self (hc : c.checked = true) (n : ℕ) (hn : (n : ℤ) ≤ t.hi) (v : ℤ)
    (h : primintPerm c t n n = .ok v) : RunReturns (primintFactorial c t n) v := by
  obtain ⟨rfl, hb⟩ := perm_value hc hn h
  have h3 := (hb le_rfl).2.2
  rw [Nat.descFactorial_self] at h3 ⊢
  exact C10_exact c t n h3

/-- **C115** The coefficients of one row add up to `2^n`. -/
theorem C115_row (hc : c.checked = true) (n : ℕ) (hn : (n : ℤ) ≤ t.hi) (v : ℕ → ℤ)
    (h : ∀ k ≤ n, primintComb c t n k = .ok (v k)) : ∑ k ∈ range (n + 1), v k = 2 ^ n := by
  rw [sum_congr rfl fun k hk => (comb_value hc hn (h k (by simpa [Nat.lt_succ_iff] using hk))).1]
  exact_mod_cast Nat.sum_range_choose n

/-- **C115** `comb_rep` of `n` over `k` is `comb` of `n + k - 1` over `k`. -/
theorem C115_comb_rep (n k : ℕ) (hpos : 0 < n + k) (hfit : ((n + k : ℕ) : ℤ) ≤ t.hi) :
    primintCombRep c t n k = primintComb c t (n + k - 1 : ℕ) k := by
  have e1 : c.add t n k = .ok ((n + k : ℕ) : ℤ) := by
    rw [Cfg.add, ← Nat.cast_add]
    exact norm_ok c t (in_of_nonneg t (by positivity) hfit)
  have e2 : c.sub t ((n + k : ℕ) : ℤ) 1 = .ok ((n + k - 1 : ℕ) : ℤ) := by
    rw [Cfg.sub, show ((n + k : ℕ) : ℤ) - 1 = ((n + k - 1 : ℕ) : ℤ) by omega]
    exact norm_ok c t (in_of_nonneg t (by positivity) (by omega))
  unfold primintCombRep
  simp only [e1, ok_bind, e2]
  rw [if_neg (by omega)]

/-! ### Factorials -/

/-- **C115** If `n!` is returned, so is every smaller factorial. -/
theorem C115_factorial_mono (hc : c.checked = true) (m n : ℕ) (hmn : m ≤ n) (hn : (n : ℤ) ≤ t.hi) (v : ℤ)
    (h : RunReturns (primintFactorial c t n) v) : ∃ w, RunReturns (primintFactorial c t m) w ∧ w ≤ v := by
  obtain ⟨rfl, hle⟩ := factorial_value hc hn h
  have : ((m ! : ℕ) : ℤ) ≤ n ! := by exact_mod_cast Nat.factorial_le hmn
  exact ⟨_, C10_exact c t m (this.trans hle), this⟩

/-- **C115** `(n+1)! = (n+1)!! n!!`; where the factorial is returned both double factorials are. -/
theorem C115_factorial2 (hc : c.checked = true) (n : ℕ) (hn : ((n + 1 : ℕ) : ℤ) ≤ t.hi) (v : ℤ)
    (h : RunReturns (primintFactorial c t (n + 1 : ℕ)) v) :
    ∃ a b, RunReturns (primintFactorial2 c t (n + 1 : ℕ)) a ∧ RunReturns (primintFactorial2 c t n) b ∧ v = a * b := by
  obtain ⟨rfl, hle⟩ := factorial_value hc hn h
  have e : (n + 1)! = (n + 1)‼ * n‼ := Nat.factorial_eq_mul_doubleFactorial n
  rw [e] at hle
  have p1 : 0 < (n + 1)‼ := Nat.doubleFactorial_pos _
  have p2 : 0 < n‼ := Nat.doubleFactorial_pos _
  refine ⟨_, _, C11_exact c t (n + 1) (le_trans ?_ hle), C11_exact c t n (le_trans ?_ hle), by rw [e]; push_cast; rfl⟩
  · exact_mod_cast Nat.le_mul_of_pos_right _ p2
  · exact_mod_cast Nat.le_mul_of_pos_left _ p1

theorem multifactorial_two (n : ℕ) : multifactorial 2 n = n ‼ := by
  induction n using Nat.strong_induction_on with
  | _ n ih =>
    match n with
    | 0 => rw [multifactorial, dif_pos (Or.inl rfl)]; rfl
    | 1 => rw [multifactorial, dif_neg (by omega), show 1 - 2 = 0 by omega, multifactorial, dif_pos (Or.inl rfl)]; rfl
    | n + 2 =>
      rw [multifactorial, dif_neg (by omega), Nat.add_sub_cancel, ih n (by omega), Nat.doubleFactorial_add_two]

theorem factorialk_value {c : Cfg} {t : IntTy} (hc : c.checked = true) {n k : ℕ} (hk : 0 < k) (hkt : (k : ℤ) ≤ t.hi)
    (hn : (n : ℤ) ≤ t.hi) {v : ℤ} (h : RunReturns (primintFactorialk c t n k) v) :
    v = multifactorial k n ∧ ((multifactorial k n : ℕ) : ℤ) ≤ t.hi := by
  rcases Nat.eq_zero_or_pos n with rfl | h0
  · have := endsWith_unique h ((C12_edge c t (0 : ℕ) k).2.2 (by omega) rfl)
    cases this
    rw [multifactorial, dif_pos (Or.inl rfl)]
    exact ⟨rfl, by push_cast; omega⟩
  · have hp := runReturns_not_panics h
    rw [C12_panics_iff c t hc n k h0 hk hn hkt, not_or, not_and_or, not_not, not_lt, not_lt] at hp
    have := endsWith_unique h (C12_exact_partial c t n k h0 hk hkt hp.1 hp.2)
    cases this
    exact ⟨rfl, hp.1⟩

/-- **C115** `factorialk(1)` is `factorial` and `factorialk(2)` is `factorial2`. -/
theorem C115_factorialk (hc : c.checked = true) (n : ℕ) (hn : (n : ℤ) ≤ t.hi) (v : ℤ) :
    (RunReturns (primintFactorialk c t n 1) v → RunReturns (primintFactorial c t n) v) ∧
    (RunReturns (primintFactorialk c t n 2) v → RunReturns (primintFactorial2 c t n) v) := by
  have h127 := hi_ge t
  refine ⟨fun h => ?_, fun h => ?_⟩
  · obtain ⟨rfl, hle⟩ := factorialk_value hc (k := 1) (by omega) (by push_cast; omega) hn (by exact_mod_cast h)
    rw [multifactorial_one] at hle ⊢
    exact C10_exact c t n hle
  · obtain ⟨rfl, hle⟩ := factorialk_value hc (k := 2) (by omega) (by push_cast; omega) hn (by exact_mod_cast h)
    rw [multifactorial_two] at hle ⊢
    exact C11_exact c t n hle

/-! ### Stirling numbers -/

/-- **C115** The recurrence between returned values; where the left-hand side is returned so are the two numbers on the
right. -/
theorem C115_stirling (hc : c.checked = true) (n k : ℕ) (hn : ((n + 1 : ℕ) : ℤ) ≤ t.hi) (v : ℤ)
    (h : RunReturns (primintStirling2 c t (n + 1 : ℕ) (k + 1 : ℕ)) v) :
    ∃ a b, RunReturns (primintStirling2 c t n (k + 1 : ℕ)) a ∧ RunReturns (primintStirling2 c t n k) b ∧
      v = (k + 1) * a + b := by
  obtain ⟨rfl, hle⟩ := stirling_value hc hn h
  rw [Nat.stirlingSecond_succ_succ] at hle ⊢
  push_cast at hle hn
  have p1 : (0 : ℤ) ≤ n.stirlingSecond (k + 1) := by positivity
  have p2 : (0 : ℤ) ≤ n.stirlingSecond k := by positivity
  have p3 : (0 : ℤ) ≤ k := by positivity
  have h1 : ((n.stirlingSecond (k + 1) : ℕ) : ℤ) ≤ t.hi := by nlinarith
  have h2 : ((n.stirlingSecond k : ℕ) : ℤ) ≤ t.hi := by nlinarith
  exact ⟨_, _, C16_exact c t n (k + 1) (by omega) h1, C16_exact c t n k (by omega) h2, by push_cast; ring⟩

/-- The number of maps from `n` points to `x` points, by the size of the image. -/
theorem pow_eq_sum_stirling (x n : ℕ) : ∑ k ∈ range (n + 1), n.stirlingSecond k * x.descFactorial k = x ^ n := by
  induction n with
  | zero => simp
  | succ n ih =>
    have key : ∀ k, x.descFactorial (k + 1) + k * x.descFactorial k = x * x.descFactorial k := by
      intro k
      rw [Nat.descFactorial_succ, ← Nat.add_mul]
      rcases le_or_gt k x with hk | hk
      · rw [Nat.sub_add_cancel hk]
      · rw [Nat.descFactorial_of_lt hk]; simp
    rw [sum_range_succ', Nat.stirlingSecond_succ_zero, Nat.zero_mul, Nat.add_zero, pow_succ, ← ih, sum_mul]
    have e1 : ∀ k ∈ range (n + 1), (n + 1).stirlingSecond (k + 1) * x.descFactorial (k + 1) =
        (k + 1) * n.stirlingSecond (k + 1) * x.descFactorial (k + 1) + n.stirlingSecond k * x.descFactorial (k + 1) := by
      intro k _
      rw [Nat.stirlingSecond_succ_succ, Nat.add_mul]
    rw [sum_congr rfl e1, sum_add_distrib]
    have e2 : ∑ k ∈ range (n + 1), (k + 1) * n.stirlingSecond (k + 1) * x.descFactorial (k + 1) =
        ∑ k ∈ range (n + 1), k * n.stirlingSecond k * x.descFactorial k := by
      have h1 := sum_range_succ' (fun k => k * n.stirlingSecond k * x.descFactorial k) (n + 1)
      have h2 := sum_range_succ (fun k => k * n.stirlingSecond k * x.descFactorial k) (n + 1)
      rw [Nat.stirlingSecond_eq_zero_of_lt (Nat.lt_succ_self n)] at h2
      simp only [Nat.zero_mul, Nat.mul_zero, Nat.add_zero] at h1 h2
      rw [← h1, h2]
    rw [e2, ← sum_add_distrib]
    refine sum_congr rfl fun k _ => ?_
    have := key k
    calc k * n.stirlingSecond k * x.descFactorial k + n.stirlingSecond k * x.descFactorial (k + 1)
        = n.stirlingSecond k * (x.descFactorial (k + 1) + k * x.descFactorial k) := by ring
      _ = n.stirlingSecond k * x.descFactorial k * x := by rw [this]; ring

/-- **C115** `x^n` is the sum over `k` of `n.stirling2(k) * x.perm(k)`. -/
theorem C115_power (hc : c.checked = true) (x n : ℕ) (hx : (x : ℤ) ≤ t.hi) (hn : (n : ℤ) ≤ t.hi) (s p : ℕ → ℤ)
    (hs : ∀ k ≤ n, RunReturns (primintStirling2 c t n k) (s k)) (hp : ∀ k ≤ n, primintPerm c t x k = .ok (p k)) :
    ∑ k ∈ range (n + 1), s k * p k = x ^ n := by
  have : ∀ k ∈ range (n + 1), s k * p k = ((n.stirlingSecond k * x.descFactorial k : ℕ) : ℤ) := by
    intro k hk
    have hk' : k ≤ n := by simpa [Nat.lt_succ_iff] using hk
    rw [(stirling_value hc hn (hs k hk')).1, (perm_value hc hx (hp k hk')).1]
    push_cast
    rfl
  rw [sum_congr rfl this]
  exact_mod_cast pow_eq_sum_stirling x n

/-! ### The hypotheses hold -/

/-- Calls on `u8` in a debug build that return. -/
example : primintComb dbg u8 8 2 = .ok 28 ∧ primintPerm dbg u8 6 3 = .ok 120 ∧
    RunReturns (primintFactorial dbg u8 5) 120 ∧ RunReturns (primintStirling2 dbg u8 5 3) 25 ∧
    RunReturns (primintFactorialk dbg u8 5 2) 15 :=
  ⟨by decide +kernel, by decide +kernel, C10_exact dbg u8 5 (by decide +kernel),
    C16_exact dbg u8 5 3 (by decide) (by decide +kernel), by
      have := C12_exact_partial dbg u8 5 2 (by decide) (by decide) (by decide) (by rw [multifactorial_two]; decide +kernel)
        (Or.inr (by decide))
      rw [multifactorial_two] at this
      exact this⟩

end SciRs.Props

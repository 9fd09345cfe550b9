import Verif.Props.Factorial
import Mathlib.Data.Nat.Choose.Basic
import Mathlib.Combinatorics.Enumerative.Stirling

/-!
# C13, C14, C15, C16: `comb`, `comb_rep`, `perm`, `stirling2`
-/

namespace SciRs.Props

open SciRs SciRs.Spec
open scoped Nat

variable (c : Cfg) (t : IntTy)

/-! ### `comb` -/

/-- `i · C(n, i)` grows with `i` up to the middle. -/
theorem mul_choose_mono (n i j : ℕ) (hij : i ≤ j) (hj : 2 * j ≤ n) :
    i * n.choose i ≤ j * n.choose j := by
  induction j with
  | zero => have : i = 0 := by omega
            subst this; exact le_rfl
  | succ j ih =>
    rcases Nat.lt_or_ge i (j + 1) with h | h
    · refine (ih (by omega) (by omega)).trans ?_
      have h1 := Nat.choose_succ_right_eq n j
      rw [Nat.mul_comm (j + 1), h1, Nat.mul_comm]
      exact Nat.mul_le_mul_left _ (by omega)
    · have : i = j + 1 := by omega
      subst this; exact le_rfl

theorem combFold_step (n i : ℕ) (is : List ℕ) (hin : i + 1 ≤ n) (hn : (n : ℤ) + 1 ≤ t.hi)
    (hp : (((i + 1) * n.choose (i + 1) : ℕ) : ℤ) ≤ t.hi) :
    combFold c t ((n : ℤ) + 1) ((i + 1) :: is) (n.choose i) =
      combFold c t ((n : ℤ) + 1) is (n.choose (i + 1)) := by
  have h1 : ((i + 1 : ℕ) : ℤ) ≤ t.hi := by push_cast; omega
  have e1 : c.sub t ((n : ℤ) + 1) ((i + 1 : ℕ) : ℤ) = .ok ((n - i : ℕ) : ℤ) := by
    rw [Cfg.sub, show (n : ℤ) + 1 - ((i + 1 : ℕ) : ℤ) = ((n - i : ℕ) : ℤ) by push_cast; omega]
    exact norm_ok c t (in_of_nonneg t (by positivity) (by omega))
  have e2 : c.mul t (n.choose i) ((n - i : ℕ) : ℤ) =
      .ok (((i + 1) * n.choose (i + 1) : ℕ) : ℤ) := by
    rw [Cfg.mul, ← Nat.cast_mul, ← Nat.choose_succ_right_eq, Nat.mul_comm]
    exact norm_ok c t (in_of_nonneg t (by positivity) hp)
  have e3 : c.div t (((i + 1) * n.choose (i + 1) : ℕ) : ℤ) ((i + 1 : ℕ) : ℤ) =
      .ok ((n.choose (i + 1) : ℕ) : ℤ) := by
    have g1 : ¬ ((i + 1 : ℕ) : ℤ) = 0 := by push_cast; omega
    have g2 : Int.tdiv (((i + 1) * n.choose (i + 1) : ℕ) : ℤ) ((i + 1 : ℕ) : ℤ) =
        ((n.choose (i + 1) : ℕ) : ℤ) := by
      rw [Int.tdiv_eq_ediv_of_nonneg (by positivity), ← Int.natCast_div,
        Nat.mul_div_cancel_left _ (by omega)]
    have g3 : t.In ((n.choose (i + 1) : ℕ) : ℤ) := by
      refine in_of_nonneg t (by positivity) (le_trans ?_ hp)
      exact_mod_cast Nat.le_mul_of_pos_left _ (by omega)
    simp only [Cfg.div, g1, if_false, g2, g3, if_true]
  simp only [combFold, fromNat_ok t h1, ok_bind, e1, e2, e3]

theorem combFold_ok (n i d : ℕ) (h2 : 2 * (i + d) ≤ n) (hn : (n : ℤ) + 1 ≤ t.hi)
    (hp : (((i + d) * n.choose (i + d) : ℕ) : ℤ) ≤ t.hi) :
    combFold c t ((n : ℤ) + 1) (List.range' (i + 1) d) (n.choose i) =
      .ok ((n.choose (i + d) : ℕ) : ℤ) := by
  induction d generalizing i with
  | zero => simp [combFold]
  | succ d ih =>
    rw [List.range'_succ, combFold_step c t n i _ (by omega) hn]
    · have := ih (i + 1) (by omega) (by rw [show i + 1 + d = i + (d + 1) by ring]; exact hp)
      rw [this, show i + 1 + d = i + (d + 1) by ring]
    · refine le_trans ?_ hp
      exact_mod_cast mul_choose_mono n (i + 1) (i + (d + 1)) (by omega) h2

theorem combFold_err (hc : c.checked = true) (n i d : ℕ) (h2 : 2 * (i + d) ≤ n)
    (hn : (n : ℤ) + 1 ≤ t.hi) (hi : ((i * n.choose i : ℕ) : ℤ) ≤ t.hi)
    (hp : t.hi < (((i + d) * n.choose (i + d) : ℕ) : ℤ)) :
    combFold c t ((n : ℤ) + 1) (List.range' (i + 1) d) (n.choose i) = .error Err.overflow := by
  induction d generalizing i with
  | zero => simp only [Nat.add_zero] at hp; omega
  | succ d ih =>
    rw [List.range'_succ]
    by_cases hstep : (((i + 1) * n.choose (i + 1) : ℕ) : ℤ) ≤ t.hi
    · rw [combFold_step c t n i _ (by omega) hn hstep]
      exact ih (i + 1) (by omega) hstep (by rw [show i + 1 + d = i + (d + 1) by ring]; exact hp)
    · have h1 : ((i + 1 : ℕ) : ℤ) ≤ t.hi := by push_cast; omega
      have e1 : c.sub t ((n : ℤ) + 1) ((i + 1 : ℕ) : ℤ) = .ok ((n - i : ℕ) : ℤ) := by
        rw [Cfg.sub, show (n : ℤ) + 1 - ((i + 1 : ℕ) : ℤ) = ((n - i : ℕ) : ℤ) by push_cast; omega]
        exact norm_ok c t (in_of_nonneg t (by positivity) (by omega))
      have e2 : c.mul t (n.choose i) ((n - i : ℕ) : ℤ) = .error Err.overflow := by
        rw [Cfg.mul, ← Nat.cast_mul, ← Nat.choose_succ_right_eq, Nat.mul_comm]
        exact norm_err c t hc (fun hin => hstep hin.2)
      simp only [combFold, fromNat_ok t h1, ok_bind, e1, e2, error_bind]

/-- **C13** Arguments outside `0 ≤ k ≤ n` give 0, in every build. -/
theorem C13_outside (n k : ℤ) (h : n < 0 ∨ k < 0 ∨ n < k) : primintComb c t n k = .ok 0 := by
  have : k > n ∨ n < 0 ∨ k < 0 := by omega
  simp only [primintComb, this, if_true]

theorem choose_min (n k : ℕ) (h : k ≤ n) : n.choose (min k (n - k)) = n.choose k := by
  rcases Nat.le_total k (n - k) with h1 | h1
  · rw [Nat.min_eq_left h1]
  · rw [Nat.min_eq_right h1, Nat.choose_symm h]

/-- If the last intermediate product fits, the number of terms fits a `usize`. -/
theorem terms_fit (n j : ℕ) (h2 : 2 * j ≤ n) (h : ((j * n.choose j : ℕ) : ℤ) ≤ t.hi) :
    ((j + 1 : ℕ) : ℤ) ≤ c.usizeMax := by
  by_contra hcon
  have hu := usizeMax_ge c
  have hj : 128 ≤ j := by push_cast at hcon; omega
  have h3 := mul_choose_mono n 128 j hj h2
  have h4 : Nat.choose 256 128 ≤ n.choose 128 := Nat.choose_le_choose 128 (by omega)
  have h5 : 2 ^ 128 ≤ Nat.choose 256 128 := by decide +kernel
  have h6 : 2 ^ 128 ≤ j * n.choose j := by
    calc 2 ^ 128 ≤ n.choose 128 := h5.trans h4
      _ ≤ 128 * n.choose 128 := Nat.le_mul_of_pos_left _ (by omega)
      _ ≤ _ := h3
  have h7 : ((2 ^ 128 : ℕ) : ℤ) ≤ t.hi := le_trans (by exact_mod_cast h6) h
  have h8 := hi_lt t
  push_cast at h7
  omega

theorem comb_reduce (n k : ℕ) (hk : k ≤ n) (hn : (n : ℤ) + 1 ≤ t.hi) :
    primintComb c t n k = (do
      let nTerms ← c.toUsize (((min k (n - k) + 1 : ℕ)) : ℤ)
      combFold c t ((n : ℤ) + 1) (List.range' 1 (nTerms - 1)) 1 : Res ℤ) := by
  have g : ¬ ((k : ℤ) > n ∨ (n : ℤ) < 0 ∨ (k : ℤ) < 0) := by omega
  have e1 : c.add t n 1 = .ok ((n : ℤ) + 1) := by
    rw [Cfg.add]; exact norm_ok c t (in_of_nonneg t (by omega) hn)
  have e2 : c.sub t n k = .ok (((n - k : ℕ)) : ℤ) := by
    rw [Cfg.sub, show (n : ℤ) - k = ((n - k : ℕ) : ℤ) by omega]
    exact norm_ok c t (in_of_nonneg t (by positivity) (by omega))
  have e3 : c.add t (min (k : ℤ) ((n - k : ℕ) : ℤ)) 1 = .ok ((min k (n - k) + 1 : ℕ) : ℤ) := by
    rw [Cfg.add, show min (k : ℤ) ((n - k : ℕ) : ℤ) + 1 = ((min k (n - k) + 1 : ℕ) : ℤ) by
      push_cast; rfl]
    exact norm_ok c t (in_of_nonneg t (by positivity) (by push_cast; omega))
  simp only [primintComb, g, if_false, e1, e2, e3, ok_bind]

/-- **C13 (partial)** The full claim is: whenever `C(n, k)` is a value of the type, `comb` returns it.
That is false of the code (`C13_spurious_panic`).  Proved, in every build: for `0 ≤ k ≤ n` it returns
`C(n, k)` if `n` is not the maximum of the type and the product `min(k, n-k) · C(n, k)` is a value of
the type; in particular every division of the loop is exact.  Missing: the inputs for which only
`C(n, k)` itself fits. -/
theorem C13_exact_partial (n k : ℕ) (hk : k ≤ n) (hn : (n : ℤ) < t.hi)
    (h : ((min k (n - k) * n.choose k : ℕ) : ℤ) ≤ t.hi) :
    primintComb c t n k = .ok ((n.choose k : ℕ) : ℤ) := by
  have hm := choose_min n k hk
  rw [← hm] at h ⊢
  have h2 : 2 * min k (n - k) ≤ n := by omega
  generalize hj : min k (n - k) = j at *
  rw [comb_reduce c t n k hk (by omega), hj,
    toUsize_ok c (by positivity) (terms_fit c t n j h2 h), ok_bind, Int.toNat_natCast,
    Nat.add_sub_cancel]
  have := combFold_ok c t n 0 j (by omega) (by omega) (by rw [Nat.zero_add]; exact h)
  simpa using this

example : 2 ≤ 5 ∧ ((min 2 (5 - 2) * Nat.choose 5 2 : ℕ) : ℤ) ≤ u8.hi ∧ ((5 : ℕ) : ℤ) < u8.hi := by
  decide +kernel

/-- **C13** The exact panic set with overflow checks, for values `0 ≤ k ≤ n` of the type. -/
theorem C13_panics_iff (hc : c.checked = true) (n k : ℕ) (hk : k ≤ n) (hn : (n : ℤ) ≤ t.hi) :
    Panics (primintComb c t n k) ↔
      (n : ℤ) = t.hi ∨ t.hi < ((min k (n - k) * n.choose k : ℕ) : ℤ) := by
  constructor
  · intro hp
    by_contra hcon
    rw [not_or, not_lt] at hcon
    rw [C13_exact_partial c t n k hk (by omega) hcon.2] at hp
    exact panics_ok _ hp
  · intro hbad
    by_cases hmax : (n : ℤ) = t.hi
    · have g : ¬ ((k : ℤ) > n ∨ (n : ℤ) < 0 ∨ (k : ℤ) < 0) := by omega
      have e1 : c.add t n 1 = .error Err.overflow := by
        rw [Cfg.add]; exact norm_err c t hc (fun hin => by have := hin.2; omega)
      simp only [primintComb, g, if_false, e1, error_bind]
      simp
    · have hbig := hbad.resolve_left hmax
      rw [← choose_min n k hk] at hbig
      have h2 : 2 * min k (n - k) ≤ n := by omega
      rw [comb_reduce c t n k hk (by omega)]
      generalize hj : min k (n - k) = j at *
      by_cases hu : ((j + 1 : ℕ) : ℤ) ≤ c.usizeMax
      · rw [toUsize_ok c (by positivity) hu, ok_bind, Int.toNat_natCast, Nat.add_sub_cancel]
        have := combFold_err c t hc n 0 j (by omega) (by omega)
          (by have := hi_ge t; simp; omega) (by rw [Nat.zero_add]; exact hbig)
        rw [Nat.choose_zero_right, Nat.zero_add, Nat.cast_one] at this
        rw [this]
        simp
      · rw [toUsize_err c (fun h => hu h.2)]
        simp

/-- **C13** Representable binomials are not always returned: `C(10, 5) = 252` fits `u8` and
`C(255, 0) = 1` does too, but both calls panic with overflow checks. -/
theorem C13_spurious_panic :
    (((Nat.choose 10 5 : ℕ) : ℤ) ≤ u8.hi ∧ Panics (primintComb dbg u8 10 5)) ∧
    (((Nat.choose 255 0 : ℕ) : ℤ) ≤ u8.hi ∧ Panics (primintComb dbg u8 255 0)) := by
  refine ⟨⟨by decide +kernel, ?_⟩, ⟨by decide +kernel, ?_⟩⟩
  · have := (C13_panics_iff dbg u8 rfl 10 5 (by decide) (by decide)).mpr
      (Or.inr (by decide +kernel))
    exact_mod_cast this
  · have := (C13_panics_iff dbg u8 rfl 255 0 (by decide) (by decide)).mpr (Or.inl (by decide))
    exact_mod_cast this

/-- **C13** Without overflow checks `10u8.comb(5)` returns a wrong number instead of `252`. -/
theorem C13_wrong_value : ∃ v, primintComb rel u8 10 5 = .ok v ∧ v ≠ 252 :=
  ⟨19, by decide +kernel, by decide⟩

/-! ### `comb_rep` -/

/-- **C14** For `n + k > 0`, `n, k ≥ 0`, whenever the call to `comb` succeeds exactly, `comb_rep`
returns the number of multisets of size `k` from `n` elements. -/
theorem C14_exact (n k : ℕ) (hpos : 0 < n + k) (hfit : ((n + k : ℕ) : ℤ) ≤ t.hi)
    (h : ((min k (n - 1) * n.multichoose k : ℕ) : ℤ) ≤ t.hi) :
    primintCombRep c t n k = .ok ((n.multichoose k : ℕ) : ℤ) := by
  have e1 : c.add t n k = .ok ((n + k : ℕ) : ℤ) := by
    rw [Cfg.add, ← Nat.cast_add]
    exact norm_ok c t (in_of_nonneg t (by positivity) hfit)
  have e2 : c.sub t ((n + k : ℕ) : ℤ) 1 = .ok ((n + k - 1 : ℕ) : ℤ) := by
    rw [Cfg.sub, show ((n + k : ℕ) : ℤ) - 1 = ((n + k - 1 : ℕ) : ℤ) by omega]
    exact norm_ok c t (in_of_nonneg t (by positivity) (by omega))
  have g : ¬ ((n + k : ℕ) : ℤ) = 0 := by omega
  unfold primintCombRep
  simp only [e1, ok_bind, g, if_false, e2]
  rw [Nat.multichoose_eq] at h ⊢
  by_cases hn : n = 0
  · subst hn
    rw [Nat.choose_eq_zero_of_lt (by omega)]
    rw [C13_outside c t _ _ (Or.inr (Or.inr (by push_cast; omega)))]
    rfl
  · refine C13_exact_partial c t (n + k - 1) k (by omega) (by omega) ?_
    rwa [show n + k - 1 - k = n - 1 by omega]

example : 0 < 5 + 2 ∧ ((min 2 (5 - 1) * Nat.multichoose 5 2 : ℕ) : ℤ) ≤ u8.hi := by
  rw [Nat.multichoose_eq]; decide +kernel

/-- **C14** `comb_rep(0, 0)` is 0 (not 1, the number of empty multisets), and so is every call with
`n + k = 0`. -/
theorem C14_zero (n k : ℤ) (h : n + k = 0) : primintCombRep c t n k = .ok 0 := by
  have e1 : c.add t n k = .ok 0 := by
    rw [Cfg.add, h]; exact norm_ok c t (in_of_nonneg t le_rfl (by have := hi_ge t; omega))
  unfold primintCombRep
  simp only [e1, ok_bind, if_true]
  rfl

/-- **C14** Negative arguments give 0 unless `n + k` or `n + k - 1` is below the minimum of the
type. -/
theorem C14_negative (n k : ℤ) (h : n < 0 ∨ k < 0) (hn : n ≤ t.hi) (hk : k ≤ t.hi)
    (hfit : t.lo ≤ n + k - 1) : primintCombRep c t n k = .ok 0 := by
  by_cases h0 : n + k = 0
  · exact C14_zero c t n k h0
  · have e1 : c.add t n k = .ok (n + k) := by
      rw [Cfg.add]; exact norm_ok c t ⟨by omega, by omega⟩
    have e2 : c.sub t (n + k) 1 = .ok (n + k - 1) := by
      rw [Cfg.sub]; exact norm_ok c t ⟨by omega, by omega⟩
    unfold primintCombRep
    simp only [e1, ok_bind, h0, if_false, e2]
    exact C13_outside c t _ _ (by omega)

/-- **C14** The exact panic set with overflow checks for values `n, k ≥ 0`: `n + k` does not fit, or
the intermediate product of the binomial loop does not.  (`C(n+k-1, k)` is only reached for
`n ≥ 1`.) -/
theorem C14_panics_iff (hc : c.checked = true) (n k : ℕ) :
    Panics (primintCombRep c t n k) ↔
      t.hi < ((n + k : ℕ) : ℤ) ∨
        (0 < n ∧ t.hi < ((min k (n - 1) * n.multichoose k : ℕ) : ℤ)) := by
  by_cases hfit : ((n + k : ℕ) : ℤ) ≤ t.hi
  · have e1 : c.add t n k = .ok ((n + k : ℕ) : ℤ) := by
      rw [Cfg.add, ← Nat.cast_add]
      exact norm_ok c t (in_of_nonneg t (by positivity) hfit)
    by_cases hz : n + k = 0
    · rw [C14_zero c t n k (by omega)]
      simp; omega
    · by_cases hn : n = 0
      · subst hn
        rw [C14_exact c t 0 k (by omega) hfit (by have := hi_ge t; simp; omega)]
        simp only [panics_ok, false_iff]; omega
      · have e2 : c.sub t ((n + k : ℕ) : ℤ) 1 = .ok ((n + k - 1 : ℕ) : ℤ) := by
          rw [Cfg.sub, show ((n + k : ℕ) : ℤ) - 1 = ((n + k - 1 : ℕ) : ℤ) by omega]
          exact norm_ok c t (in_of_nonneg t (by positivity) (by omega))
        have g : ¬ ((n + k : ℕ) : ℤ) = 0 := by omega
        have hred : primintCombRep c t n k = primintComb c t ((n + k - 1 : ℕ) : ℤ) k := by
          unfold primintCombRep
          simp only [e1, ok_bind, g, if_false, e2]
        rw [hred, C13_panics_iff c t hc (n + k - 1) k (by omega) (by omega),
          show n + k - 1 - k = n - 1 by omega, ← Nat.multichoose_eq]
        constructor
        · rintro (h | h)
          · omega
          · exact Or.inr ⟨by omega, h⟩
        · rintro (h | ⟨_, h⟩)
          · omega
          · exact Or.inr h
  · have e1 : c.add t n k = .error Err.overflow := by
      rw [Cfg.add, ← Nat.cast_add]
      exact norm_err c t hc (fun hin => hfit hin.2)
    unfold primintCombRep
    simp only [e1, error_bind]
    simp; omega

/-! ### `perm` -/

theorem permFold_eq (l : List ℕ) (r : ℤ) : permFold c t l r = foldProduct c t l r := by
  induction l generalizing r with
  | nil => rfl
  | cons v vs ih =>
    simp only [permFold, foldProduct, ih]

theorem range'_desc (a k : ℕ) : (List.range' (a + 1) k).prod = (a + k).descFactorial k := by
  rw [Nat.add_descFactorial_eq_ascFactorial]
  induction k with
  | zero => simp
  | succ k ih =>
    rw [List.range'_concat, List.prod_append, ih, Nat.ascFactorial_succ]
    simp
    ring

/-- **C15** Arguments outside `0 ≤ k ≤ n` give 0, in every build. -/
theorem C15_outside (n k : ℤ) (h : n < 0 ∨ k < 0 ∨ n < k) : primintPerm c t n k = .ok 0 := by
  have : k > n ∨ n < 0 ∨ k < 0 := by omega
  simp only [primintPerm, this, if_true]

theorem perm_reduce (n k : ℕ) (hk : k ≤ n) (hn : (n : ℤ) < t.hi)
    (hu : ((n + 1 : ℕ) : ℤ) ≤ c.usizeMax) :
    primintPerm c t n k = foldProduct c t (List.range' (n - k + 1) k) ((1 : ℕ) : ℤ) := by
  have g : ¬ ((k : ℤ) > n ∨ (n : ℤ) < 0 ∨ (k : ℤ) < 0) := by omega
  have e1 : c.sub t n k = .ok (((n - k : ℕ)) : ℤ) := by
    rw [Cfg.sub, show (n : ℤ) - k = ((n - k : ℕ) : ℤ) by omega]
    exact norm_ok c t (in_of_nonneg t (by positivity) (by omega))
  have e2 : c.add t ((n - k : ℕ) : ℤ) 1 = .ok ((n - k + 1 : ℕ) : ℤ) := by
    rw [Cfg.add, show ((n - k : ℕ) : ℤ) + 1 = ((n - k + 1 : ℕ) : ℤ) by push_cast; rfl]
    exact norm_ok c t (in_of_nonneg t (by positivity) (by push_cast; omega))
  have e3 : c.add t n 1 = .ok ((n + 1 : ℕ) : ℤ) := by
    rw [Cfg.add, show (n : ℤ) + 1 = ((n + 1 : ℕ) : ℤ) by push_cast; rfl]
    exact norm_ok c t (in_of_nonneg t (by positivity) (by push_cast; omega))
  have e4 : c.toUsize ((n - k + 1 : ℕ) : ℤ) = .ok (n - k + 1) := by
    rw [toUsize_ok c (by positivity) (by push_cast at hu ⊢; omega), Int.toNat_natCast]
  have e5 : c.toUsize ((n + 1 : ℕ) : ℤ) = .ok (n + 1) := by
    rw [toUsize_ok c (by positivity) hu, Int.toNat_natCast]
  simp only [primintPerm, g, if_false, e1, e2, e3, e4, e5, ok_bind, permFold_eq]
  rw [show n + 1 - (n - k + 1) = k by omega]
  rfl

/-- **C15** For `0 ≤ k ≤ n` with `n` below the maximum of the type and `n + 1` a `usize`, `perm`
returns the number of injections `n (n-1) ⋯ (n-k+1)` if that is a value of the type, in every
build. -/
theorem C15_exact (n k : ℕ) (hk : k ≤ n) (hn : (n : ℤ) < t.hi)
    (hu : ((n + 1 : ℕ) : ℤ) ≤ c.usizeMax) (h : ((n.descFactorial k : ℕ) : ℤ) ≤ t.hi) :
    primintPerm c t n k = .ok ((n.descFactorial k : ℕ) : ℤ) := by
  have hd := range'_desc (n - k) k
  rw [show n - k + k = n by omega] at hd
  rw [perm_reduce c t n k hk hn hu, ← hd]
  have := foldProduct_ok c t (List.range' (n - k + 1) k) 1 le_rfl
    (fun v hv => by have := List.mem_range'_1.mp hv; omega) (by rw [Nat.one_mul, hd]; exact h)
  rwa [Nat.one_mul] at this

example : 3 ≤ 6 ∧ ((Nat.descFactorial 6 3 : ℕ) : ℤ) ≤ u8.hi ∧
    ((6 + 1 : ℕ) : ℤ) ≤ dbg.usizeMax := by decide +kernel

/-- **C15** The exact panic set with overflow checks for values `0 ≤ k ≤ n`: `n` is the maximum of the
type, `n + 1` is not a `usize` (possible for types wider than a pointer), or the product does not
fit. -/
theorem C15_panics_iff (hc : c.checked = true) (n k : ℕ) (hk : k ≤ n) (hn : (n : ℤ) ≤ t.hi) :
    Panics (primintPerm c t n k) ↔
      (n : ℤ) = t.hi ∨ c.usizeMax < ((n + 1 : ℕ) : ℤ) ∨
        t.hi < ((n.descFactorial k : ℕ) : ℤ) := by
  constructor
  · intro hp
    by_contra hcon
    rw [not_or, not_or, not_lt, not_lt] at hcon
    rw [C15_exact c t n k hk (by omega) hcon.2.1 hcon.2.2] at hp
    exact panics_ok _ hp
  · intro hbad
    by_cases hmax : (n : ℤ) < t.hi
    · by_cases hu : ((n + 1 : ℕ) : ℤ) ≤ c.usizeMax
      · have hbig : t.hi < ((n.descFactorial k : ℕ) : ℤ) := by omega
        rw [perm_reduce c t n k hk hmax hu]
        have hd := range'_desc (n - k) k
        rw [show n - k + k = n by omega] at hd
        exact foldProduct_err c t hc _ 1 (by have := hi_ge t; push_cast; omega)
          (by rw [Nat.one_mul, hd]; exact hbig)
      · have g : ¬ ((k : ℤ) > n ∨ (n : ℤ) < 0 ∨ (k : ℤ) < 0) := by omega
        have e1 : c.sub t n k = .ok (((n - k : ℕ)) : ℤ) := by
          rw [Cfg.sub, show (n : ℤ) - k = ((n - k : ℕ) : ℤ) by omega]
          exact norm_ok c t (in_of_nonneg t (by positivity) (by omega))
        have e2 : c.add t ((n - k : ℕ) : ℤ) 1 = .ok ((n - k + 1 : ℕ) : ℤ) := by
          rw [Cfg.add, show ((n - k : ℕ) : ℤ) + 1 = ((n - k + 1 : ℕ) : ℤ) by push_cast; rfl]
          exact norm_ok c t (in_of_nonneg t (by positivity) (by push_cast; omega))
        have e3 : c.add t n 1 = .ok ((n + 1 : ℕ) : ℤ) := by
          rw [Cfg.add, show (n : ℤ) + 1 = ((n + 1 : ℕ) : ℤ) by push_cast; rfl]
          exact norm_ok c t (in_of_nonneg t (by positivity) (by push_cast; omega))
        have e5 : c.toUsize ((n + 1 : ℕ) : ℤ) = .error Err.unwrap :=
          toUsize_err c (fun h => hu h.2)
        simp only [primintPerm, g, if_false, e1, e2, e3, ok_bind]
        by_cases h4 : ((n - k + 1 : ℕ) : ℤ) ≤ c.usizeMax
        · rw [toUsize_ok c (by positivity) h4, ok_bind, e5]; simp
        · rw [toUsize_err c (fun h => h4 h.2)]; simp
    · have hmax' : (n : ℤ) = t.hi := by omega
      have g : ¬ ((k : ℤ) > n ∨ (n : ℤ) < 0 ∨ (k : ℤ) < 0) := by omega
      have e1 : c.sub t n k = .ok (((n - k : ℕ)) : ℤ) := by
        rw [Cfg.sub, show (n : ℤ) - k = ((n - k : ℕ) : ℤ) by omega]
        exact norm_ok c t (in_of_nonneg t (by positivity) (by omega))
      have e3 : c.add t n 1 = .error Err.overflow := by
        rw [Cfg.add]; exact norm_err c t hc (fun hin => by have := hin.2; omega)
      simp only [primintPerm, g, if_false, e1, e3, ok_bind, error_bind]
      by_cases h2 : t.In (((n - k : ℕ) : ℤ) + 1)
      · rw [Cfg.add, norm_ok c t h2, ok_bind]
        by_cases h4 : 0 ≤ ((n - k : ℕ) : ℤ) + 1 ∧ ((n - k : ℕ) : ℤ) + 1 ≤ c.usizeMax
        · rw [toUsize_ok c h4.1 h4.2]; simp
        · rw [toUsize_err c h4]; simp
      · rw [Cfg.add, norm_err c t hc h2]; simp

/-- **C15** A representable count that panics on every build: `u128`, `n = 2^64`, `k = 1` on a 64-bit
machine. -/
example : Panics (primintPerm dbg ⟨128, false, by decide, by decide⟩ ((2 ^ 64 : ℕ) : ℤ)
    ((1 : ℕ) : ℤ)) :=
  (C15_panics_iff _ _ rfl (2 ^ 64) 1 (by decide) (by decide +kernel)).mpr
    (Or.inr (Or.inl (by decide +kernel)))

/-! ### `stirling2` -/

/-- **C16** Arguments outside `0 ≤ k ≤ n` give 0, in every build. -/
theorem C16_outside (n k : ℤ) (h : n < 0 ∨ k < 0 ∨ n < k) :
    RunReturns (primintStirling2 c t n k) 0 := by
  refine ⟨1, fun fuel hf => ?_⟩
  obtain ⟨f, rfl⟩ : ∃ f, fuel = f + 1 := ⟨fuel - 1, by omega⟩
  by_cases h1 : n < 0 ∨ k < 0
  · simp only [primintStirling2, h1, if_true]; rfl
  · have h2 : k > n := by omega
    simp only [primintStirling2, h1, if_false, h2, if_true]; rfl

theorem stirling_step (n k : ℕ) (hk : 0 < k) (hkn : k < n + 1) (hn : ((n + 1 : ℕ) : ℤ) ≤ t.hi)
    (fuel : ℕ) :
    primintStirling2 c t ((n + 1 : ℕ) : ℤ) k (fuel + 1) = (do
      let a ← primintStirling2 c t n k fuel
      let p ← c.mul t k a
      let b ← primintStirling2 c t n ((k - 1 : ℕ) : ℤ) fuel
      c.add t p b : Run ℤ) := by
  have g1 : ¬ (((n + 1 : ℕ) : ℤ) < 0 ∨ (k : ℤ) < 0) := by omega
  have g2 : ¬ ((k : ℤ) > ((n + 1 : ℕ) : ℤ)) := by omega
  have g3 : ¬ (((n + 1 : ℕ) : ℤ) = k) := by omega
  have g4 : ¬ ((k : ℤ) = 0 ∨ ((n + 1 : ℕ) : ℤ) = 0) := by omega
  have e1 : c.sub t ((n + 1 : ℕ) : ℤ) 1 = .ok (n : ℤ) := by
    rw [Cfg.sub, show ((n + 1 : ℕ) : ℤ) - 1 = (n : ℤ) by push_cast; ring]
    exact norm_ok c t (in_of_nonneg t (by positivity) (by push_cast at hn; omega))
  have e2 : c.sub t k 1 = .ok ((k - 1 : ℕ) : ℤ) := by
    rw [Cfg.sub, show (k : ℤ) - 1 = ((k - 1 : ℕ) : ℤ) by omega]
    exact norm_ok c t (in_of_nonneg t (by positivity) (by push_cast at hn; omega))
  rw [primintStirling2]
  simp only [g1, g2, g3, g4, if_false, e1, e2, Run.lift_ok, Run.ret_bind]

theorem stirling_ok (n k : ℕ) (hn : (n : ℤ) ≤ t.hi)
    (h : ((n.stirlingSecond k : ℕ) : ℤ) ≤ t.hi) (fuel : ℕ) (hf : n + 1 ≤ fuel) :
    primintStirling2 c t n k fuel = .ret ((n.stirlingSecond k : ℕ) : ℤ) := by
  induction n generalizing k fuel with
  | zero =>
    obtain ⟨f, rfl⟩ : ∃ f, fuel = f + 1 := ⟨fuel - 1, by omega⟩
    cases k with
    | zero => simp [primintStirling2]
    | succ k =>
      have g1 : ¬ (((0 : ℕ) : ℤ) < 0 ∨ ((k + 1 : ℕ) : ℤ) < 0) := by omega
      have g2 : (((k + 1 : ℕ) : ℤ) > ((0 : ℕ) : ℤ)) := by omega
      simp only [primintStirling2, g1, if_false, g2, if_true]; rfl
  | succ n ih =>
    obtain ⟨f, rfl⟩ : ∃ f, fuel = f + 1 := ⟨fuel - 1, by omega⟩
    by_cases hk0 : k = 0
    · subst hk0
      have g1 : ¬ (((n + 1 : ℕ) : ℤ) < 0 ∨ ((0 : ℕ) : ℤ) < 0) := by omega
      have g2 : ¬ (((0 : ℕ) : ℤ) > ((n + 1 : ℕ) : ℤ)) := by omega
      have g3 : ¬ (((n + 1 : ℕ) : ℤ) = ((0 : ℕ) : ℤ)) := by omega
      have g4 : (((0 : ℕ) : ℤ) = 0 ∨ ((n + 1 : ℕ) : ℤ) = 0) := Or.inl rfl
      rw [primintStirling2]
      simp only [g1, g2, g3, g4, if_false, if_true]
      rfl
    · by_cases hlt : k < n + 1
      · rw [stirling_step c t n k (by omega) hlt hn]
        have hrec := Nat.stirlingSecond_succ_left n k hk0
        rw [hrec] at h
        have hn' : (n : ℤ) ≤ t.hi := by push_cast at hn; omega
        have h1 : n.stirlingSecond k ≤ k * n.stirlingSecond k := Nat.le_mul_of_pos_left _ (by omega)
        have h1' : ((n.stirlingSecond k : ℕ) : ℤ) ≤ ((k * n.stirlingSecond k : ℕ) : ℤ) := by
          exact_mod_cast h1
        have ha : ((n.stirlingSecond k : ℕ) : ℤ) ≤ t.hi := by push_cast at h h1' ⊢; omega
        have hp : ((k * n.stirlingSecond k : ℕ) : ℤ) ≤ t.hi := by push_cast at h ⊢; omega
        have hb : ((n.stirlingSecond (k - 1) : ℕ) : ℤ) ≤ t.hi := by push_cast at h ⊢; omega
        have em : c.mul t k ((n.stirlingSecond k : ℕ) : ℤ) =
            .ok ((k * n.stirlingSecond k : ℕ) : ℤ) := by
          rw [Cfg.mul, ← Nat.cast_mul]
          exact norm_ok c t (in_of_nonneg t (by positivity) hp)
        have ea : c.add t ((k * n.stirlingSecond k : ℕ) : ℤ) ((n.stirlingSecond (k - 1) : ℕ) : ℤ) =
            .ok ((k * n.stirlingSecond k + n.stirlingSecond (k - 1) : ℕ) : ℤ) := by
          rw [Cfg.add, ← Nat.cast_add]
          exact norm_ok c t (in_of_nonneg t (by positivity) h)
        rw [ih k hn' ha f (by omega), ih (k - 1) hn' hb f (by omega)]
        simp only [Run.ret_bind, em, ea, Run.lift_ok, hrec]
      · by_cases heq : k = n + 1
        · subst heq
          have g1 : ¬ (((n + 1 : ℕ) : ℤ) < 0 ∨ ((n + 1 : ℕ) : ℤ) < 0) := by omega
          have g2 : ¬ (((n + 1 : ℕ) : ℤ) > ((n + 1 : ℕ) : ℤ)) := by omega
          rw [primintStirling2, Nat.stirlingSecond_self]
          simp only [g1, g2, if_false, if_true]
          rfl
        · have g1 : ¬ (((n + 1 : ℕ) : ℤ) < 0 ∨ (k : ℤ) < 0) := by omega
          have g2 : ((k : ℤ) > ((n + 1 : ℕ) : ℤ)) := by omega
          rw [primintStirling2, Nat.stirlingSecond_eq_zero_of_lt (by omega)]
          simp only [g1, g2, if_false, if_true]
          rfl

/-- **C16** For values `n, k ≥ 0` of the type, `stirling2` returns the Stirling number of the second
kind whenever that number is a value of the type, in every build. -/
theorem C16_exact (n k : ℕ) (hn : (n : ℤ) ≤ t.hi)
    (h : ((n.stirlingSecond k : ℕ) : ℤ) ≤ t.hi) :
    RunReturns (primintStirling2 c t n k) ((n.stirlingSecond k : ℕ) : ℤ) :=
  ⟨n + 1, fun fuel hf => stirling_ok c t n k hn h fuel hf⟩

example : ((Nat.stirlingSecond 7 3 : ℕ) : ℤ) = 301 ∧
    ((Nat.stirlingSecond 7 3 : ℕ) : ℤ) ≤ (⟨16, true, by decide, by decide⟩ : IntTy).hi := by
  decide +kernel

/-- **C16** With overflow checks `stirling2` panics exactly when the Stirling number is not a value of
the type: no intermediate result overflows before the final one does. -/
theorem C16_panics_iff (hc : c.checked = true) (n k : ℕ) (hn : (n : ℤ) ≤ t.hi) :
    RunPanics (primintStirling2 c t n k) ↔ t.hi < ((n.stirlingSecond k : ℕ) : ℤ) := by
  constructor
  · intro hp
    by_contra hcon
    exact runReturns_not_panics (C16_exact c t n k hn (by omega)) hp
  · intro hbig
    refine ⟨Err.overflow, by simp, n + 1, fun fuel hf => ?_⟩
    show _ = Run.err Err.overflow
    induction n generalizing k fuel with
    | zero =>
      exfalso
      have hh := hi_ge t
      cases k with
      | zero => simp at hbig; omega
      | succ k => simp at hbig; omega
    | succ n ih =>
      obtain ⟨f, rfl⟩ : ∃ f, fuel = f + 1 := ⟨fuel - 1, by omega⟩
      have hh := hi_ge t
      have hk0 : k ≠ 0 := by
        rintro rfl
        simp at hbig; omega
      have hlt : k < n + 1 := by
        by_contra hcon
        rcases Nat.lt_or_ge (n + 1) k with h | h
        · rw [Nat.stirlingSecond_eq_zero_of_lt h] at hbig; simp at hbig; omega
        · have : k = n + 1 := by omega
          subst this
          rw [Nat.stirlingSecond_self] at hbig; simp at hbig; omega
      rw [stirling_step c t n k (by omega) hlt hn]
      have hrec := Nat.stirlingSecond_succ_left n k hk0
      rw [hrec] at hbig
      have hn' : (n : ℤ) ≤ t.hi := by push_cast at hn; omega
      by_cases ha : ((n.stirlingSecond k : ℕ) : ℤ) ≤ t.hi
      · rw [stirling_ok c t n k hn' ha f (by omega)]
        simp only [Run.ret_bind]
        by_cases hp : ((k * n.stirlingSecond k : ℕ) : ℤ) ≤ t.hi
        · have em : c.mul t k ((n.stirlingSecond k : ℕ) : ℤ) =
              .ok ((k * n.stirlingSecond k : ℕ) : ℤ) := by
            rw [Cfg.mul, ← Nat.cast_mul]
            exact norm_ok c t (in_of_nonneg t (by positivity) hp)
          simp only [em, Run.lift_ok, Run.ret_bind]
          by_cases hb : ((n.stirlingSecond (k - 1) : ℕ) : ℤ) ≤ t.hi
          · rw [stirling_ok c t n (k - 1) hn' hb f (by omega)]
            have ea : c.add t ((k * n.stirlingSecond k : ℕ) : ℤ)
                ((n.stirlingSecond (k - 1) : ℕ) : ℤ) = .error Err.overflow := by
              rw [Cfg.add, ← Nat.cast_add]
              exact norm_err c t hc (fun hin => by have := hin.2; omega)
            simp only [Run.ret_bind, ea, Run.lift_error]
          · rw [ih (k - 1) hn' (by omega) f (by omega)]
            simp only [Run.err_bind]
        · have em : c.mul t k ((n.stirlingSecond k : ℕ) : ℤ) = .error Err.overflow := by
            rw [Cfg.mul, ← Nat.cast_mul]
            exact norm_err c t hc (fun hin => hp hin.2)
          simp only [em, Run.lift_error, Run.err_bind]
      · rw [ih k hn' (by omega) f (by omega)]
        simp only [Run.err_bind]

example : RunPanics (primintStirling2 dbg u8 ((7 : ℕ) : ℤ) ((3 : ℕ) : ℤ)) :=
  (C16_panics_iff _ _ rfl 7 3 (by decide)).mpr (by decide +kernel)

end SciRs.Props

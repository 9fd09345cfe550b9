import Verif.Lemmas.PrimInt

/-!
# C10, C11, C12: `factorial`, `factorial2`, `factorialk`

For every integer type `t`, every pointer width and both build modes (`c : Cfg`).
-/

namespace SciRs.Props

open SciRs SciRs.Spec Finset
open scoped Nat

variable (c : Cfg) (t : IntTy)

/-! ### `factorial` -/

/-- **C10** A negative argument gives 0. -/
theorem C10_negative (n : ℤ) (h : n < 0) : RunReturns (primintFactorial c t n) 0 :=
  endsWith_const fun fuel => by simp [primintFactorial, h, Run.lift]

theorem cache_eq : ∀ i < 17, tableGet factorialCache i = .ok (i !) := by decide

theorem cache2_eq : ∀ i < 33, tableGet factorial2Cache i = .ok (i ‼) := by decide

theorem range'_prod (n : ℕ) (h : 16 ≤ n) :
    16 ! * (List.range' 17 (n + 1 - 17)).prod = n ! := by
  obtain ⟨d, rfl⟩ : ∃ d, n = 16 + d := ⟨n - 16, by omega⟩
  rw [show 16 + d + 1 - 17 = d by omega]
  clear h
  induction d with
  | zero => simp
  | succ d ih =>
    rw [List.range'_concat, List.prod_append, ← Nat.mul_assoc, ih, ← Nat.add_assoc,
      Nat.factorial_succ]
    simp
    ring

theorem factorial_large (n : ℕ) (h17 : 17 ≤ n) (hn : (n : ℤ) ≤ t.hi) (fuel : ℕ) :
    primintFactorial c t n fuel = (do
      let left ← t.fromNat (16 !)
      let right ← partialProduct c t 17 n 1 fuel
      c.mul t left right : Run ℤ) := by
  have h1 : ¬ ((n : ℤ) < 0) := by omega
  have h2 : ¬ ((n : ℤ) < 17) := by omega
  have h3 : t.fromNat 17 = .ok 17 := fromNat_ok t (n := 17) (by have := hi_ge t; omega)
  have h4 : tableGet factorialCache 16 = .ok (16 !) := cache_eq 16 (by omega)
  unfold primintFactorial
  simp only [h1, h3, h4, if_false, Run.lift_ok, Run.ret_bind]
  simp only [h2, if_false]

theorem factorial_small (n : ℕ) (h17 : n < 17) (fuel : ℕ) :
    primintFactorial c t n fuel = Run.lift (t.fromNat (n !)) := by
  have h1 : ¬ ((n : ℤ) < 0) := by omega
  have h2 : (n : ℤ) < 17 := by omega
  have h3 : t.fromNat 17 = .ok 17 := fromNat_ok t (n := 17) (by have := hi_ge t; omega)
  have h5 : c.toUsize n = .ok n := by
    rw [toUsize_ok c (by omega) (by have := usizeMax_ge c; omega)]; simp
  unfold primintFactorial
  simp only [h1, h3, if_false, Run.lift_ok, Run.ret_bind, h2, if_true, h5, cache_eq n h17]
  rfl

/-- **C10** If `n!` is a value of the type, `factorial` returns exactly `n!`, in every build. -/
theorem C10_exact (n : ℕ) (h : ((n ! : ℕ) : ℤ) ≤ t.hi) :
    RunReturns (primintFactorial c t n) ((n ! : ℕ) : ℤ) := by
  refine endsWith_const fun fuel => ?_
  by_cases h17 : n < 17
  · rw [factorial_small c t n h17, fromNat_ok t h]
  · have hn : (n : ℤ) ≤ t.hi := le_trans (by exact_mod_cast Nat.self_le_factorial n) h
    rw [factorial_large c t n (by omega) hn]
    have hprod := range'_prod n (by omega)
    have hlarge : n ≤ 60000 := by
      by_contra hcon
      have h1 : 128 ! ≤ n ! := Nat.factorial_le (by omega)
      have h2 : (2 : ℕ) ^ 128 ≤ 128 ! := by decide +kernel
      have h3 : ((2 ^ 128 : ℕ) : ℤ) ≤ t.hi := le_trans (by exact_mod_cast h2.trans h1) h
      have h4 := hi_lt t
      push_cast at h3
      omega
    have hu := usizeMax_ge c
    have h16 : ((16 ! : ℕ) : ℤ) ≤ t.hi :=
      le_trans (by exact_mod_cast Nat.factorial_le (show 16 ≤ n by omega)) h
    have hpp : partialProduct c t 17 n 1 fuel =
        Run.ret (((List.range' 17 (n + 1 - 17)).prod : ℕ) : ℤ) := by
      have hf := foldProduct_ok c t (List.range' 17 (n + 1 - 17)) 1 le_rfl
        (fun v hv => by have := List.mem_range'_1.mp hv; omega) (by
          rw [Nat.one_mul]
          have : (List.range' 17 (n + 1 - 17)).prod ≤ n ! := by
            rw [← hprod]; exact Nat.le_mul_of_pos_left _ (Nat.factorial_pos 16)
          exact le_trans (by exact_mod_cast this) h)
      have e1 : c.toUsize 17 = .ok 17 := by
        rw [toUsize_ok c (by omega) (by omega)]; rfl
      have e2 : c.toUsize n = .ok n := by
        rw [toUsize_ok c (by omega) (by omega)]; simp
      have e3 : c.usizeAdd n 1 = .ok (n + 1) := usizeAdd_ok c (by push_cast; omega)
      unfold partialProduct
      have g1 : (1 : ℤ) > 0 := by omega
      have g2 : (n : ℤ) ≥ 17 := by omega
      simp only [check_true g1, check_true g2, Run.lift_ok, Run.ret_bind, if_true, e1, e2, e3]
      rw [Nat.one_mul] at hf
      rw [show ((1 : ℕ) : ℤ) = 1 from rfl] at hf
      rw [hf]
      rfl
    simp only [fromNat_ok t h16, Run.lift_ok, Run.ret_bind, hpp]
    have : c.mul t ((16 ! : ℕ) : ℤ) (((List.range' 17 (n + 1 - 17)).prod : ℕ) : ℤ) =
        .ok ((n ! : ℕ) : ℤ) := by
      rw [Cfg.mul, ← Nat.cast_mul, hprod]
      exact norm_ok c t (in_of_nonneg t (by positivity) h)
    rw [this]
    rfl

/-- For example `20!` fits `u64` but not `u32`. -/
example : (((20) ! : ℕ) : ℤ) ≤ (⟨64, false, by decide, by decide⟩ : IntTy).hi ∧
    (⟨32, false, by decide, by decide⟩ : IntTy).hi < (((20) ! : ℕ) : ℤ) := by decide +kernel

/-- **C10** With overflow checks, for every value `n` of the type, `factorial` panics exactly when
`n ≥ 0` and `n!` is not a value of the type. -/
theorem C10_panics_iff (hc : c.checked = true) (n : ℤ) (hn : t.In n) :
    RunPanics (primintFactorial c t n) ↔ 0 ≤ n ∧ t.hi < ((n.toNat ! : ℕ) : ℤ) := by
  constructor
  · intro hp
    by_contra hcon
    have : ∃ v, RunReturns (primintFactorial c t n) v := by
      by_cases h0 : n < 0
      · exact ⟨_, C10_negative c t n h0⟩
      · obtain ⟨m, rfl⟩ : ∃ m : ℕ, n = m := ⟨n.toNat, by omega⟩
        exact ⟨_, C10_exact c t m (by simp at hcon; exact hcon)⟩
    obtain ⟨v, hv⟩ := this
    exact runReturns_not_panics hv hp
  · rintro ⟨h0, hbig⟩
    obtain ⟨m, rfl⟩ : ∃ m : ℕ, n = m := ⟨n.toNat, by omega⟩
    rw [Int.toNat_natCast] at hbig
    by_cases h17 : m < 17
    · refine ⟨Err.unwrap, by simp, endsWith_const fun fuel => ?_⟩
      rw [factorial_small c t m h17]
      have : ¬ ((m ! : ℕ) : ℤ) ≤ t.hi := by omega
      simp only [IntTy.fromNat, this, if_false]
    · have key : ∃ e, e ≠ Err.ub ∧ ∀ fuel, primintFactorial c t m fuel = Run.err e := by
        simp only [factorial_large c t m (by omega) hn.2]
        by_cases h16 : ((16 ! : ℕ) : ℤ) ≤ t.hi
        · simp only [fromNat_ok t h16, Run.lift_ok, Run.ret_bind]
          unfold partialProduct
          have g1 : (1 : ℤ) > 0 := by omega
          have g2 : (m : ℤ) ≥ 17 := by omega
          have hu := usizeMax_ge c
          have e1 : c.toUsize 17 = .ok 17 := by
            rw [toUsize_ok c (by omega) (by omega)]; rfl
          simp only [check_true g1, check_true g2, Run.lift_ok, Run.ret_bind, if_true, e1]
          by_cases hm : (m : ℤ) ≤ c.usizeMax
          · have e2 : c.toUsize m = .ok m := by
              rw [toUsize_ok c (by omega) hm]; simp
            simp only [e2, Run.lift_ok, Run.ret_bind]
            by_cases hm1 : ((m + 1 : ℕ) : ℤ) ≤ c.usizeMax
            · simp only [usizeAdd_ok c hm1, Run.lift_ok, Run.ret_bind]
              by_cases hf : ((1 * (List.range' 17 (m + 1 - 17)).prod : ℕ) : ℤ) ≤ t.hi
              · have := foldProduct_ok c t (List.range' 17 (m + 1 - 17)) 1 le_rfl
                  (fun v hv => by have := List.mem_range'_1.mp hv; omega) hf
                rw [show ((1 : ℕ) : ℤ) = 1 from rfl] at this
                rw [this]
                refine ⟨Err.overflow, by simp, fun _ => ?_⟩
                simp only [Run.lift_ok, Run.ret_bind]
                have : c.mul t ((16 ! : ℕ) : ℤ)
                    ((1 * (List.range' 17 (m + 1 - 17)).prod : ℕ) : ℤ) = .error Err.overflow := by
                  rw [Cfg.mul, ← Nat.cast_mul, Nat.one_mul, range'_prod m (by omega)]
                  exact norm_err c t hc (fun hin => by have := hin.2; omega)
                rw [this]
                rfl
              · obtain ⟨e, he, hfe⟩ := foldProduct_err c t hc (List.range' 17 (m + 1 - 17)) 1
                  (by have := hi_ge t; push_cast; omega) (by omega)
                rw [show ((1 : ℕ) : ℤ) = 1 from rfl] at hfe
                exact ⟨e, he, fun _ => by simp only [hfe, Run.lift_error, Run.err_bind]⟩
            · refine ⟨Err.overflow, by simp, fun _ => ?_⟩
              simp only [Cfg.usizeAdd, hm1, if_false, hc, if_true, Run.lift_error, Run.err_bind]
          · refine ⟨Err.unwrap, by simp, fun _ => ?_⟩
            simp only [toUsize_err c (fun h => hm h.2), Run.lift_error, Run.err_bind]
        · refine ⟨Err.unwrap, by simp, fun _ => ?_⟩
          simp only [IntTy.fromNat, h16, if_false, Run.lift_error, Run.err_bind]
      obtain ⟨e, he, h⟩ := key
      exact ⟨e, he, endsWith_const h⟩

/-- `6u8.factorial()` panics with overflow checks. -/
example : RunPanics (primintFactorial ⟨64, true, by decide⟩ ⟨8, false, by decide, by decide⟩ 6) :=
  (C10_panics_iff _ _ rfl 6 (by decide)).mpr (by decide +kernel)

/-! ### `factorial2` -/

/-- **C11** A negative argument gives 0. -/
theorem C11_negative (n : ℤ) (h : n < 0) : RunReturns (primintFactorial2 c t n) 0 :=
  endsWith_const fun fuel => by simp [primintFactorial2, h, Run.lift]

theorem doubleFactorial_terms (a m : ℕ) : (a + 2 * m)‼ = a‼ * terms (a + 2) 2 m := by
  induction m with
  | zero => simp [terms]
  | succ m ih =>
    rw [terms_last, ← Nat.mul_assoc, ← ih, show a + 2 * (m + 1) = (a + 2 * m) + 2 by ring,
      Nat.doubleFactorial_add_two, Nat.mul_comm]
    congr 1
    ring

theorem factorial2_small (n : ℕ) (h33 : n < 33) (fuel : ℕ) :
    primintFactorial2 c t n fuel = Run.lift (t.fromNat (n ‼)) := by
  have h1 : ¬ ((n : ℤ) < 0) := by omega
  have h2 : (n : ℤ) < 33 := by omega
  have h3 : t.fromNat 33 = .ok 33 := fromNat_ok t (n := 33) (by have := hi_ge t; omega)
  have h5 : c.toUsize n = .ok n := by
    rw [toUsize_ok c (by omega) (by have := usizeMax_ge c; omega)]; simp
  unfold primintFactorial2
  simp only [h1, h3, if_false, Run.lift_ok, Run.ret_bind, h2, if_true, h5, cache2_eq n h33]
  rfl

/-- The two large branches are one: the last cached number `a` of the right parity, then the loop
from `a + 2`. -/
theorem factorial2_large (n : ℕ) (h33 : 33 ≤ n) :
    ∃ a m, (a = 31 ∨ a = 32) ∧ n = a + 2 * (m + 1) ∧ ∀ fuel,
      primintFactorial2 c t n fuel = (do
        let left ← t.fromNat (a ‼)
        let right ← ppLoop c t n (2 : ℕ) fuel ((a + 2 : ℕ) : ℤ) (1 : ℕ)
        c.mul t left right : Run ℤ) := by
  have h1 : ¬ ((n : ℤ) < 0) := by omega
  have h2 : ¬ ((n : ℤ) < 33) := by omega
  have hh := hi_ge t
  have h3 : t.fromNat 33 = .ok 33 := fromNat_ok t (n := 33) (by omega)
  have h3' : t.fromNat 34 = .ok 34 := fromNat_ok t (n := 34) (by omega)
  have h4 : tableGet factorial2Cache 32 = .ok (32 ‼) := cache2_eq 32 (by omega)
  have h4' : tableGet factorial2Cache 31 = .ok (31 ‼) := cache2_eq 31 (by omega)
  have h5 : c.add t 1 1 = .ok 2 := by
    rw [Cfg.add]; exact norm_ok c t (in_of_nonneg t (by omega) (by omega))
  rcases Nat.even_or_odd' n with ⟨j, hj | hj⟩
  · refine ⟨32, j - 17, Or.inr rfl, by omega, fun fuel => ?_⟩
    have hpar : (n : ℤ) % 2 = 0 ∧ 33 % 2 ≠ 0 := by omega
    have g2 : (n : ℤ) ≥ 34 := by omega
    unfold primintFactorial2
    simp only [h1, h3, h3', h4, if_false, Run.lift_ok, Run.ret_bind, h2, h5, hpar, and_self,
      if_true, partialProduct, show (2 : ℤ) > 0 by omega, check_true g2, check_true,
      show ¬ ((2 : ℤ) = 1) by omega, ne_eq, not_false_eq_true]
    rfl
  · refine ⟨31, j - 16, Or.inl rfl, by omega, fun fuel => ?_⟩
    have hpar : ¬ ((n : ℤ) % 2 = 0 ∧ 33 % 2 ≠ 0) := by omega
    have g2 : (n : ℤ) ≥ 33 := by omega
    unfold primintFactorial2
    simp only [h1, h3, h3', h4', if_false, Run.lift_ok, Run.ret_bind, h2, h5, hpar,
      partialProduct, show (2 : ℤ) > 0 by omega, check_true g2, check_true,
      show ¬ ((2 : ℤ) = 1) by omega]
    rfl

/-- **C11** If `n!!` is a value of the type, `factorial2` returns exactly `n!!`, in every build. -/
theorem C11_exact (n : ℕ) (h : ((n ‼ : ℕ) : ℤ) ≤ t.hi) :
    RunReturns (primintFactorial2 c t n) ((n ‼ : ℕ) : ℤ) := by
  by_cases h33 : n < 33
  · exact endsWith_const fun fuel => by rw [factorial2_small c t n h33, fromNat_ok t h]
  · obtain ⟨a, m, ha, hn, heq⟩ := factorial2_large c t n (by omega)
    refine ⟨m + 2, fun fuel hf => ?_⟩
    rw [heq]
    have hdf := doubleFactorial_terms a (m + 1)
    rw [← hn] at hdf
    rw [hdf] at h
    have hpos : 1 ≤ a‼ := Nat.doubleFactorial_pos a
    have htp := terms_pos (a + 2) 2 (m + 1) (by omega)
    have ha' : ((a‼ : ℕ) : ℤ) ≤ t.hi := by
      have : a‼ ≤ a‼ * terms (a + 2) 2 (m + 1) := Nat.le_mul_of_pos_right _ htp
      exact le_trans (by exact_mod_cast this) h
    have ht : ((terms (a + 2) 2 (m + 1) : ℕ) : ℤ) ≤ t.hi := by
      have : terms (a + 2) 2 (m + 1) ≤ a‼ * terms (a + 2) 2 (m + 1) :=
        Nat.le_mul_of_pos_left _ hpos
      exact le_trans (by exact_mod_cast this) h
    have hbig : ((n + 2 : ℕ) : ℤ) ≤ t.hi := by
      have h1 : n ≤ terms (a + 2) 2 (m + 1) := by
        rw [terms_last]
        have := terms_pos (a + 2) 2 m (by omega)
        calc n = a + 2 + m * 2 := by omega
          _ ≤ terms (a + 2) 2 m * (a + 2 + m * 2) := Nat.le_mul_of_pos_left _ this
      have h2 : 3 ≤ a‼ := by rcases ha with rfl | rfl <;> decide
      have h3 : n + 2 ≤ a‼ * terms (a + 2) 2 (m + 1) := by
        calc n + 2 ≤ 3 * n := by omega
          _ ≤ a‼ * terms (a + 2) 2 (m + 1) := Nat.mul_le_mul h2 h1
      exact le_trans (by exact_mod_cast h3) h
    have hloop := ppLoop_ok c t (n : ℤ) 2 (m + 1) (a + 2) 1 (by omega) le_rfl
      (fun j hj => by push_cast; omega) (by push_cast; omega)
      (by rw [Nat.one_mul]; exact ht)
      (Or.inr (by rw [show a + 2 + (m + 1) * 2 = n + 2 by omega]; exact hbig)) fuel (by omega)
    simp only [fromNat_ok t ha', Run.lift_ok, Run.ret_bind, hloop, Nat.one_mul]
    have : c.mul t ((a‼ : ℕ) : ℤ) ((terms (a + 2) 2 (m + 1) : ℕ) : ℤ) =
        .ok ((n‼ : ℕ) : ℤ) := by
      rw [Cfg.mul, ← Nat.cast_mul, hdf]
      exact norm_ok c t (in_of_nonneg t (by positivity) h)
    rw [this]
    rfl

example : (((33)‼ : ℕ) : ℤ) ≤ (⟨64, false, by decide, by decide⟩ : IntTy).hi := by decide +kernel

/-- **C11** With overflow checks `factorial2` panics exactly when `n ≥ 0` and `n!!` is not a value of
the type. -/
theorem C11_panics_iff (hc : c.checked = true) (n : ℤ) :
    RunPanics (primintFactorial2 c t n) ↔ 0 ≤ n ∧ t.hi < ((n.toNat ‼ : ℕ) : ℤ) := by
  constructor
  · intro hp
    by_contra hcon
    have : ∃ v, RunReturns (primintFactorial2 c t n) v := by
      by_cases h0 : n < 0
      · exact ⟨_, C11_negative c t n h0⟩
      · obtain ⟨m, rfl⟩ : ∃ m : ℕ, n = m := ⟨n.toNat, by omega⟩
        exact ⟨_, C11_exact c t m (by simp at hcon; exact hcon)⟩
    obtain ⟨v, hv⟩ := this
    exact runReturns_not_panics hv hp
  · rintro ⟨h0, hbig⟩
    obtain ⟨k, rfl⟩ : ∃ m : ℕ, n = m := ⟨n.toNat, by omega⟩
    rw [Int.toNat_natCast] at hbig
    by_cases h33 : k < 33
    · refine ⟨Err.unwrap, by simp, endsWith_const fun fuel => ?_⟩
      rw [factorial2_small c t k h33]
      have : ¬ ((k ‼ : ℕ) : ℤ) ≤ t.hi := by omega
      simp only [IntTy.fromNat, this, if_false]
    · obtain ⟨a, m, ha, hn, heq⟩ := factorial2_large c t k (by omega)
      by_cases ha' : ((a‼ : ℕ) : ℤ) ≤ t.hi
      · refine ⟨Err.overflow, by simp, m + 2, fun fuel hf => ?_⟩
        simp only [heq, fromNat_ok t ha', Run.lift_ok, Run.ret_bind]
        have hdf := doubleFactorial_terms a (m + 1)
        rw [← hn] at hdf
        rw [hdf] at hbig
        by_cases hok : ((1 * terms (a + 2) 2 (m + 1) : ℕ) : ℤ) ≤ t.hi ∧
            (m + 1 = 0 ∨ ((a + 2 + (m + 1) * 2 : ℕ) : ℤ) ≤ t.hi)
        · have hloop := ppLoop_ok c t (k : ℤ) 2 (m + 1) (a + 2) 1 (by omega) le_rfl
            (fun j hj => by push_cast; omega) (by push_cast; omega) hok.1 hok.2 fuel (by omega)
          simp only [hloop, Run.ret_bind]
          have : c.mul t ((a‼ : ℕ) : ℤ) ((1 * terms (a + 2) 2 (m + 1) : ℕ) : ℤ) =
              .error Err.overflow := by
            rw [Cfg.mul, ← Nat.cast_mul, Nat.one_mul]
            exact norm_err c t hc (fun hin => by have := hin.2; omega)
          rw [this]
          rfl
        · have hloop := ppLoop_err c t hc (k : ℤ) 2 (m + 1) (a + 2) 1
            (by have := hi_ge t; push_cast; omega)
            (fun j hj => by push_cast; omega) hok fuel (by omega)
          simp only [hloop, Run.err_bind]
          rfl
      · refine ⟨Err.unwrap, by simp, endsWith_const fun fuel => ?_⟩
        simp only [heq, IntTy.fromNat, ha', if_false, Run.lift_error, Run.err_bind]
        rfl

example : RunPanics (primintFactorial2 ⟨64, true, by decide⟩ ⟨16, false, by decide, by decide⟩ 13) :=
  (C11_panics_iff _ _ rfl 13).mpr (by decide +kernel)

/-! ### `factorialk` -/

/-- **C12** `factorialk` panics for `k ≤ 0`; for `k > 0` a negative `n` gives 0 and `n = 0` gives
1. -/
theorem C12_edge (n k : ℤ) :
    (k ≤ 0 → RunPanics (primintFactorialk c t n k)) ∧
    (0 < k → n < 0 → RunReturns (primintFactorialk c t n k) 0) ∧
    (0 < k → n = 0 → RunReturns (primintFactorialk c t n k) 1) := by
  refine ⟨fun h => ⟨Err.assert, by simp, endsWith_const fun fuel => ?_⟩,
    fun hk h => endsWith_const fun fuel => ?_, fun hk h => endsWith_const fun fuel => ?_⟩
  · have : ¬ k > 0 := by omega
    simp [primintFactorialk, this, Run.lift]
  · simp [primintFactorialk, hk, h, Run.lift]
  · simp [primintFactorialk, hk, h, Run.lift]

/-- The start value of the product: `n mod k`, or `k` if that is zero. -/
theorem factorialk_reduce (n k : ℕ) (hn : 0 < n) (hk : 0 < k) (hnt : (n : ℤ) ≤ t.hi)
    (hkt : (k : ℤ) ≤ t.hi) :
    ∃ s m, 1 ≤ s ∧ s ≤ k ∧ n = s + m * k ∧ ∀ fuel,
      primintFactorialk c t n k fuel = partialProduct c t (s : ℤ) n k fuel := by
  have g1 : (k : ℤ) > 0 := by omega
  have g2 : ¬ (n : ℤ) < 0 := by omega
  have g3 : ¬ (n : ℤ) = 0 := by omega
  have hdm := Nat.div_add_mod n k
  have hq : n / k ≤ n := Nat.div_le_self n k
  have hkq : k * (n / k) ≤ n := Nat.mul_div_le n k
  have e1 : c.div t n k = .ok ((n / k : ℕ) : ℤ) := by
    have h1 : ¬ (k : ℤ) = 0 := by omega
    have h2 : (n : ℤ).tdiv k = ((n / k : ℕ) : ℤ) := by
      rw [Int.tdiv_eq_ediv_of_nonneg (by omega)]; simp
    have h3 : t.In ((n / k : ℕ) : ℤ) :=
      in_of_nonneg t (by positivity) (le_trans (by exact_mod_cast hq) hnt)
    simp only [Cfg.div, h1, if_false, h2, h3, if_true]
  have e2 : c.mul t k ((n / k : ℕ) : ℤ) = .ok ((k * (n / k) : ℕ) : ℤ) := by
    rw [Cfg.mul, ← Nat.cast_mul]
    exact norm_ok c t (in_of_nonneg t (by positivity) (le_trans (by exact_mod_cast hkq) hnt))
  have e3 : c.sub t n ((k * (n / k) : ℕ) : ℤ) = .ok ((n % k : ℕ) : ℤ) := by
    have : (n : ℤ) - ((k * (n / k) : ℕ) : ℤ) = ((n % k : ℕ) : ℤ) := by
      have : ((k * (n / k) : ℕ) : ℤ) + ((n % k : ℕ) : ℤ) = n := by exact_mod_cast hdm
      omega
    rw [Cfg.sub, this]
    refine norm_ok c t (in_of_nonneg t (by positivity) (le_trans ?_ hnt))
    exact_mod_cast Nat.mod_le n k
  have hred : ∀ fuel, primintFactorialk c t n k fuel =
      if ((n % k : ℕ) : ℤ) = 0 then partialProduct c t k n k fuel
      else partialProduct c t ((n % k : ℕ) : ℤ) n k fuel := by
    intro fuel
    unfold primintFactorialk
    simp only [check_true g1, Run.lift_ok, Run.ret_bind, g2, if_false, g3, e1, e2, e3]
  by_cases h0 : n % k = 0
  · refine ⟨k, n / k - 1, by omega, le_rfl, ?_, fun fuel => ?_⟩
    · have hpos : 1 ≤ n / k := Nat.div_pos (by
        rcases Nat.lt_or_ge n k with h | h
        · rw [Nat.mod_eq_of_lt h] at h0; omega
        · exact h) hk
      rw [Nat.sub_mul, Nat.one_mul]
      have : n / k * k = n := by rw [Nat.mul_comm]; omega
      have h2 : k ≤ n / k * k := Nat.le_mul_of_pos_left _ hpos
      omega
    · rw [hred]; simp [h0]
  · refine ⟨n % k, n / k, by omega, (Nat.mod_lt n hk).le, ?_, fun fuel => ?_⟩
    · rw [Nat.mul_comm]; omega
    · have : ¬ ((n % k : ℕ) : ℤ) = 0 := by exact_mod_cast h0
      rw [hred, if_neg this]

theorem partialProduct_loop (s n k : ℕ) (hk : 2 ≤ k) (hs : s ≤ n) (fuel : ℕ) :
    partialProduct c t (s : ℤ) n k fuel = ppLoop c t n k fuel s (1 : ℕ) := by
  have g1 : (k : ℤ) > 0 := by omega
  have g2 : (n : ℤ) ≥ s := by omega
  have g3 : ¬ (k : ℤ) = 1 := by omega
  unfold partialProduct
  simp only [check_true g1, check_true g2, Run.lift_ok, Run.ret_bind, g3, if_false]
  rfl

theorem multifactorial_one (n : ℕ) : multifactorial 1 n = n ! := by
  induction n with
  | zero => rw [multifactorial]; simp
  | succ n ih => rw [multifactorial]; simp [ih, Nat.factorial_succ]

theorem range'_prod_one (n : ℕ) : (List.range' 1 n).prod = n ! := by
  induction n with
  | zero => simp
  | succ n ih =>
    rw [List.range'_concat, List.prod_append, ih, Nat.factorial_succ]
    simp
    ring

/-- **C12 (partial)** The full claim is: whenever the multifactorial `n (n-k) (n-2k) ⋯` is a value of
the type, `factorialk` returns it.  That is false of the code (`C12_spurious_panic`).  Proved, in every
build: it returns the multifactorial if that is a value of the type and, for `k ≥ 2`, also `n + k` is
one.  Missing: the inputs with `n + k` above the maximum of the type. -/
theorem C12_exact_partial (n k : ℕ) (hn : 0 < n) (hk : 0 < k) (hkt : (k : ℤ) ≤ t.hi)
    (h : ((multifactorial k n : ℕ) : ℤ) ≤ t.hi) (hnk : k = 1 ∨ ((n + k : ℕ) : ℤ) ≤ t.hi) :
    RunReturns (primintFactorialk c t n k) ((multifactorial k n : ℕ) : ℤ) := by
  have hnm : n ≤ multifactorial k n := by
    rw [multifactorial, dif_neg (by omega)]
    refine Nat.le_mul_of_pos_right _ ?_
    have hpos : ∀ x, 0 < multifactorial k x := by
      intro x
      induction x using Nat.strong_induction_on with
      | _ x ih =>
        rw [multifactorial]
        split
        · omega
        · exact Nat.mul_pos (by omega) (ih _ (by omega))
    exact hpos _
  have hnt : (n : ℤ) ≤ t.hi := le_trans (by exact_mod_cast hnm) h
  obtain ⟨s, m, hs1, hsk, hns, hred⟩ := factorialk_reduce c t n k hn hk hnt hkt
  by_cases hk1 : k = 1
  · subst hk1
    have hs : s = 1 := by omega
    subst hs
    rw [multifactorial_one] at h ⊢
    refine endsWith_const fun fuel => ?_
    rw [hred]
    have hlarge : n ≤ 60000 := by
      by_contra hcon
      have h1 : 128 ! ≤ n ! := Nat.factorial_le (by omega)
      have h2 : (2 : ℕ) ^ 128 ≤ 128 ! := by decide +kernel
      have h3 : ((2 ^ 128 : ℕ) : ℤ) ≤ t.hi := le_trans (by exact_mod_cast h2.trans h1) h
      have h4 := hi_lt t
      push_cast at h3
      omega
    have hu := usizeMax_ge c
    have g1 : (1 : ℤ) > 0 := by omega
    have g2 : (n : ℤ) ≥ 1 := by omega
    have e1 : c.toUsize 1 = .ok 1 := by
      rw [toUsize_ok c (by omega) (by omega)]; rfl
    have e2 : c.toUsize n = .ok n := by
      rw [toUsize_ok c (by omega) (by omega)]; simp
    have e3 : c.usizeAdd n 1 = .ok (n + 1) := usizeAdd_ok c (by push_cast; omega)
    have hf := foldProduct_ok c t (List.range' 1 n) 1 le_rfl
      (fun v hv => by have := List.mem_range'_1.mp hv; omega)
      (by rw [Nat.one_mul, range'_prod_one]; exact h)
    rw [Nat.one_mul, range'_prod_one] at hf
    unfold partialProduct
    simp only [check_true g1, check_true g2, Run.lift_ok, Run.ret_bind, e1, e2, e3,
      Nat.cast_one, if_true, Nat.add_sub_cancel]
    rw [show ((1 : ℕ) : ℤ) = 1 from rfl] at hf
    rw [hf]
    rfl
  · have hnk' := hnk.resolve_left hk1
    have hmt := multifactorial_terms k s m hk hs1 hsk
    rw [← hns] at hmt
    rw [hmt] at h ⊢
    refine ⟨m + 2, fun fuel hf => ?_⟩
    have hsn : s ≤ n := by rw [hns]; exact Nat.le_add_right _ _
    rw [hred, partialProduct_loop c t s n k (by omega) hsn]
    have hlast : s + (m + 1) * k = n + k := by rw [hns]; ring
    have hl := ppLoop_ok c t (n : ℤ) k (m + 1) s 1 hs1 le_rfl (fun j hj => by
      have : j * k ≤ m * k := Nat.mul_le_mul_right _ (by omega)
      have : s + j * k ≤ n := by omega
      exact_mod_cast this) (by rw [hlast]; push_cast; omega) (by rw [Nat.one_mul]; exact h)
      (Or.inr (by rw [hlast]; exact hnk')) fuel (by omega)
    rw [hl, Nat.one_mul]
    rfl

example : (0 < 10) ∧ ((multifactorial 3 10 : ℕ) : ℤ) ≤
    (⟨16, true, by decide, by decide⟩ : IntTy).hi ∧ (((10 + 3 : ℕ)) : ℤ) ≤
    (⟨16, true, by decide, by decide⟩ : IntTy).hi := by decide +kernel

/-- **C12** The exact panic set of a build with overflow checks, for positive `n` and `k`: the
multifactorial does not fit, or `k ≥ 2` and `n + k` does not fit. -/
theorem C12_panics_iff (hc : c.checked = true) (n k : ℕ) (hn : 0 < n) (hk : 0 < k)
    (hnt : (n : ℤ) ≤ t.hi) (hkt : (k : ℤ) ≤ t.hi) :
    RunPanics (primintFactorialk c t n k) ↔
      t.hi < ((multifactorial k n : ℕ) : ℤ) ∨ (k ≠ 1 ∧ t.hi < ((n + k : ℕ) : ℤ)) := by
  constructor
  · intro hp
    by_contra hcon
    rw [not_or, not_and_or, not_not, not_lt, not_lt] at hcon
    exact runReturns_not_panics (C12_exact_partial c t n k hn hk hkt hcon.1 hcon.2) hp
  · intro hbad
    obtain ⟨s, m, hs1, hsk, hns, hred⟩ := factorialk_reduce c t n k hn hk hnt hkt
    have hsn : s ≤ n := by rw [hns]; exact Nat.le_add_right _ _
    by_cases hk1 : k = 1
    · subst hk1
      have hs : s = 1 := by omega
      subst hs
      have hbig : t.hi < ((n ! : ℕ) : ℤ) := by
        rw [← multifactorial_one]; exact hbad.resolve_right (by simp)
      have hu := usizeMax_ge c
      have g1 : (1 : ℤ) > 0 := by omega
      have g2 : (n : ℤ) ≥ 1 := by omega
      have e1 : c.toUsize 1 = .ok 1 := by
        rw [toUsize_ok c (by omega) (by omega)]; rfl
      have key : ∃ e, e ≠ Err.ub ∧
          ∀ fuel, partialProduct c t ((1 : ℕ) : ℤ) n ((1 : ℕ) : ℤ) fuel = Run.err e := by
        unfold partialProduct
        simp only [check_true g1, check_true g2, Run.lift_ok, Run.ret_bind, e1, Nat.cast_one,
          if_true]
        by_cases hm : (n : ℤ) ≤ c.usizeMax
        · have e2 : c.toUsize n = .ok n := by
            rw [toUsize_ok c (by omega) hm]; simp
          simp only [e2, Run.lift_ok, Run.ret_bind]
          by_cases hm1 : ((n + 1 : ℕ) : ℤ) ≤ c.usizeMax
          · obtain ⟨e, he, hfe⟩ := foldProduct_err c t hc (List.range' 1 n) 1
              (by have := hi_ge t; push_cast; omega)
              (by rw [Nat.one_mul, range'_prod_one]; exact hbig)
            rw [show ((1 : ℕ) : ℤ) = 1 from rfl] at hfe
            refine ⟨e, he, fun _ => ?_⟩
            simp only [usizeAdd_ok c hm1, Run.lift_ok, Run.ret_bind, Nat.add_sub_cancel, hfe,
              Run.lift_error]
          · refine ⟨Err.overflow, by simp, fun _ => ?_⟩
            simp only [Cfg.usizeAdd, hm1, if_false, hc, if_true, Run.lift_error, Run.err_bind]
        · refine ⟨Err.unwrap, by simp, fun _ => ?_⟩
          simp only [toUsize_err c (fun h => hm h.2), Run.lift_error, Run.err_bind]
      obtain ⟨e, he, h⟩ := key
      exact ⟨e, he, endsWith_const fun fuel => by rw [hred, h]; rfl⟩
    · have hmt := multifactorial_terms k s m hk hs1 hsk
      rw [← hns] at hmt
      have hlast : s + (m + 1) * k = n + k := by rw [hns]; ring
      refine ⟨Err.overflow, by simp, m + 2, fun fuel hf => ?_⟩
      rw [hred, partialProduct_loop c t s n k (by omega) hsn]
      refine ppLoop_err c t hc (n : ℤ) k (m + 1) s 1 (by have := hi_ge t; push_cast; omega)
        (fun j hj => by
          have : j * k ≤ m * k := Nat.mul_le_mul_right _ (by omega)
          have : s + j * k ≤ n := by omega
          exact_mod_cast this) ?_ fuel (by omega)
      rintro ⟨b1, b2⟩
      rw [Nat.one_mul, ← hmt] at b1
      have b2' := b2.resolve_left (by omega)
      rw [hlast] at b2'
      rcases hbad with h | ⟨_, h⟩ <;> omega

/-- `u8` on a 64-bit machine, with and without overflow checks. -/
def u8 : IntTy := ⟨8, false, by decide, by decide⟩
/-- A 64-bit build with overflow checks. -/
def dbg : Cfg := ⟨64, true, by decide⟩
/-- A 64-bit build without overflow checks. -/
def rel : Cfg := ⟨64, false, by decide⟩

/-- **C12** The claim that representable multifactorials are returned fails: `5u8.factorialk(251)` is
`5`, but the call panics with overflow checks, because the loop counter reaches `5 + 251`. -/
theorem C12_spurious_panic :
    ((multifactorial 251 5 : ℕ) : ℤ) ≤ u8.hi ∧ RunPanics (primintFactorialk dbg u8 5 251) := by
  refine ⟨by decide +kernel, ?_⟩
  have := (C12_panics_iff dbg u8 rfl 5 251 (by decide) (by decide) (by decide) (by decide)).mpr
    (Or.inr ⟨by decide, by decide⟩)
  exact_mod_cast this

/-- **C12** Without overflow checks the same call returns a wrong number: `0` instead of `5`. -/
theorem C12_wrong_value :
    multifactorial 251 5 = 5 ∧ RunReturns (primintFactorialk rel u8 5 251) 0 := by
  refine ⟨by decide +kernel, 4, fun fuel hf => ?_⟩
  obtain ⟨f, rfl⟩ : ∃ f, fuel = f + 4 := ⟨fuel - 4, by omega⟩
  rfl

/-- **C12** Without overflow checks some calls never return: `128u8.factorialk(128)`, whose value is
`128`. -/
theorem C12_diverges :
    multifactorial 128 128 = 128 ∧ Diverges (primintFactorialk rel u8 128 128) := by
  refine ⟨by decide +kernel, fun fuel => ?_⟩
  have hcycle : ∀ f, ppLoop rel u8 128 128 f 128 0 = .more ∧ ppLoop rel u8 128 128 f 0 0 = .more := by
    intro f
    induction f with
    | zero => exact ⟨rfl, rfl⟩
    | succ f ih => exact ⟨ih.2, ih.1⟩
  match fuel with
  | 0 => rfl
  | 1 => rfl
  | f + 2 => exact (hcycle f).1

end SciRs.Props

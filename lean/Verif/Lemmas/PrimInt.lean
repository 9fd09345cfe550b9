import Verif.Model.Factorial
import Verif.Model.Combinatorics
import Verif.Spec.Multifactorial
import Mathlib.Algebra.BigOperators.Group.Finset.Basic
import Mathlib.Algebra.BigOperators.Intervals
import Mathlib.Algebra.Order.BigOperators.Ring.Finset
import Mathlib.Algebra.Order.BigOperators.Group.List
import Mathlib.Algebra.BigOperators.Ring.List
import Mathlib.Data.Nat.Factorial.DoubleFactorial
import Mathlib.Tactic.Ring
import Mathlib.Tactic.Linarith
import Mathlib.Tactic.NormNum
import Mathlib.Tactic.Positivity
import Mathlib.Tactic.Push

/-! Helper lemmas about machine integers. -/

namespace SciRs

open Finset

section outcome
variable {α : Type} {f : Nat → Run α}

theorem endsWith_unique {r r' : Res α} (h : EndsWith f r) (h' : EndsWith f r') : r = r' := by
  obtain ⟨n, hn⟩ := h
  obtain ⟨m, hm⟩ := h'
  have h1 := hn (max n m) (le_max_left _ _)
  have h2 := hm (max n m) (le_max_right _ _)
  rw [h1] at h2
  cases r <;> cases r' <;> simp_all [Run.lift]

theorem runReturns_not_panics {v : α} (h : RunReturns f v) : ¬ RunPanics f := by
  rintro ⟨e, _, he⟩
  have := endsWith_unique h he
  cases this

theorem diverges_not_endsWith (h : Diverges f) (r : Res α) : ¬ EndsWith f r := by
  rintro ⟨n, hn⟩
  have := hn n le_rfl
  rw [h n] at this
  cases r <;> cases this

theorem endsWith_const {r : Res α} (h : ∀ fuel, f fuel = Run.lift r) : EndsWith f r :=
  ⟨0, fun fuel _ => h fuel⟩

end outcome

variable (c : Cfg) (t : IntTy)

theorem hi_ge : 127 ≤ t.hi := by
  have h := t.h8
  unfold IntTy.hi
  split
  · have : (2 : ℤ) ^ 7 ≤ 2 ^ (t.bits - 1) := pow_le_pow_right₀ (by norm_num) (by omega)
    omega
  · have : (2 : ℤ) ^ 8 ≤ 2 ^ t.bits := pow_le_pow_right₀ (by norm_num) (by omega)
    omega

theorem hi_lt : t.hi < 2 ^ 128 := by
  have h := t.h128
  unfold IntTy.hi
  split
  · have : (2 : ℤ) ^ (t.bits - 1) ≤ 2 ^ 128 := pow_le_pow_right₀ (by norm_num) (by omega)
    omega
  · have : (2 : ℤ) ^ t.bits ≤ 2 ^ 128 := pow_le_pow_right₀ (by norm_num) (by omega)
    omega

theorem lo_le : t.lo ≤ 0 := by
  unfold IntTy.lo
  split
  · have : (0 : ℤ) < 2 ^ (t.bits - 1) := by positivity
    omega
  · exact le_rfl

theorem usizeMax_ge : 65535 ≤ c.usizeMax := by
  have h := c.h16
  unfold Cfg.usizeMax
  have : (2 : ℤ) ^ 16 ≤ 2 ^ c.ptrBits := pow_le_pow_right₀ (by norm_num) h
  omega

theorem in_of_nonneg {v : ℤ} (h0 : 0 ≤ v) (h1 : v ≤ t.hi) : t.In v :=
  ⟨(lo_le t).trans h0, h1⟩

theorem norm_ok {v : ℤ} (h : t.In v) : c.norm t v = .ok v := by simp [Cfg.norm, h]

theorem norm_err (hc : c.checked = true) {v : ℤ} (h : ¬ t.In v) :
    c.norm t v = .error Err.overflow := by simp [Cfg.norm, h, hc]

theorem fromNat_ok {n : ℕ} (h : (n : ℤ) ≤ t.hi) : t.fromNat n = .ok (n : ℤ) := by
  simp [IntTy.fromNat, h]

theorem toUsize_ok {v : ℤ} (h0 : 0 ≤ v) (h1 : v ≤ c.usizeMax) : c.toUsize v = .ok v.toNat := by
  simp [Cfg.toUsize, h0, h1]

theorem toUsize_err {v : ℤ} (h : ¬ (0 ≤ v ∧ v ≤ c.usizeMax)) :
    c.toUsize v = .error Err.unwrap := by
  simp only [Cfg.toUsize, h, if_false]

theorem usizeAdd_ok {a b : ℕ} (h : ((a + b : ℕ) : ℤ) ≤ c.usizeMax) :
    c.usizeAdd a b = .ok (a + b) := by
  simp only [Cfg.usizeAdd, h, if_true]

theorem list_prod_pos (l : List ℕ) (h : ∀ v ∈ l, 1 ≤ v) : 1 ≤ l.prod := by
  induction l with
  | nil => simp
  | cons v vs ih =>
    rw [List.prod_cons]
    exact Nat.mul_pos (h v (by simp)) (ih (fun w hw => h w (by simp [hw])))

/-- The fold of a product that fits. -/
theorem foldProduct_ok (l : List ℕ) (r : ℕ) (hr : 1 ≤ r) (hl : ∀ v ∈ l, 1 ≤ v)
    (h : ((r * l.prod : ℕ) : ℤ) ≤ t.hi) :
    foldProduct c t l r = .ok ((r * l.prod : ℕ) : ℤ) := by
  induction l generalizing r with
  | nil => simp [foldProduct]
  | cons v vs ih =>
    have hv := hl v (by simp)
    have hp := list_prod_pos vs (fun w hw => hl w (by simp [hw]))
    rw [List.prod_cons, ← Nat.mul_assoc] at h
    have h1 : (r * v : ℕ) ≤ r * v * vs.prod := Nat.le_mul_of_pos_right _ hp
    have h2 : v ≤ r * v := Nat.le_mul_of_pos_left _ hr
    have hv' : (v : ℤ) ≤ t.hi := by
      have : v ≤ r * v * vs.prod := h2.trans h1
      have : (v : ℤ) ≤ ((r * v * vs.prod : ℕ) : ℤ) := by exact_mod_cast this
      linarith
    have hm : ((r * v : ℕ) : ℤ) ≤ t.hi := by
      have : ((r * v : ℕ) : ℤ) ≤ ((r * v * vs.prod : ℕ) : ℤ) := by exact_mod_cast h1
      linarith
    have hmul : c.mul t r v = .ok ((r * v : ℕ) : ℤ) := by
      rw [Cfg.mul]
      have e : (r : ℤ) * v = ((r * v : ℕ) : ℤ) := by push_cast; ring
      rw [e]
      exact norm_ok c t (in_of_nonneg t (by positivity) hm)
    simp only [foldProduct, fromNat_ok t hv', ok_bind, hmul]
    rw [ih (r * v) (Nat.mul_pos hr hv) (fun w hw => hl w (by simp [hw])) h, List.prod_cons,
      Nat.mul_assoc]

/-- With overflow checks a product that does not fit panics. -/
theorem foldProduct_err (hc : c.checked = true) (l : List ℕ) (r : ℕ) (hr : (r : ℤ) ≤ t.hi)
    (h : t.hi < ((r * l.prod : ℕ) : ℤ)) :
    ∃ e, e ≠ Err.ub ∧ foldProduct c t l r = .error e := by
  induction l generalizing r with
  | nil => simp at h; omega
  | cons v vs ih =>
    by_cases hv : (v : ℤ) ≤ t.hi
    · have e : (r : ℤ) * v = ((r * v : ℕ) : ℤ) := by push_cast; ring
      by_cases hm : ((r * v : ℕ) : ℤ) ≤ t.hi
      · have hmul : c.mul t r v = .ok ((r * v : ℕ) : ℤ) := by
          rw [Cfg.mul, e]
          exact norm_ok c t (in_of_nonneg t (by positivity) hm)
        rw [List.prod_cons, ← Nat.mul_assoc] at h
        simp only [foldProduct, fromNat_ok t hv, ok_bind, hmul]
        exact ih (r * v) hm h
      · have hmul : c.mul t r v = .error Err.overflow := by
          rw [Cfg.mul, e]
          exact norm_err c t hc (fun hin => hm hin.2)
        refine ⟨Err.overflow, by simp, ?_⟩
        simp only [foldProduct, fromNat_ok t hv, ok_bind, hmul, error_bind]
    · refine ⟨Err.unwrap, by simp, ?_⟩
      simp only [foldProduct, IntTy.fromNat, hv, if_false, error_bind]

/-- `s (s+k) (s+2k) ⋯`, `m` factors. -/
def terms (s k m : ℕ) : ℕ := ∏ j ∈ range m, (s + j * k)

theorem terms_succ (s k m : ℕ) : terms s k (m + 1) = s * terms (s + k) k m := by
  unfold terms
  rw [prod_range_succ']
  simp only [Nat.zero_mul, Nat.add_zero]
  rw [Nat.mul_comm]
  congr 1
  refine prod_congr rfl fun j _ => ?_
  ring

theorem terms_last (s k m : ℕ) : terms s k (m + 1) = terms s k m * (s + m * k) := by
  unfold terms; rw [prod_range_succ]

theorem terms_pos (s k m : ℕ) (hs : 1 ≤ s) : 1 ≤ terms s k m :=
  Nat.succ_le_of_lt (Finset.prod_pos fun j _ => Nat.add_pos_left hs _)

/-- The `while` loop when nothing overflows. -/
theorem ppLoop_ok (stop : ℤ) (k m : ℕ) (s r : ℕ) (hs : 1 ≤ s) (hr : 1 ≤ r)
    (hterms : ∀ j < m, ((s + j * k : ℕ) : ℤ) ≤ stop) (hend : stop < ((s + m * k : ℕ) : ℤ))
    (hprod : ((r * terms s k m : ℕ) : ℤ) ≤ t.hi) (hfin : m = 0 ∨ ((s + m * k : ℕ) : ℤ) ≤ t.hi)
    (fuel : ℕ) (hf : m + 1 ≤ fuel) :
    ppLoop c t stop k fuel s r = .ret ((r * terms s k m : ℕ) : ℤ) := by
  induction m generalizing s r fuel with
  | zero =>
    obtain ⟨f, rfl⟩ : ∃ f, fuel = f + 1 := ⟨fuel - 1, by omega⟩
    have : ¬ (s : ℤ) ≤ stop := by simpa using hend
    simp [ppLoop, this, terms]
  | succ m ih =>
    obtain ⟨f, rfl⟩ : ∃ f, fuel = f + 1 := ⟨fuel - 1, by omega⟩
    have h0 : (s : ℤ) ≤ stop := by simpa using hterms 0 (by omega)
    have hfin' : ((s + (m + 1) * k : ℕ) : ℤ) ≤ t.hi := hfin.resolve_left (by omega)
    rw [terms_succ, ← Nat.mul_assoc] at hprod ⊢
    have hrs : ((r * s : ℕ) : ℤ) ≤ t.hi := by
      have : r * s ≤ r * s * terms (s + k) k m :=
        Nat.le_mul_of_pos_right _ (terms_pos _ _ _ (by omega))
      have : ((r * s : ℕ) : ℤ) ≤ ((r * s * terms (s + k) k m : ℕ) : ℤ) := by exact_mod_cast this
      linarith
    have hmul : c.mul t r s = .ok ((r * s : ℕ) : ℤ) := by
      rw [Cfg.mul, show (r : ℤ) * s = ((r * s : ℕ) : ℤ) by push_cast; ring]
      exact norm_ok c t (in_of_nonneg t (by positivity) hrs)
    have hsk : ((s + k : ℕ) : ℤ) ≤ t.hi := by
      have : s + k ≤ s + (m + 1) * k := by
        have : k ≤ (m + 1) * k := Nat.le_mul_of_pos_left _ (by omega)
        omega
      have : ((s + k : ℕ) : ℤ) ≤ ((s + (m + 1) * k : ℕ) : ℤ) := by exact_mod_cast this
      linarith
    have hadd : c.add t s k = .ok ((s + k : ℕ) : ℤ) := by
      rw [Cfg.add, show (s : ℤ) + k = ((s + k : ℕ) : ℤ) by push_cast; ring]
      exact norm_ok c t (in_of_nonneg t (by positivity) hsk)
    simp only [ppLoop, h0, if_true, hmul, hadd, Run.lift_ok, Run.ret_bind]
    have e : ∀ j, s + k + j * k = s + (j + 1) * k := by intro j; ring
    exact ih (s + k) (r * s) (by omega) (Nat.mul_pos hr hs)
      (fun j hj => by rw [e]; exact hterms (j + 1) (by omega)) (by rw [e]; exact hend) hprod
      (Or.inr (by rw [e]; exact hfin')) f (by omega)

/-- The `while` loop with overflow checks when something overflows. -/
theorem ppLoop_err (hc : c.checked = true) (stop : ℤ) (k m : ℕ) (s r : ℕ)
    (hr : (r : ℤ) ≤ t.hi)
    (hterms : ∀ j < m, ((s + j * k : ℕ) : ℤ) ≤ stop)
    (hbad : ¬ (((r * terms s k m : ℕ) : ℤ) ≤ t.hi ∧
      (m = 0 ∨ ((s + m * k : ℕ) : ℤ) ≤ t.hi)))
    (fuel : ℕ) (hf : m + 1 ≤ fuel) :
    ppLoop c t stop k fuel s r = .err Err.overflow := by
  induction m generalizing s r fuel with
  | zero => simp [terms] at hbad; omega
  | succ m ih =>
    obtain ⟨f, rfl⟩ : ∃ f, fuel = f + 1 := ⟨fuel - 1, by omega⟩
    have h0 : (s : ℤ) ≤ stop := by simpa using hterms 0 (by omega)
    have e1 : (r : ℤ) * s = ((r * s : ℕ) : ℤ) := by push_cast; ring
    have e2 : (s : ℤ) + k = ((s + k : ℕ) : ℤ) := by push_cast; ring
    by_cases hrs : ((r * s : ℕ) : ℤ) ≤ t.hi
    · have hmul : c.mul t r s = .ok ((r * s : ℕ) : ℤ) := by
        rw [Cfg.mul, e1]
        exact norm_ok c t (in_of_nonneg t (by positivity) hrs)
      by_cases hsk : ((s + k : ℕ) : ℤ) ≤ t.hi
      · have hadd : c.add t s k = .ok ((s + k : ℕ) : ℤ) := by
          rw [Cfg.add, e2]
          exact norm_ok c t (in_of_nonneg t (by positivity) hsk)
        simp only [ppLoop, h0, if_true, hmul, hadd, Run.lift_ok, Run.ret_bind]
        have e : ∀ j, s + k + j * k = s + (j + 1) * k := by intro j; ring
        refine ih (s + k) (r * s) hrs
          (fun j hj => by rw [e]; exact hterms (j + 1) (by omega)) ?_ f (by omega)
        rintro ⟨b1, b2⟩
        apply hbad
        rw [terms_succ, ← Nat.mul_assoc]
        refine ⟨b1, Or.inr ?_⟩
        rcases b2 with rfl | b2
        · simpa using hsk
        · rwa [e] at b2
      · have hadd : c.add t s k = .error Err.overflow := by
          rw [Cfg.add, e2]
          exact norm_err c t hc (fun hin => hsk hin.2)
        simp only [ppLoop, h0, if_true, hmul, hadd, Run.lift_ok, Run.ret_bind, Run.lift_error,
          Run.err_bind]
    · have hmul : c.mul t r s = .error Err.overflow := by
        rw [Cfg.mul, e1]
        exact norm_err c t hc (fun hin => hrs hin.2)
      simp only [ppLoop, h0, if_true, hmul, Run.lift_error, Run.err_bind]

open Spec in
theorem multifactorial_terms (k s m : ℕ) (hk : 1 ≤ k) (hs1 : 1 ≤ s) (hs : s ≤ k) :
    multifactorial k (s + m * k) = terms s k (m + 1) := by
  induction m with
  | zero =>
    have h1 : ¬ (s = 0 ∨ k = 0) := by omega
    simp only [Nat.zero_mul, Nat.add_zero]
    rw [multifactorial, dif_neg h1, show s - k = 0 by omega, multifactorial, dif_pos (Or.inl rfl)]
    simp [terms]
  | succ m ih =>
    have h1 : ¬ (s + (m + 1) * k = 0 ∨ k = 0) := by omega
    rw [multifactorial, dif_neg h1, terms_last,
      show s + (m + 1) * k - k = s + m * k by rw [Nat.add_mul, Nat.one_mul]; omega, ih,
      Nat.mul_comm]

end SciRs

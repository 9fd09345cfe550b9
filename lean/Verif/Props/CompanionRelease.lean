import Verif.Model.CompanionRelease
import Verif.Props.Companion
import Verif.Props.InitialState

/-!
# C19, C27: `companion_dyn` and `lfilter_zi_dyn` without overflow checks
-/

namespace SciRs.Props

open SciRs

theorem usizeSub_release (c : Cfg) (hc : c.checked = false) (a b : ℕ) (h : a < b) :
    c.usizeSub a b = .ok (2 ^ c.ptrBits + a - b) := by
  simp [Cfg.usizeSub, hc, h]

theorem two_pow_large (c : Cfg) : 65536 ≤ 2 ^ c.ptrBits :=
  (by norm_num : 65536 = 2 ^ 16).le.trans (Nat.pow_le_pow_right (by norm_num) c.h16)

/-- Without overflow checks every short call with a non-empty iterator writes outside the matrix. -/
theorem companionDynIn_ub {T : Type} [Zero T] [One T] [Neg T] [Div T] (c : Cfg) (hc : c.checked = false)
    (a0 : T) (rest : List T) (m : ℕ) (hm : m < 2) : companionDynIn c (a0 :: rest) m = .error Err.ub := by
  have hp := two_pow_large c
  unfold companionDynIn
  rw [if_neg (by omega), usizeSub_release c hc m 2 hm]
  obtain rfl | rfl : m = 0 ∨ m = 1 := by omega
  · rw [usizeSub_release c hc 0 1 (by omega)]
    simp only [ok_bind, Nat.add_zero]
    obtain ⟨P, hP⟩ : ∃ P, P = 2 ^ c.ptrBits := ⟨_, rfl⟩
    have hsq : (2 ^ c.ptrBits - 1) * (2 ^ c.ptrBits - 1) % 2 ^ c.ptrBits = 1 := by
      rw [← hP] at hp ⊢
      obtain ⟨q, rfl⟩ : ∃ q, P = q + 2 := ⟨P - 2, by omega⟩
      have : (q + 2 - 1) * (q + 2 - 1) = 1 + (q + 2) * q := by
        rw [show q + 2 - 1 = q + 1 by omega]; ring
      rw [this, Nat.add_mul_mod_self_left, Nat.mod_eq_of_lt (by omega)]
    rw [hsq]
    have hlast : ∀ (buf : List T), buf.length = 1 →
        writeFlat c (2 ^ c.ptrBits - 1) buf ((List.range (2 ^ c.ptrBits - 2)).map fun i => ((i + 1, i), (1 : T))) =
          .error Err.ub := by
      intro buf hb
      obtain ⟨q, hq⟩ : ∃ q, 2 ^ c.ptrBits - 2 = q + 1 := ⟨2 ^ c.ptrBits - 3, by omega⟩
      rw [hq, List.range_succ_eq_map, List.map_cons, writeFlat]
      simp only [Nat.zero_mul, Nat.add_zero, Nat.zero_add]
      rw [if_neg (by rw [hb, Nat.mod_eq_of_lt (by omega)]; omega)]
    match rest with
    | [] => simp [hlast]
    | [x] =>
      simp only [List.zipIdx_cons, List.zipIdx_nil, List.map_cons, List.map_nil, List.singleton_append, writeFlat,
        Nat.zero_mul, Nat.add_zero, Nat.zero_mod]
      rw [if_pos (by simp), hlast _ (by simp)]
      rfl
    | x :: y :: zs =>
      simp only [List.zipIdx_cons, List.map_cons, List.cons_append, writeFlat, Nat.zero_mul, Nat.add_zero, Nat.zero_mod]
      rw [if_pos (by simp), if_neg (by
        simp only [List.length_set, List.length_replicate, not_lt]
        rw [show 0 + (0 + 1) * (2 ^ c.ptrBits - 1) = 2 ^ c.ptrBits - 1 by omega, Nat.mod_eq_of_lt (by omega)]
        omega)]
      rfl
  · have h1 : c.usizeSub 1 1 = .ok 0 := by simp [Cfg.usizeSub]
    rw [h1]
    simp only [ok_bind, Nat.zero_mul, Nat.zero_mod, List.replicate_zero]
    match rest with
    | [] =>
      obtain ⟨q, hq⟩ : ∃ q, 2 ^ c.ptrBits + 1 - 2 = q + 1 := ⟨2 ^ c.ptrBits - 2, by omega⟩
      rw [hq, List.range_succ_eq_map]
      simp [writeFlat]
    | x :: xs => simp [List.zipIdx_cons, writeFlat]

/-- **C19** in either build: with overflow checks, or with a declared length of at least 2, the call behaves
as in `C19_safety`; without checks and with a declared length below 2 every call with a non-empty iterator
reaches an out-of-bounds write. -/
theorem C19_safety_builds {T : Type} [Zero T] [One T] [Neg T] [Div T] (c : Cfg) (itr : List T) (m : ℕ) :
    (2 ≤ m → companionDynIn c itr m = companionDyn itr m) ∧
    (c.checked = true → companionDynIn c itr m = companionDyn itr m) ∧
    (c.checked = false → m < 2 →
      (companionDynIn c itr m = .error Err.ub ↔ itr ≠ []) ∧ (Panics (companionDynIn c itr m) ↔ itr = [])) := by
  refine ⟨fun h => by simp [companionDynIn, h], fun h => ?_, fun hc hm => ?_⟩
  · by_cases hm : 2 ≤ m
    · simp [companionDynIn, hm]
    · cases itr with
      | nil => simp [companionDynIn, companionDyn, hm]
      | cons a0 rest =>
        have : c.usizeSub m 2 = .error Err.overflow := by
          simp [Cfg.usizeSub, h]; omega
        simp [companionDynIn, companionDyn, hm, this]
        omega
  · cases itr with
    | nil => simp [companionDynIn, show ¬ 2 ≤ m by omega]
    | cons a0 rest => simp [companionDynIn_ub c hc a0 rest m hm]

/-- **C27 fails without overflow checks for filters of order zero**: `lfilter_zi_dyn(&[b0], &[a0])` writes out
of bounds for every `b0` and every `a0 ≠ 0`; with two or more coefficients, and in a build with checks, the
call behaves as in `C27_panics_iff`. -/
theorem C27_builds {F : Type} [Field F] [DecidableEq F] (c : Cfg) (b a : List F) :
    (2 ≤ a.length ∨ c.checked = true → lfilterZiDynIn c b a = lfilterZiDyn b a) ∧
    (c.checked = false → ∀ b0 a0 : F, a0 ≠ 0 → lfilterZiDynIn c [b0] [a0] = .error Err.ub) := by
  refine ⟨fun h => ?_, fun hc b0 a0 ha => ?_⟩
  · unfold lfilterZiDynIn
    by_cases hl : b.length = a.length
    · rw [check_true hl, ok_bind]
      cases hf : a.findIdx? (fun ai => ai ≠ 0) with
      | none =>
        have : lfilterZiDyn b a = .error Err.unwrap := by
          unfold lfilterZiDyn
          simp only [hl, check_true, ok_bind, hf, error_bind]
        rw [this]
        rfl
      | some i =>
        obtain ⟨hi, hne, _⟩ := List.findIdx?_eq_some_iff_getElem.mp hf
        have hd : 0 < (a.drop i).length := by rw [List.length_drop]; omega
        simp only [ok_bind, vecGet_ok _ _ hd]
        have hin : ∀ l : List F, companionDynIn c l b.length = companionDyn l b.length := by
          intro l
          rcases h with h | h
          · exact (C19_safety_builds c l b.length).1 (by omega)
          · exact (C19_safety_builds c l b.length).2.1 h
        rw [hin]
        obtain ⟨l, hle⟩ : ∃ l, l = (if (a.drop i).getD 0 0 ≠ 1 then (a.drop i).map (· / (a.drop i).getD 0 0) else a.drop i) := ⟨_, rfl⟩
        rw [← hle]
        have hll : l.length = a.length - i := by rw [hle]; split <;> simp
        by_cases h2 : 2 ≤ a.length
        · have hret := ((C19_safety (l ++ List.replicate (b.length - l.length) 0) b.length).1).mpr
            ⟨by
              intro h0
              have h0' := (List.append_eq_nil_iff.mp h0).1
              rw [h0'] at hll
              simp at hll; omega, by omega, by simp; omega⟩
          obtain ⟨M, hM⟩ := hret
          rw [hM, ok_bind]
        · have h1 : a.length = 1 := by omega
          obtain ⟨e, he, hp⟩ := (C27_panics_iff b a).1.mpr (Or.inr (Or.inr h1))
          have hov : companionDyn (l ++ List.replicate (b.length - l.length) 0) b.length = .error Err.overflow := by
            obtain ⟨x, xs, hx⟩ := List.exists_cons_of_length_pos (show 0 < l.length by omega)
            rw [hx, List.cons_append]
            simp [companionDyn, show b.length < 2 by omega]
          rw [hov, error_bind]
          have : lfilterZiDyn b a = .error Err.overflow := by
            unfold lfilterZiDyn
            simp only [hl, check_true, ok_bind, hf, vecGet_ok _ _ hd]
            rw [← hle, ← hl, hov, error_bind]
          rw [this]
    · have : lfilterZiDyn b a = .error Err.assert := by
        unfold lfilterZiDyn
        simp only [hl, not_false_eq_true, check_false, error_bind]
      rw [check_false hl, this]
      rfl
  · unfold lfilterZiDynIn
    have hf : [a0].findIdx? (fun ai => ai ≠ 0) = some 0 := by simp [List.findIdx?_cons, ha]
    simp only [List.length_cons, List.length_nil, check_true, ok_bind, hf, List.drop_zero, vecGet,
      List.getElem?_cons_zero]
    have : ∃ x xs, (if a0 ≠ 1 then [a0].map (· / a0) else [a0]) ++
        List.replicate (0 + 1 - (if a0 ≠ 1 then [a0].map (· / a0) else [a0]).length) 0 = x :: xs := by
      split
      · exact ⟨_, _, rfl⟩
      · exact ⟨_, _, rfl⟩
    obtain ⟨x, xs, hx⟩ := this
    rw [hx, companionDynIn_ub c hc x xs _ (by omega)]
    rfl

/-- A build without overflow checks exists: the 64-bit release build. -/
example : lfilterZiDynIn ⟨64, false, by norm_num⟩ [(3 : ℚ)] [2] = .error Err.ub :=
  (C27_builds ⟨64, false, by norm_num⟩ [(3 : ℚ)] [2]).2 rfl 3 2 (by norm_num)

end SciRs.Props

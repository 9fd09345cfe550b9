import Verif.Model.LfilterZi
import Verif.Lemmas.Companion
import Verif.Lemmas.Iter
import Verif.Spec.SteadyState
import Mathlib.Algebra.BigOperators.Intervals
import Mathlib.Algebra.BigOperators.Field
import Mathlib.Tactic.Ring
import Mathlib.Tactic.FieldSimp
import Mathlib.Tactic.LinearCombination

/-! Helper lemmas about `lfilter_zi_dyn`. -/

namespace SciRs

theorem vecGetUnchecked_ok {T : Type} [Zero T] (v : List T) (k : ℕ) (h : k < v.length) :
    vecGetUnchecked v k = .ok (v.getD k 0) := by
  simp [vecGetUnchecked, List.getElem?_eq_getElem h]

theorem vecGet_ok {T : Type} [Zero T] (v : List T) (k : ℕ) (h : k < v.length) :
    vecGet v k = .ok (v.getD k 0) := by
  simp [vecGet, List.getElem?_eq_getElem h]

theorem getD_set {T : Type} (v : List T) (k j : ℕ) (x d : T) (h : k < v.length) :
    (v.set k x).getD j d = if j = k then x else v.getD j d := by
  rw [List.getD_eq_getElem?_getD, List.getElem?_set, List.getD_eq_getElem?_getD]
  by_cases hjk : k = j
  · subst hjk; simp [h]
  · simp [hjk, Ne.symm hjk]

section LawFree

variable {F : Type} [Zero F] [One F] [Add F] [Sub F] [Neg F] [Mul F] [Div F]

/-- `asum` after `k` iterations. -/
def lzS (A : List F) : ℕ → F
  | 0 => 1
  | k + 1 => lzS A k + A.getD (k + 1) 0

/-- `csum` after `k` iterations. -/
def lzC (A B : List F) (b0 : F) : ℕ → F
  | 0 => 0
  | k + 1 => lzC A B b0 k + (B.getD (k + 1) 0 - A.getD (k + 1) 0 * b0)

/-- The sum of column 0. -/
def lzCol (A : List F) (n : ℕ) : F :=
  sumIter ((List.range n).map fun i => (if i = 0 then (1 : F) else 0) - (-A.getD (i + 1) 0 / A.getD 0 0))

/-- `bsum`. -/
def lzB (A B : List F) (b0 : F) : F :=
  sumIter (List.zipWith (fun bi ai => bi - ai * b0) (B.drop 1) (A.drop 1))

omit [Neg F] [Div F] in
theorem ziLoop_spec (A B : List F) (b0 z0 : F) (n k : ℕ) (zi : List F)
    (hA : k + 1 + n ≤ A.length) (hB : k + 1 + n ≤ B.length) (hz : k + 1 + n ≤ zi.length) :
    ∃ st, ziLoop A B b0 z0 (List.range' (k + 1) n) (lzS A k, lzC A B b0 k, zi) = .ok st ∧
      st.2.2.length = zi.length ∧
      ∀ j, st.2.2.getD j 0 =
        if k + 1 ≤ j ∧ j < k + 1 + n then lzS A j * z0 - lzC A B b0 j else zi.getD j 0 := by
  induction n generalizing k zi with
  | zero =>
    refine ⟨_, rfl, rfl, fun j => ?_⟩
    have : ¬ (k + 1 ≤ j ∧ j < k + 1 + 0) := by omega
    simp [this]
  | succ n ih =>
    have hb : ziLoopBody A B b0 z0 (lzS A k, lzC A B b0 k, zi) (k + 1) =
        .ok (lzS A (k + 1), lzC A B b0 (k + 1),
          zi.set (k + 1) (lzS A (k + 1) * z0 - lzC A B b0 (k + 1))) := by
      simp only [ziLoopBody, vecGetUnchecked_ok A (k + 1) (by omega),
        vecGetUnchecked_ok B (k + 1) (by omega), ok_bind, vecSetUnchecked,
        show k + 1 < zi.length by omega, if_true]
      rfl
    obtain ⟨st, h1, h2, h3⟩ := ih (k + 1)
      (zi.set (k + 1) (lzS A (k + 1) * z0 - lzC A B b0 (k + 1))) (by omega) (by omega)
      (by rw [List.length_set]; omega)
    refine ⟨st, ?_, by rw [h2, List.length_set], ?_⟩
    · rw [List.range'_succ, ziLoop, hb, ok_bind, h1]
    · intro j
      rw [h3 j, getD_set _ _ _ _ _ (by omega)]
      by_cases hj : j = k + 1
      · subst hj
        have : k + 1 ≤ k + 1 ∧ k + 1 < k + 1 + (n + 1) := by omega
        simp [this]
      · by_cases hj2 : k + 1 + 1 ≤ j ∧ j < k + 1 + 1 + n
        · have : k + 1 ≤ j ∧ j < k + 1 + (n + 1) := by omega
          simp [hj2, this]
        · have : ¬ (k + 1 ≤ j ∧ j < k + 1 + (n + 1)) := by omega
          rw [if_neg hj2, if_neg hj, if_neg this]

variable [DecidableEq F]

omit [Zero F] [Add F] [Sub F] [Neg F] [Mul F] in
/-- Division by the leading coefficient, skipped when it is one. -/
def lzNorm (a0 : F) (l : List F) : List F := if a0 ≠ 1 then l.map (· / a0) else l

omit [Zero F] [Add F] [Sub F] [Neg F] [Mul F] in
@[simp] theorem lzNorm_length (a0 : F) (l : List F) : (lzNorm a0 l).length = l.length := by
  unfold lzNorm; split <;> simp

/-- What `lfilter_zi_dyn` computes, in any arithmetic. -/
theorem lfilterZiDyn_free (b a : List F) (hl : b.length = a.length)
    (ai0 : ℕ) (hfind : a.findIdx? (fun ai => ai ≠ 0) = some ai0) (hm : 2 ≤ a.length)
    (A B : List F) (hA : A = lzNorm (a.getD ai0 0) (a.drop ai0) ++ List.replicate ai0 0)
    (hB : B = lzNorm (a.getD ai0 0) b) :
    ∃ zi, lfilterZiDyn b a = .ok zi ∧ zi.length = a.length - 1 ∧
      ∀ j < a.length - 1, zi.getD j 0 =
        if j = 0 then lzB A B (B.getD 0 0) / lzCol A (a.length - 1)
        else lzS A j * (lzB A B (B.getD 0 0) / lzCol A (a.length - 1)) - lzC A B (B.getD 0 0) j := by
  obtain ⟨hai, _, _⟩ := List.findIdx?_eq_some_iff_getElem.mp hfind
  have hd : (a.drop ai0).getD 0 0 = a.getD ai0 0 := by
    simp [List.getD_eq_getElem?_getD]
  have hdl : (a.drop ai0).length = a.length - ai0 := List.length_drop
  have hAl : A.length = a.length := by rw [hA]; simp; omega
  have hBl : B.length = a.length := by rw [hB]; simp [hl]
  obtain ⟨x, xs, hx⟩ := List.exists_cons_of_length_pos (show 0 < A.length by omega)
  have hxsl : xs.length + 1 = a.length := by rw [← hAl, hx]; simp
  obtain ⟨M, hM1, _, _, hM4, _, _⟩ := companionDyn_ok x xs a.length hm (by omega)
  have hcol : sumIter ((List.range (a.length - 1)).map fun i =>
      (if i = 0 then (1 : F) else 0) - M.transpose.entry i 0) = lzCol A (a.length - 1) := by
    unfold lzCol
    congr 1
    refine List.map_congr_left fun i hi => ?_
    have hi' : i < xs.length := by have := List.mem_range.mp hi; omega
    simp only [DMat.transpose]
    rw [hM4 i hi', hx]
    simp [List.getElem?_eq_getElem hi']
  obtain ⟨z0, hz0⟩ : ∃ z0, z0 = lzB A B (B.getD 0 0) / lzCol A (a.length - 1) := ⟨_, rfl⟩
  obtain ⟨st, hs1, hs2, hs3⟩ := ziLoop_spec A B (B.getD 0 0) z0 (a.length - 1 - 1) 0
    ((List.replicate (a.length - 1) (0 : F)).set 0 z0) (by omega) (by omega)
    (by simp; omega)
  rw [← hz0]
  refine ⟨st.2.2, ?_, ?_, ?_⟩
  · unfold lfilterZiDyn
    simp only [hl, check_true, ok_bind, hfind]
    rw [vecGet_ok _ _ (by omega), hd]
    simp only [ok_bind]
    have hpad : lzNorm (a.getD ai0 0) (a.drop ai0) ++
        List.replicate (a.length - (lzNorm (a.getD ai0 0) (a.drop ai0)).length) 0 = A := by
      rw [hA]; congr 2; simp; omega
    have e1 : (if a.getD ai0 0 ≠ 1 then (a.drop ai0).map (· / a.getD ai0 0) else a.drop ai0)
        = lzNorm (a.getD ai0 0) (a.drop ai0) := rfl
    have e2 : (if a.getD ai0 0 ≠ 1 then b.map (· / a.getD ai0 0) else b) = B := hB.symm
    rw [e1, e2, hpad, hx, hM1]
    simp only [ok_bind]
    rw [vecGet_ok B 0 (by omega)]
    simp only [ok_bind]
    rw [← hx, hcol]
    simp only [vecSet, List.length_replicate, show 0 < a.length - 1 by omega, if_true, ok_bind]
    have hs1' := hs1
    rw [hz0] at hs1'
    simp only [zero_add, lzB, lzS, lzC] at hs1'
    rw [hs1']
    rfl
  · rw [hs2]; simp
  · intro j hj
    rw [hs3 j]
    by_cases h0 : j = 0
    · subst h0
      have : 0 < a.length - 1 := by omega
      have h1 : ¬ (0 + 1 ≤ 0 ∧ 0 < 0 + 1 + (a.length - 1 - 1)) := by omega
      simp only [h1, if_false]
      rw [getD_set _ _ _ _ _ (by simpa using this)]
      simp
    · have h1 : 0 + 1 ≤ j ∧ j < 0 + 1 + (a.length - 1 - 1) := by omega
      simp only [h1, and_self, if_true, h0, if_false]

end LawFree

open Finset

variable {F : Type} [Field F]

/-- Partial sums used by the loop. -/
def ziS (A : List F) (k : ℕ) : F := 1 + ∑ i ∈ range k, A.getD (i + 1) 0
def ziC (A B : List F) (b0 : F) (k : ℕ) : F :=
  ∑ i ∈ range k, (B.getD (i + 1) 0 - A.getD (i + 1) 0 * b0)

theorem lzS_eq (A : List F) (k : ℕ) : lzS A k = ziS A k := by
  induction k with
  | zero => simp [lzS, ziS]
  | succ k ih => rw [lzS, ih]; simp only [ziS, sum_range_succ]; ring

theorem lzC_eq (A B : List F) (b0 : F) (k : ℕ) : lzC A B b0 k = ziC A B b0 k := by
  induction k with
  | zero => simp [lzC, ziC]
  | succ k ih => rw [lzC, ih]; simp only [ziC, sum_range_succ]

theorem list_sum_range_map (n : ℕ) (f : ℕ → F) :
    ((List.range n).map f).sum = ∑ i ∈ range n, f i := by
  induction n with
  | zero => simp
  | succ n ih => rw [List.range_succ, List.map_append, List.sum_append, ih, sum_range_succ]; simp

theorem zipWith_sum (f : F → F → F) (u v : List F) (hl : u.length = v.length) :
    (List.zipWith f u v).sum = ∑ i ∈ range u.length, f (u.getD i 0) (v.getD i 0) := by
  induction u generalizing v with
  | nil => simp
  | cons x xs ih =>
    cases v with
    | nil => simp at hl
    | cons y ys =>
      simp only [List.zipWith_cons_cons, List.sum_cons, List.length_cons]
      rw [ih ys (by simpa using hl), sum_range_succ']
      simp [add_comm]

theorem getD_drop_one (u : List F) (i : ℕ) : (u.drop 1).getD i 0 = u.getD (i + 1) 0 := by
  simp [List.getD_eq_getElem?_getD, add_comm]

theorem map_div_if [DecidableEq F] (a0 : F) (l : List F) :
    (if a0 ≠ 1 then l.map (· / a0) else l) = l.map (· / a0) := by
  by_cases h : a0 = 1
  · subst h; simp
  · simp [h]

theorem lzCol_eq (A : List F) (n : ℕ) (hn : 0 < n) (hA : A.getD 0 0 = 1) : lzCol A n = ziS A n := by
  rw [lzCol, sumIter_eq_sum, list_sum_range_map, sum_sub_distrib, hA]
  have e1 : ∑ i ∈ range n, (if i = 0 then (1 : F) else 0) = 1 := by
    rw [sum_ite_eq' (range n) 0 (fun _ => (1 : F))]
    simp; omega
  rw [e1, ziS]
  simp

theorem lzB_eq (A B : List F) (b0 : F) (hl : B.length = A.length) :
    lzB A B b0 = ziC A B b0 (A.length - 1) := by
  rw [lzB, sumIter_eq_sum, zipWith_sum _ _ _ (by simp [hl]), List.length_drop, ziC, hl]
  simp only [getD_drop_one]

/-- The part of `lfilter_zi_dyn` after normalisation, as values. -/
theorem lfilterZiDyn_core [DecidableEq F] (b a : List F) (hl : b.length = a.length)
    (ai0 : ℕ) (hfind : a.findIdx? (fun ai => ai ≠ 0) = some ai0) (hm : 2 ≤ a.length) :
    ∃ zi, lfilterZiDyn b a = .ok zi ∧ zi.length = a.length - 1 ∧
      ∀ A B : List F,
        A = (a.drop ai0).map (· / a.getD ai0 0) ++ List.replicate ai0 0 →
        B = b.map (· / a.getD ai0 0) →
        ∀ j < a.length - 1, zi.getD j 0 =
          ziS A j * (ziC A B (B.getD 0 0) (a.length - 1) / ziS A (a.length - 1))
            - ziC A B (B.getD 0 0) j := by
  obtain ⟨hai, hne, _⟩ := List.findIdx?_eq_some_iff_getElem.mp hfind
  have hane : a.getD ai0 0 ≠ 0 := by
    simpa [List.getElem?_eq_getElem hai] using hne
  have hd : (a.drop ai0).getD 0 0 = a.getD ai0 0 := by
    simp [List.getD_eq_getElem?_getD]
  have hdl : (a.drop ai0).length = a.length - ai0 := List.length_drop
  obtain ⟨zi, h1, h2, h3⟩ := lfilterZiDyn_free b a hl ai0 hfind hm _ _ rfl rfl
  refine ⟨zi, h1, h2, ?_⟩
  intro A B hA hB j hj
  have n1 : ∀ l : List F, lzNorm (a.getD ai0 0) l = l.map (· / a.getD ai0 0) := fun l =>
    map_div_if (a.getD ai0 0) l
  have h4 := h3 j hj
  rw [n1, n1, ← hA, ← hB] at h4
  have hAl : A.length = a.length := by rw [hA]; simp; omega
  have hBl : B.length = a.length := by rw [hB]; simp [hl]
  have hA0 : A.getD 0 0 = 1 := by
    rw [hA]
    have : 0 < (a.drop ai0).length := by omega
    obtain ⟨x, xs, hx⟩ := List.exists_cons_of_length_pos this
    rw [hx] at hd ⊢
    simp at hd ⊢
    rw [hd]; simpa using div_self hane
  rw [h4, lzS_eq, lzC_eq, lzB_eq _ _ _ (by omega), lzCol_eq _ _ (by omega) hA0, hAl]
  split
  · rename_i h0
    rw [h0]
    simp [ziS, ziC]
  · rfl

end SciRs

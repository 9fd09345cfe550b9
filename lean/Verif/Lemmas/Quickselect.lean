import Verif.Model.Stats
import Verif.Spec.Median
import Verif.Lemmas.PrimInt
import Mathlib.Data.List.Sort
import Mathlib.Data.List.GetD
import Mathlib.Tactic.Ring

/-! # Correctness of `quickselect` -/

namespace SciRs.Stats

open SciRs SciRs.Spec

section lawfree
variable {T : Type} [LT T] [DecidableLT T]

/-- Lower and upper parts are shorter, for an irreflexive `<`. -/
theorem filter_lt_length {y : List T} {p : T} (hp : p ∈ y) (f : T → Bool) (hf : f p = false) :
    (y.filter f).length < y.length := by
  rw [List.length_filter_lt_length_iff_exists]
  exact ⟨p, hp, by simp [hf]⟩

theorem length_lower_upper (hasymm : ∀ a b : T, a < b → ¬ b < a) (y : List T) (p : T) :
    (y.filter (fun v => v < p)).length + (y.filter (fun v => p < v)).length ≤ y.length := by
  induction y with
  | nil => simp
  | cons v vs ih =>
    simp only [List.filter_cons, List.length_cons]
    by_cases h1 : v < p
    · have h2 := hasymm _ _ h1
      simp [h1, h2]; omega
    · by_cases h2 : p < v
      · simp [h1, h2]; omega
      · simp [h1, h2]; omega

theorem pivot_mem (v w : T) (vs : List T) :
    (v :: w :: vs).getD ((v :: w :: vs).length / 2) v ∈ v :: w :: vs := by
  have h : (v :: w :: vs).length / 2 < (v :: w :: vs).length :=
    Nat.div_lt_self (by simp) (by decide)
  rw [List.getD_eq_getElem _ _ h]
  exact List.getElem_mem h

/-- For every asymmetric `<` (in particular the `<` of floats, NaN included) `quickselect` ends without
panic and returns one of the samples. -/
theorem quickselect_total (hasymm : ∀ a b : T, a < b → ¬ b < a) (y : List T) (k : ℕ)
    (hk : k < y.length) : ∃ v ∈ y, ∀ fuel, y.length ≤ fuel → quickselect y k fuel = .ret v := by
  induction hn : y.length using Nat.strong_induction_on generalizing y k with
  | _ n ih =>
    have hirr : ∀ a : T, ¬ a < a := fun a h => hasymm a a h h
    rcases y with _ | ⟨v, _ | ⟨w, vs⟩⟩
    · simp at hk
    · refine ⟨v, by simp, fun fuel hf => ?_⟩
      obtain ⟨f, rfl⟩ : ∃ f, fuel = f + 1 := ⟨fuel - 1, by simp at hn; omega⟩
      simp [quickselect]
    · have hp := pivot_mem v w vs
      generalize hpv : (v :: w :: vs).getD ((v :: w :: vs).length / 2) v = p at hp
      have hl := filter_lt_length hp (fun yi => decide (yi < p)) (by simp [hirr])
      have hu := filter_lt_length hp (fun yi => decide (p < yi)) (by simp [hirr])
      have hlu := length_lower_upper hasymm (v :: w :: vs) p
      have hunf : ∀ f, quickselect (v :: w :: vs) k (f + 1) =
          if k < ((v :: w :: vs).filter (fun yi => yi < p)).length then
            quickselect ((v :: w :: vs).filter (fun yi => yi < p)) k f
          else if k < ((v :: w :: vs).filter (fun yi => yi < p)).length +
              ((v :: w :: vs).length - ((v :: w :: vs).filter (fun yi => yi < p)).length -
                ((v :: w :: vs).filter (fun yi => p < yi)).length) then .ret p
          else quickselect ((v :: w :: vs).filter (fun yi => p < yi))
            (k - ((v :: w :: vs).filter (fun yi => yi < p)).length -
              ((v :: w :: vs).length - ((v :: w :: vs).filter (fun yi => yi < p)).length -
                ((v :: w :: vs).filter (fun yi => p < yi)).length)) f := by
        intro f
        rw [quickselect]
        dsimp only
        rw [hpv, if_neg (by omega)]
      generalize hL : (v :: w :: vs).filter (fun yi => decide (yi < p)) = L at *
      generalize hU : (v :: w :: vs).filter (fun yi => decide (p < yi)) = U at *
      generalize hY : v :: w :: vs = y at *
      by_cases h1 : k < L.length
      · obtain ⟨r, hr, hret⟩ := ih L.length (by omega) L k h1 rfl
        refine ⟨r, (List.mem_filter.mp (hL ▸ hr)).1, fun fuel hf => ?_⟩
        obtain ⟨f, rfl⟩ : ∃ f, fuel = f + 1 := ⟨fuel - 1, by omega⟩
        rw [hunf f, if_pos h1]
        exact hret f (by omega)
      · by_cases h2 : k < L.length + (y.length - L.length - U.length)
        · refine ⟨p, hp, fun fuel hf => ?_⟩
          obtain ⟨f, rfl⟩ : ∃ f, fuel = f + 1 := ⟨fuel - 1, by omega⟩
          rw [hunf f, if_neg h1, if_pos h2]
        · obtain ⟨r, hr, hret⟩ := ih U.length (by omega) U
            (k - L.length - (y.length - L.length - U.length)) (by omega) rfl
          refine ⟨r, (List.mem_filter.mp (hU ▸ hr)).1, fun fuel hf => ?_⟩
          obtain ⟨f, rfl⟩ : ∃ f, fuel = f + 1 := ⟨fuel - 1, by omega⟩
          rw [hunf f, if_neg h1, if_neg h2]
          exact hret f (by omega)

end lawfree

section linear
variable {T : Type} [LinearOrder T]

/-- A sorted list splits at a pivot value. -/
theorem sorted_split (s : List T) (p : T) (hs : s.Pairwise (· ≤ ·)) :
    s = s.filter (fun v => v < p) ++ (s.filter (fun v => v = p) ++ s.filter (fun v => p < v)) := by
  induction s with
  | nil => simp
  | cons v vs ih =>
    have hv := (List.pairwise_cons.mp hs).1
    have ih' := ih (List.pairwise_cons.mp hs).2
    rcases lt_trichotomy v p with h | h | h
    · rw [List.filter_cons_of_pos (by simpa using h),
        List.filter_cons_of_neg (by simpa using h.ne),
        List.filter_cons_of_neg (by simpa using h.le), List.cons_append, ← ih']
    · subst h
      rw [List.filter_cons_of_neg (by simp), List.filter_cons_of_pos (by simp),
        List.filter_cons_of_neg (by simp)]
      have h0 : vs.filter (fun u => decide (u < v)) = [] := by
        rw [List.filter_eq_nil_iff]
        intro a ha; simpa using hv a ha
      rw [h0] at ih' ⊢
      rw [List.nil_append] at ih' ⊢
      rw [List.cons_append, ← ih']
    · rw [List.filter_cons_of_neg (by simpa using h.le),
        List.filter_cons_of_neg (by simpa using h.ne'),
        List.filter_cons_of_pos (by simpa using h)]
      have h0 : vs.filter (fun u => decide (u < p)) = [] := by
        rw [List.filter_eq_nil_iff]
        intro a ha; simpa using (h.le.trans (hv a ha))
      have h1 : vs.filter (fun u => decide (u = p)) = [] := by
        rw [List.filter_eq_nil_iff]
        intro a ha; simpa using (lt_of_lt_of_le h (hv a ha)).ne'
      rw [h0, h1] at ih' ⊢
      rw [List.nil_append, List.nil_append] at ih' ⊢
      rw [← ih']

/-- `quickselect` returns the element at rank `k`. -/
theorem quickselect_sorted (y s : List T) (hs : Sorts s y) (k : ℕ) (hk : k < y.length) (d : T) :
    ∀ fuel, y.length ≤ fuel → quickselect y k fuel = .ret (s.getD k d) := by
  induction hn : y.length using Nat.strong_induction_on generalizing y s k with
  | _ n ih =>
    intro fuel hf
    obtain ⟨f, rfl⟩ : ∃ f, fuel = f + 1 := ⟨fuel - 1, by omega⟩
    rcases y with _ | ⟨v, _ | ⟨w, vs⟩⟩
    · simp at hk
    · have : s = [v] := List.perm_singleton.mp hs.1
      subst this
      have : k = 0 := by simp at hk; omega
      subst this
      simp [quickselect]
    · have hp := pivot_mem v w vs
      generalize hpv : (v :: w :: vs).getD ((v :: w :: vs).length / 2) v = p at hp
      have hl := filter_lt_length hp (fun yi => decide (yi < p)) (by simp)
      have hu := filter_lt_length hp (fun yi => decide (p < yi)) (by simp)
      have hlu := length_lower_upper (fun _ _ h => h.le.not_gt) (v :: w :: vs) p
      rw [quickselect]
      dsimp only
      rw [hpv, if_neg (by omega)]
      generalize hY : v :: w :: vs = y at *
      have hsplit := sorted_split s p hs.2
      have hLp : (s.filter (fun u => u < p)).Perm (y.filter (fun u => u < p)) := hs.1.filter _
      have hUp : (s.filter (fun u => p < u)).Perm (y.filter (fun u => p < u)) := hs.1.filter _
      have hsl := congrArg List.length hsplit
      have hlen := hs.1.length_eq
      simp only [List.length_append] at hsl
      have e1 := hLp.length_eq
      have e2 := hUp.length_eq
      by_cases h1 : k < (y.filter (fun u => u < p)).length
      · rw [if_pos h1]
        have := ih _ (by omega) _ (s.filter (fun u => u < p))
          ⟨hLp, hs.2.filter _⟩ k h1 rfl f (by omega)
        rw [this]
        conv_rhs => rw [hsplit]
        rw [List.getD_append _ _ _ _ (by omega)]
      · rw [if_neg h1]
        by_cases h2 : k < (y.filter (fun u => u < p)).length +
            (y.length - (y.filter (fun u => u < p)).length - (y.filter (fun u => p < u)).length)
        · rw [if_pos h2]
          conv_rhs => rw [hsplit]
          rw [List.getD_append_right _ _ _ _ (by omega), List.getD_append _ _ _ _ (by omega)]
          have hlt : k - (s.filter (fun u => u < p)).length <
              (s.filter (fun u => u = p)).length := by omega
          rw [List.getD_eq_getElem _ _ hlt]
          have := List.mem_filter.mp (List.getElem_mem hlt)
          simp at this
          rw [this.2]
        · rw [if_neg h2]
          have := ih _ (by omega) _ (s.filter (fun u => p < u))
            ⟨hUp, hs.2.filter _⟩ (k - (y.filter (fun u => u < p)).length -
            (y.length - (y.filter (fun u => u < p)).length - (y.filter (fun u => p < u)).length))
            (by omega) rfl f (by omega)
          rw [this]
          conv_rhs => rw [hsplit]
          rw [List.getD_append_right _ _ _ _ (by omega), List.getD_append_right _ _ _ _ (by omega)]
          congr 2
          omega

end linear
end SciRs.Stats

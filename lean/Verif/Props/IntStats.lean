import Verif.Model.IntStats
import Verif.Spec.Median
import Verif.Lemmas.PrimInt
import Verif.Lemmas.Quickselect
import Mathlib.Tactic.Linarith

/-!
# C74, C75: `median` and `mean` at the integer types
-/

namespace SciRs.Props

open SciRs SciRs.Spec SciRs.Stats

variable (c : Cfg) (t : IntTy)

theorem tdiv_in {s n : ℤ} (hs : t.In s) (hn : 1 ≤ n) : t.In (s.tdiv n) := by
  have hlo := lo_le t
  have hhi := hi_ge t
  obtain ⟨h1, h2⟩ := hs
  rcases le_total 0 s with h | h
  · have a : 0 ≤ s.tdiv n := Int.tdiv_nonneg h (by omega)
    have b : s.tdiv n ≤ s := by
      rw [Int.tdiv_eq_ediv_of_nonneg h]; exact Int.ediv_le_self _ h
    exact ⟨by omega, by omega⟩
  · have a : 0 ≤ (-s).tdiv n := Int.tdiv_nonneg (by omega) (by omega)
    have b : (-s).tdiv n ≤ -s := by
      rw [Int.tdiv_eq_ediv_of_nonneg (by omega)]; exact Int.ediv_le_self _ (by omega)
    rw [Int.neg_tdiv] at a b
    exact ⟨by omega, by omega⟩

theorem div_ok {s n : ℤ} (hs : t.In s) (hn : 1 ≤ n) : c.div t s n = .ok (s.tdiv n) := by
  unfold Cfg.div
  rw [if_neg (by omega), if_pos (tdiv_in t hs hn)]

theorem norm_cases (v : ℤ) :
    (t.In v ∧ c.norm t v = .ok v) ∨ (¬ t.In v ∧ c.checked = true ∧ c.norm t v = .error Err.overflow) ∨
      (¬ t.In v ∧ c.checked = false ∧ c.norm t v = .ok (t.wrap v)) := by
  unfold Cfg.norm
  by_cases h : t.In v
  · simp [h]
  · cases hc : c.checked <;> simp [h]

/-- What `median` does with an even number of integers. -/
theorem medianInt_even (y s : List ℤ) (hs : Sorts s y) (hne : y ≠ []) (heven : y.length % 2 = 0) :
    EndsWith (medianInt c t y) (do
      let v ← c.norm t (s.getD (y.length / 2 - 1) 0 + s.getD (y.length / 2) 0)
      let m ← c.div t v 2
      return (m, y.length)) := by
  refine ⟨y.length, fun fuel hf => ?_⟩
  rcases y with _ | ⟨v, _ | ⟨w, vs⟩⟩
  · exact absurd rfl hne
  · simp at heven
  · have hpos : (v :: w :: vs).length / 2 < (v :: w :: vs).length :=
      Nat.div_lt_self (by simp) (by decide)
    have q1 := quickselect_sorted (v :: w :: vs) s hs _ hpos 0 fuel hf
    have q2 := quickselect_sorted (v :: w :: vs) s hs ((v :: w :: vs).length / 2 - 1) (by omega) 0
      fuel hf
    rw [medianInt]
    rw [if_neg (by omega), q1, q2]
    simp only [Run.ret_bind, Cfg.add]
    have h2 : t.fromNat 2 = .ok 2 := fromNat_ok t (by have := hi_ge t; norm_num; omega)
    rw [h2]
    cases c.norm t (s.getD ((v :: w :: vs).length / 2 - 1) 0 + s.getD ((v :: w :: vs).length / 2) 0) with
    | error e => rfl
    | ok x =>
      simp only [Run.lift_ok, Run.ret_bind, ok_bind]
      cases c.div t x 2 with
      | error e => rfl
      | ok m => rfl

/-- **C74** An odd number of integers: the middle value of the sorted samples, in every build. -/
theorem C74_median_odd (y s : List ℤ) (hs : Sorts s y) (hodd : y.length % 2 = 1) :
    RunReturns (medianInt c t y) (s.getD (y.length / 2) 0, y.length) := by
  refine ⟨y.length, fun fuel hf => ?_⟩
  rcases y with _ | ⟨v, _ | ⟨w, vs⟩⟩
  · simp at hodd
  · have : s = [v] := List.perm_singleton.mp hs.1
    subst this
    simp [medianInt, Run.lift]
  · have hpos : (v :: w :: vs).length / 2 < (v :: w :: vs).length :=
      Nat.div_lt_self (by simp) (by decide)
    have q1 := quickselect_sorted (v :: w :: vs) s hs _ hpos 0 fuel hf
    rw [medianInt]
    rw [if_pos hodd, q1]
    rfl

/-- **C74** An even number of integers: if the sum of the two middle values is representable the result is
their average rounded towards zero, which lies between them. -/
theorem C74_median_even (y s : List ℤ) (hs : Sorts s y) (hne : y ≠ []) (heven : y.length % 2 = 0)
    (a b : ℤ) (ha : a = s.getD (y.length / 2 - 1) 0) (hb : b = s.getD (y.length / 2) 0)
    (hin : t.In (a + b)) :
    RunReturns (medianInt c t y) ((a + b).tdiv 2, y.length) ∧ a ≤ (a + b).tdiv 2 ∧
      (a + b).tdiv 2 ≤ b := by
  have h := medianInt_even c t y s hs hne heven
  rw [← ha, ← hb, norm_ok c t hin, ok_bind, div_ok c t hin (by norm_num), ok_bind] at h
  refine ⟨h, ?_⟩
  have hlen := hs.1.length_eq
  have hpos : 0 < y.length := List.length_pos_iff.mpr hne
  have i1 : y.length / 2 - 1 < s.length := by omega
  have i2 : y.length / 2 < s.length := by omega
  have hab : a ≤ b := by
    have := List.pairwise_iff_getElem.mp hs.2 (y.length / 2 - 1) (y.length / 2) i1 i2 (by omega)
    rw [ha, hb, List.getD_eq_getElem _ _ i1, List.getD_eq_getElem _ _ i2]
    exact this
  rcases le_total 0 (a + b) with h0 | h0
  · rw [Int.tdiv_eq_ediv_of_nonneg h0]; omega
  · have : (a + b).tdiv 2 = -((-(a + b)).tdiv 2) := by rw [Int.neg_tdiv]; ring
    rw [this, Int.tdiv_eq_ediv_of_nonneg (by omega)]; omega

/-- **C74** With overflow checks `median` panics exactly when the number of samples is even and the sum
of the two middle values is not representable. -/
theorem C74_median_panics_iff (hc : c.checked = true) (y s : List ℤ) (hs : Sorts s y) :
    RunPanics (medianInt c t y) ↔ y ≠ [] ∧ y.length % 2 = 0 ∧
      ¬ t.In (s.getD (y.length / 2 - 1) 0 + s.getD (y.length / 2) 0) := by
  by_cases hne : y = []
  · subst hne
    refine ⟨fun h => absurd h ?_, fun h => absurd rfl h.1⟩
    exact runReturns_not_panics (v := (0, 0)) ⟨0, fun _ _ => rfl⟩
  by_cases hodd : y.length % 2 = 1
  · refine ⟨fun h => absurd h (runReturns_not_panics (C74_median_odd c t y s hs hodd)), fun h => ?_⟩
    omega
  have heven : y.length % 2 = 0 := by omega
  have h := medianInt_even c t y s hs hne heven
  by_cases hin : t.In (s.getD (y.length / 2 - 1) 0 + s.getD (y.length / 2) 0)
  · refine ⟨fun hp => absurd hp (runReturns_not_panics
      (C74_median_even c t y s hs hne heven _ _ rfl rfl hin).1), fun hp => absurd hin hp.2.2⟩
  · rw [norm_err c t hc hin, error_bind] at h
    exact ⟨fun _ => ⟨hne, heven, hin⟩, fun _ => ⟨_, by decide, h⟩⟩

/-- `i8`. -/
def i8 : IntTy := ⟨8, true, by norm_num, by norm_num⟩

/-- **C74** Without overflow checks the median can lie outside the samples: two `i8` samples of `100` have
"median" `-28`. -/
theorem C74_median_wraps_false (hc : c.checked = false) :
    RunReturns (medianInt c i8 [100, 100]) (-28, 2) := by
  have h := medianInt_even c i8 [100, 100] [100, 100] ⟨List.Perm.refl _, by simp⟩ (by simp) rfl
  have e : c.norm i8 ([100, 100].getD ([100, (100 : ℤ)].length / 2 - 1) 0
      + [100, 100].getD ([100, (100 : ℤ)].length / 2) 0) = .ok (-56) := by
    unfold Cfg.norm
    rw [hc]
    decide
  rw [e, ok_bind] at h
  exact h

example : Sorts [-3, 0, 4, (5 : ℤ)] [4, -3, 5, 0] ∧ i8.In (0 + 4) := by
  refine ⟨⟨by decide, by decide⟩, by decide⟩

/-! ### mean -/

theorem meanInt_fold_ok (y : List ℤ) (s : ℤ) (k : ℕ)
    (h : ∀ j, j ≤ y.length → t.In (s + (y.take j).sum)) :
    y.foldlM (fun (acc : ℤ × Nat) yi => do
      let s ← c.add t acc.1 yi
      return (s, acc.2 + 1)) (s, k) = (.ok (s + y.sum, k + y.length) : Res (ℤ × ℕ)) := by
  induction y generalizing s k with
  | nil => simp [pure, Except.pure]
  | cons v vs ih =>
    have h1 : t.In (s + v) := by simpa using h 1 (by simp)
    rw [List.foldlM_cons]
    simp only [Cfg.add, norm_ok c t h1, ok_bind]
    have := ih (s + v) (k + 1) (fun j hj => by
      have := h (j + 1) (by simpa using hj)
      simpa [add_assoc] using this)
    simp only [Cfg.add] at this
    change List.foldlM _ (s + v, k + 1) vs = _
    rw [this]
    simp only [List.sum_cons, List.length_cons]
    congr 2
    · ring
    · omega

theorem meanInt_fold_err (hc : c.checked = true) (y : List ℤ) (s : ℤ) (k : ℕ) (hs : t.In s)
    (h : ∃ j, j ≤ y.length ∧ ¬ t.In (s + (y.take j).sum)) :
    y.foldlM (fun (acc : ℤ × Nat) yi => do
      let s ← c.add t acc.1 yi
      return (s, acc.2 + 1)) (s, k) = (.error Err.overflow : Res (ℤ × ℕ)) := by
  induction y generalizing s k with
  | nil =>
    obtain ⟨j, hj, hn⟩ := h
    simp at hn
    exact absurd hs hn
  | cons v vs ih =>
    rw [List.foldlM_cons]
    by_cases h1 : t.In (s + v)
    · simp only [Cfg.add, norm_ok c t h1, ok_bind]
      have := ih (s + v) (k + 1) h1 (by
        obtain ⟨j, hj, hn⟩ := h
        cases j with
        | zero => simp at hn; exact absurd hs hn
        | succ j => exact ⟨j, by simpa using hj, by simpa [add_assoc] using hn⟩)
      simp only [Cfg.add] at this
      change List.foldlM _ (s + v, k + 1) vs = _
      exact this
    · simp only [Cfg.add, norm_err c t hc h1, error_bind]

/-- **C75** If every partial sum (in the order of the samples) and the number of samples are representable
in the type, `mean` returns the exact mean rounded towards zero, in every build. -/
theorem C75_mean (y : List ℤ) (hne : y ≠ []) (h : ∀ j, j ≤ y.length → t.In (y.take j).sum)
    (hn : (y.length : ℤ) ≤ t.hi) :
    meanInt c t y = .ok (y.sum.tdiv y.length, y.length) := by
  have hpos : 0 < y.length := List.length_pos_iff.mpr hne
  unfold meanInt
  rw [meanInt_fold_ok c t y 0 0 (fun j hj => by simpa using h j hj), ok_bind]
  simp only [zero_add]
  have hs : t.In y.sum := by simpa using h y.length le_rfl
  rw [if_pos hpos, fromNat_ok t hn, ok_bind, div_ok c t hs (by exact_mod_cast hpos), ok_bind]
  rfl

/-- **C75** With overflow checks, `mean` panics exactly when some partial sum or the number of samples is
not representable in the type of the samples. -/
theorem C75_mean_panics_iff (hc : c.checked = true) (y : List ℤ) :
    Panics (meanInt c t y) ↔
      (∃ j, j ≤ y.length ∧ ¬ t.In (y.take j).sum) ∨ t.hi < (y.length : ℤ) := by
  by_cases hne : y = []
  · subst hne
    have h0 : t.In 0 := in_of_nonneg t le_rfl (by have := hi_ge t; omega)
    have := hi_ge t
    simp [meanInt, pure, Except.pure, bind, Except.bind, h0]
    omega
  have hpos : 0 < y.length := List.length_pos_iff.mpr hne
  by_cases h : ∀ j, j ≤ y.length → t.In (y.take j).sum
  · by_cases hn : (y.length : ℤ) ≤ t.hi
    · rw [C75_mean c t y hne h hn]
      constructor
      · intro hp; simp at hp
      · rintro (⟨j, hj, hj'⟩ | h')
        · exact absurd (h j hj) hj'
        · omega
    · have : meanInt c t y = .error Err.unwrap := by
        unfold meanInt
        rw [meanInt_fold_ok c t y 0 0 (fun j hj => by simpa using h j hj), ok_bind]
        simp only [zero_add]
        rw [if_pos hpos]
        unfold IntTy.fromNat
        rw [if_neg hn, error_bind]
      rw [this]
      simp
      right; omega
  · push Not at h
    obtain ⟨j, hj, hj'⟩ := h
    have h0 : t.In 0 := in_of_nonneg t le_rfl (by have := hi_ge t; omega)
    have : meanInt c t y = .error Err.overflow := by
      unfold meanInt
      rw [meanInt_fold_err c t hc y 0 0 h0 ⟨j, hj, by simpa using hj'⟩, error_bind]
    rw [this]
    simp
    exact Or.inl ⟨j, hj, hj'⟩

/-- **C75** The order of the samples matters: with overflow checks the `i8` samples `127, 1, -128` make
`mean` panic, the samples `127, -128, 1` have mean `0`. -/
theorem C75_order_matters_false (hc : c.checked = true) :
    Panics (meanInt c i8 [127, 1, -128]) ∧ meanInt c i8 [127, -128, 1] = .ok (0, 3) := by
  constructor
  · rw [C75_mean_panics_iff c i8 hc]
    exact Or.inl ⟨2, by simp, by decide⟩
  · rw [C75_mean c i8 _ (by simp) _ (by decide)]
    · rfl
    · intro j hj
      have : j = 0 ∨ j = 1 ∨ j = 2 ∨ j = 3 := by simp at hj; omega
      rcases this with rfl | rfl | rfl | rfl <;> decide

/-- **C75** In every build, 128 zero samples of type `i8` make `mean` panic: the count does not fit. -/
theorem C75_count_false : Panics (meanInt c i8 (List.replicate 128 0)) := by
  have h : ∀ j, j ≤ (List.replicate 128 (0 : ℤ)).length →
      i8.In (((List.replicate 128 (0 : ℤ)).take j).sum) := by
    intro j _
    have : ((List.replicate 128 (0 : ℤ)).take j).sum = 0 := by
      rw [List.take_replicate]; simp
    rw [this]; decide
  have : meanInt c i8 (List.replicate 128 0) = .error Err.unwrap := by
    unfold meanInt
    rw [meanInt_fold_ok c i8 _ 0 0 (fun j hj => by rw [zero_add]; exact h j hj), ok_bind]
    simp only [zero_add, List.length_replicate]
    rfl
  rw [this]
  simp

/-- **C75** Without overflow checks the sum wraps: the `i8` samples `100, 100` have "mean" `-28`. -/
theorem C75_wraps_false (hc : c.checked = false) : meanInt c i8 [100, 100] = .ok (-28, 2) := by
  unfold meanInt Cfg.add Cfg.norm Cfg.div
  rw [hc]
  decide

example : ∀ j, j ≤ [5, -7, (-6 : ℤ)].length → i8.In ([5, -7, (-6 : ℤ)].take j).sum := by
  intro j hj
  have : j = 0 ∨ j = 1 ∨ j = 2 ∨ j = 3 := by simp at hj; omega
  rcases this with rfl | rfl | rfl | rfl <;> decide

end SciRs.Props

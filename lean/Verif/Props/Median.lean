import Verif.Lemmas.Quickselect
import Mathlib.Data.Rat.Defs
import Mathlib.Algebra.Order.Field.Rat
import Mathlib.Algebra.Order.Field.Basic
import Mathlib.Tactic.Linarith
import Mathlib.Tactic.Positivity
import Mathlib.Tactic.NormNum

/-!
# C01, C02, C09: the median and the robust statistics
-/

namespace SciRs.Props

open SciRs SciRs.Spec SciRs.Stats

section median
variable {T : Type} [LinearOrder T] [Field T]

/-- **C01** For every non-empty sequence `y` and every ascending arrangement `s` of it, `median` ends, does
not panic, and returns the middle value of `s` together with the number of samples. -/
theorem C01_median (y s : List T) (hs : Sorts s y) (hne : y ≠ []) :
    RunReturns (median y) (middle s, y.length) := by
  refine ⟨y.length, fun fuel hf => ?_⟩
  have hlen := hs.1.length_eq
  show _ = Run.ret _
  rcases y with _ | ⟨v, _ | ⟨w, vs⟩⟩
  · exact absurd rfl hne
  · have : s = [v] := List.perm_singleton.mp hs.1
    subst this
    simp [median, middle]
  · have hpos : (v :: w :: vs).length / 2 < (v :: w :: vs).length :=
      Nat.div_lt_self (by simp) (by decide)
    have q1 := quickselect_sorted (v :: w :: vs) s hs _ hpos 0 fuel hf
    have q2 := quickselect_sorted (v :: w :: vs) s hs ((v :: w :: vs).length / 2 - 1) (by omega) 0
      fuel hf
    rw [median]
    rw [q1, q2]
    by_cases h : (v :: w :: vs).length % 2 = 1
    · rw [if_pos h]
      simp only [Run.ret_bind, Run.pure_eq, middle, hlen, h, if_true]
    · rw [if_neg h]
      simp only [Run.ret_bind, Run.pure_eq, middle, hlen, h, if_false]

/-- An ascending arrangement always exists, so `C01_median` covers every non-empty sequence. -/
theorem exists_sorts (y : List T) : ∃ s, Sorts s y :=
  ⟨y.mergeSort (fun a b => decide (a ≤ b)), List.mergeSort_perm _ _, by
    have := List.pairwise_mergeSort (le := fun a b : T => decide (a ≤ b))
      (fun a b c h1 h2 => by simp at *; exact h1.trans h2)
      (fun a b => by simpa using le_total a b) y
    simpa using this⟩

/-- **C01** The empty sequence gives `(0, 0)`. -/
theorem C01_empty : RunReturns (median ([] : List T)) (0, 0) :=
  ⟨0, fun _ _ => rfl⟩

example : Sorts [1, 2, 2, (7 : ℚ)] [2, 7, 1, 2] ∧ middle [1, 2, 2, (7 : ℚ)] = 2 := by
  refine ⟨⟨by decide, by decide⟩, by norm_num [middle]⟩

/-- **C02** Rearranging the samples does not change the outcome of `median`. -/
theorem C02_perm (y y' : List T) (h : y.Perm y') (r : Res (T × ℕ)) :
    EndsWith (median y) r ↔ EndsWith (median y') r := by
  by_cases hne : y = []
  · subst hne
    rw [List.nil_perm.mp h]
  · have hne' : y' ≠ [] := fun h0 => hne (by subst h0; exact List.perm_nil.mp h)
    obtain ⟨s, hs⟩ := exists_sorts y
    have h1 := C01_median y s hs hne
    have h2 := C01_median y' s ⟨hs.1.trans h, hs.2⟩ hne'
    rw [← h.length_eq] at h2
    constructor
    · intro he
      rw [endsWith_unique he h1]; exact h2
    · intro he
      rw [endsWith_unique he h2]; exact h1

end median

/-- **C01** (any arithmetic) For every carrier whose `<` is asymmetric, in particular for floats with NaN,
`median` ends without a panic and reports the number of samples; for an odd number of samples the value
is one of the samples. -/
theorem C01_total {T : Type} [LT T] [DecidableLT T] [Zero T] [Add T] [Div T] [OfNat T 2]
    (hasymm : ∀ a b : T, a < b → ¬ b < a) (y : List T) :
    ∃ m, RunReturns (median y) (m, y.length) ∧ (y.length % 2 = 1 → m ∈ y) := by
  rcases y with _ | ⟨v, _ | ⟨w, vs⟩⟩
  · exact ⟨0, ⟨0, fun _ _ => rfl⟩, by simp⟩
  · exact ⟨v, ⟨0, fun _ _ => rfl⟩, by simp⟩
  · have hpos : (v :: w :: vs).length / 2 < (v :: w :: vs).length :=
      Nat.div_lt_self (by simp) (by decide)
    obtain ⟨b, hb, q1⟩ := quickselect_total hasymm (v :: w :: vs) _ hpos
    obtain ⟨a, _, q2⟩ := quickselect_total hasymm (v :: w :: vs)
      ((v :: w :: vs).length / 2 - 1) (by omega)
    by_cases h : (v :: w :: vs).length % 2 = 1
    · refine ⟨b, ⟨(v :: w :: vs).length, fun fuel hf => ?_⟩, fun _ => hb⟩
      rw [median]
      rw [if_pos h, q1 fuel hf]
      rfl
    · refine ⟨(a + b) / 2, ⟨(v :: w :: vs).length, fun fuel hf => ?_⟩, fun h' => absurd h' h⟩
      rw [median]
      rw [if_neg h, q1 fuel hf, q2 fuel hf]
      rfl

/-! ### NaN -/

/-- Rationals with a NaN: comparisons with NaN are false, arithmetic propagates it. -/
inductive NaNRat where
  | nan
  | num (q : ℚ)
  deriving DecidableEq

namespace NaNRat

/-- `<` of floats: false if an operand is NaN. -/
def lt : NaNRat → NaNRat → Bool
  | num a, num b => decide (a < b)
  | _, _ => false

instance : LT NaNRat := ⟨fun a b => lt a b = true⟩
instance : DecidableLT NaNRat := fun a b => inferInstanceAs (Decidable (lt a b = true))
instance : Zero NaNRat := ⟨num 0⟩
instance : OfNat NaNRat 2 := ⟨num 2⟩
/-- Addition propagates NaN. -/
def add : NaNRat → NaNRat → NaNRat
  | num a, num b => num (a + b)
  | _, _ => nan
/-- Division propagates NaN. -/
def div : NaNRat → NaNRat → NaNRat
  | num a, num b => num (a / b)
  | _, _ => nan
instance : Add NaNRat := ⟨add⟩
instance : Div NaNRat := ⟨div⟩

theorem asymm : ∀ a b : NaNRat, a < b → ¬ b < a := by
  rintro (_ | a) (_ | b) h h'
  · exact absurd h (by decide)
  · exact absurd h Bool.false_ne_true
  · exact absurd h Bool.false_ne_true
  · have h1 : a < b := of_decide_eq_true h
    have h2 : b < a := of_decide_eq_true h'
    exact absurd h1 (not_lt.mpr h2.le)

end NaNRat

/-- The hypothesis of `C01_total` is met by an arithmetic with NaN. -/
example : ∃ m, RunReturns (median [NaNRat.nan, .num 1, .num 2]) (m, 3) ∧
    (3 % 2 = 1 → m ∈ [NaNRat.nan, .num 1, .num 2]) :=
  C01_total NaNRat.asymm _

/-- **C02** With a NaN among the samples the result depends on their order. -/
theorem C02_nan_order_dependent :
    RunReturns (median [NaNRat.nan, .num 1, .num 2]) (.num 1, 3) ∧
    RunReturns (median [NaNRat.num 1, .nan, .num 2]) (.nan, 3) := by
  constructor
  · refine ⟨1, fun fuel hf => ?_⟩
    obtain ⟨f, rfl⟩ : ∃ f, fuel = f + 1 := ⟨fuel - 1, by omega⟩
    rfl
  · refine ⟨1, fun fuel hf => ?_⟩
    obtain ⟨f, rfl⟩ : ∃ f, fuel = f + 1 := ⟨fuel - 1, by omega⟩
    rfl

/-! ### Robust statistics -/

section robust
variable {T : Type} [Field T] [LinearOrder T] [IsStrictOrderedRing T]

/-- The median of a non-empty sequence (for stating C09). -/
def IsMedianOf (m : T) (y : List T) : Prop := ∃ s, Sorts s y ∧ m = middle s

theorem returns_iff_isMedianOf (y : List T) (hne : y ≠ []) (m : T) (n : ℕ) :
    RunReturns (median y) (m, n) ↔ IsMedianOf m y ∧ n = y.length := by
  constructor
  · intro h
    obtain ⟨s, hs⟩ := exists_sorts y
    have := endsWith_unique h (C01_median y s hs hne)
    injection this with this
    injection this with h1 h2
    exact ⟨⟨s, hs, h1⟩, h2⟩
  · rintro ⟨⟨s, hs, rfl⟩, rfl⟩
    exact C01_median y s hs hne

theorem exists_median (y : List T) : ∃ m, IsMedianOf m y :=
  let ⟨s, hs⟩ := exists_sorts y; ⟨_, s, hs, rfl⟩

theorem isMedianOf_unique {y : List T} (hne : y ≠ []) {m m' : T} (h : IsMedianOf m y)
    (h' : IsMedianOf m' y) : m = m' := by
  have h1 := (returns_iff_isMedianOf y hne m _).mpr ⟨h, rfl⟩
  have h2 := (returns_iff_isMedianOf y hne m' _).mpr ⟨h', rfl⟩
  have := endsWith_unique h1 h2
  injection this with this
  injection this

theorem getD_mapT (f : T → T) (l : List T) (i : ℕ) (h : i < l.length) :
    (l.map f).getD i 0 = f (l.getD i 0) := by
  rw [List.getD_eq_getElem _ _ (by simpa using h), List.getD_eq_getElem _ _ h]
  simp

theorem middle_affine (a b : T) (s : List T) (hne : s ≠ []) :
    middle (s.map (fun v => a * v + b)) = a * middle s + b := by
  have h0 : 0 < s.length := List.length_pos_iff.mpr hne
  unfold middle
  rw [List.length_map]
  by_cases h : s.length % 2 = 1
  · rw [if_pos h, if_pos h, getD_mapT _ _ _ (by omega)]
  · rw [if_neg h, if_neg h, getD_mapT _ _ _ (by omega), getD_mapT _ _ _ (by omega)]
    field_simp
    ring

theorem middle_reverse (s : List T) : middle s.reverse = middle s := by
  by_cases hne : s = []
  · subst hne; rfl
  have h0 : 0 < s.length := List.length_pos_iff.mpr hne
  have key : ∀ i, i < s.length → s.reverse.getD i 0 = s.getD (s.length - 1 - i) 0 := by
    intro i hi
    rw [List.getD_eq_getElem _ _ (by simpa using hi), List.getD_eq_getElem _ _ (by omega),
      List.getElem_reverse]
  unfold middle
  rw [List.length_reverse]
  by_cases h : s.length % 2 = 1
  · rw [if_pos h, if_pos h, key _ (by omega)]
    congr 1; omega
  · rw [if_neg h, if_neg h, key _ (by omega), key _ (by omega), add_comm]
    congr 3 <;> omega

/-- The median commutes with every affine map. -/
theorem isMedianOf_affine (a b m : T) (y : List T) (hne : y ≠ []) (h : IsMedianOf m y) :
    IsMedianOf (a * m + b) (y.map (fun v => a * v + b)) := by
  obtain ⟨s, hs, rfl⟩ := h
  have hsne : s ≠ [] := fun h0 => hne (by have := hs.1; rw [h0] at this; exact List.nil_perm.mp this)
  rcases le_total 0 a with ha | ha
  · refine ⟨s.map (fun v => a * v + b), ⟨hs.1.map _, ?_⟩, (middle_affine a b s hsne).symm⟩
    rw [List.pairwise_map]
    exact hs.2.imp (fun {u v} huv => by nlinarith [mul_le_mul_of_nonneg_left huv ha])
  · refine ⟨(s.map (fun v => a * v + b)).reverse, ⟨(List.reverse_perm _).trans (hs.1.map _), ?_⟩, ?_⟩
    · rw [List.pairwise_reverse, List.pairwise_map]
      exact hs.2.imp (fun {u v} huv => by nlinarith [mul_le_mul_of_nonpos_left huv ha])
    · rw [middle_reverse, middle_affine a b s hsne]

/-- **C09** `median_abs_deviation` ends without a panic and returns the median of the absolute deviations
from the median, with the number of samples. -/
theorem C09_mad (y : List T) (hne : y ≠ []) (med mad : T) (hmed : IsMedianOf med y)
    (hmad : IsMedianOf mad (y.map (fun v => |v - med|))) :
    RunReturns (medianAbsDeviation (fun v => |v|) y) (mad, y.length) := by
  obtain ⟨N1, h1⟩ := (returns_iff_isMedianOf y hne med _).mpr ⟨hmed, rfl⟩
  obtain ⟨N2, h2⟩ := (returns_iff_isMedianOf _ (by simpa using hne) mad _).mpr ⟨hmad, rfl⟩
  refine ⟨max N1 N2, fun fuel hf => ?_⟩
  have e1 := h1 fuel (le_trans (le_max_left _ _) hf)
  have e2 := h2 fuel (le_trans (le_max_right _ _) hf)
  rw [List.length_map] at e2
  unfold medianAbsDeviation
  rw [e1]
  exact e2

/-- The hypotheses of `C09_mad` can be met for every sequence. -/
example (y : List T) : ∃ med, IsMedianOf med y ∧ ∃ mad, IsMedianOf mad (y.map (fun v => |v - med|)) :=
  let ⟨med, h⟩ := exists_median y; ⟨med, h, exists_median _⟩

/-- `r` is the median absolute deviation of `y`. -/
def IsMad (r : T) (y : List T) : Prop :=
  RunReturns (medianAbsDeviation (fun v => |v|) y) (r, y.length)

theorem isMad_iff (y : List T) (hne : y ≠ []) (r : T) :
    IsMad r y ↔ ∃ med, IsMedianOf med y ∧ IsMedianOf r (y.map (fun v => |v - med|)) := by
  constructor
  · intro h
    obtain ⟨med, hmed⟩ := exists_median y
    obtain ⟨mad, hmad⟩ := exists_median (y.map (fun v => |v - med|))
    have := endsWith_unique h (C09_mad y hne med mad hmed hmad)
    injection this with this
    injection this with h1 _
    exact ⟨med, hmed, h1 ▸ hmad⟩
  · rintro ⟨med, h1, h2⟩
    exact C09_mad y hne med r h1 h2

/-- **C09** The median absolute deviation is non-negative. -/
theorem C09_mad_nonneg (y : List T) (hne : y ≠ []) (r : T) (h : IsMad r y) : 0 ≤ r := by
  obtain ⟨med, _, s, hs, rfl⟩ := (isMad_iff y hne r).mp h
  have key : ∀ i, 0 ≤ s.getD i 0 := by
    intro i
    by_cases hi : i < s.length
    · rw [List.getD_eq_getElem _ _ hi]
      have := hs.1.mem_iff.mp (List.getElem_mem hi)
      obtain ⟨v, _, hv⟩ := List.mem_map.mp this
      rw [← hv]; exact abs_nonneg _
    · rw [List.getD_eq_default _ _ (by omega)]
  unfold middle
  split
  · exact key _
  · exact div_nonneg (add_nonneg (key _) (key _)) (by norm_num)

/-- **C09** Under `v ↦ a v + b` the median absolute deviation is multiplied by `|a|`; in particular it does
not change under shifts. -/
theorem C09_mad_affine (a b r : T) (y : List T) (hne : y ≠ []) (h : IsMad r y) :
    IsMad (|a| * r) (y.map (fun v => a * v + b)) := by
  obtain ⟨med, h1, h2⟩ := (isMad_iff y hne r).mp h
  refine (isMad_iff _ (by simpa using hne) _).mpr ⟨a * med + b, isMedianOf_affine a b med y hne h1, ?_⟩
  have := isMedianOf_affine |a| 0 r _ (by simpa using hne) h2
  rw [add_zero, List.map_map] at this
  rw [List.map_map]
  convert this using 2
  funext v
  simp only [Function.comp, add_zero, ← abs_mul]
  congr 1; ring

/-- **C09** `mod_zscore` maps each sample, in order, to `(v - median) · c / MAD`, with `c` the constant
0.6745. -/
theorem C09_mod_zscore (c : T) (y : List T) (hne : y ≠ []) (med mad : T) (hmed : IsMedianOf med y)
    (hmad : IsMedianOf mad (y.map (fun v => |v - med|))) :
    RunReturns (modZscore (fun v => |v|) c y) (y.map (fun v => (v - med) * c / mad)) := by
  obtain ⟨N1, h1⟩ := (returns_iff_isMedianOf y hne med _).mpr ⟨hmed, rfl⟩
  obtain ⟨N2, h2⟩ := C09_mad y hne med mad hmed hmad
  refine ⟨max N1 N2, fun fuel hf => ?_⟩
  have e1 := h1 fuel (le_trans (le_max_left _ _) hf)
  have e2 := h2 fuel (le_trans (le_max_right _ _) hf)
  unfold modZscore
  rw [e1]
  simp only [Run.lift] at e2 ⊢
  rw [Run.ret_bind, e2]
  rfl

/-- **C09** The scores of the modified z-score do not change under `v ↦ a v + b` with `a > 0` (for data
whose MAD is not zero). -/
theorem C09_mod_zscore_affine (c a b : T) (ha : 0 < a) (y : List T) (hne : y ≠ []) (z : List T)
    (hz : RunReturns (modZscore (fun v => |v|) c y) z) :
    RunReturns (modZscore (fun v => |v|) c (y.map (fun v => a * v + b))) z := by
  obtain ⟨med, hmed⟩ := exists_median y
  obtain ⟨mad, hmad⟩ := exists_median (y.map (fun v => |v - med|))
  have e := endsWith_unique hz (C09_mod_zscore c y hne med mad hmed hmad)
  injection e with e
  subst e
  have h1 := isMedianOf_affine a b med y hne hmed
  have h2 : IsMedianOf (a * mad)
      ((y.map (fun v => a * v + b)).map (fun v => |v - (a * med + b)|)) := by
    have := isMedianOf_affine a 0 mad _ (by simpa using hne) hmad
    rw [add_zero, List.map_map] at this
    rw [List.map_map]
    convert this using 2
    funext v
    simp only [Function.comp, add_zero]
    rw [show a * v + b - (a * med + b) = a * (v - med) by ring, abs_mul, abs_of_pos ha]
  have := C09_mod_zscore c _ (by simpa using hne) _ _ h1 h2
  rw [List.map_map] at this
  convert this using 3
  rename_i v
  simp only [Function.comp]
  rw [show a * v + b - (a * med + b) = a * (v - med) by ring, mul_assoc,
    mul_div_mul_left _ _ ha.ne']

end robust

/-- A concrete instance of the robust statistics: median 3, deviations 2, 1, 0, 1, 6, MAD 1. -/
example : IsMedianOf (3 : ℚ) [1, 2, 3, 4, 9] ∧
    IsMedianOf (1 : ℚ) ([1, 2, 3, 4, 9].map (fun v => |v - 3|)) := by
  refine ⟨⟨[1, 2, 3, 4, 9], ⟨by decide, by decide⟩, by norm_num [middle]⟩,
    ⟨[0, 1, 1, 2, 6], ⟨?_, by decide⟩, by norm_num [middle]⟩⟩
  norm_num [abs_of_neg, abs_of_nonneg]
  decide

end SciRs.Props

import Verif.Model.Stats
import Verif.Spec.Moments
import Mathlib.Data.List.GetD
import Mathlib.Algebra.Order.BigOperators.Group.List
import Mathlib.Tactic.Ring
import Mathlib.Tactic.Linarith
import Mathlib.Tactic.FieldSimp
import Mathlib.Tactic.Positivity

/-! # Helper lemmas for the sample statistics -/

namespace SciRs.Stats

open SciRs SciRs.Spec

theorem sum_eq (l : List ℝ) : sum l = l.sum := by
  unfold sum
  rw [List.sum_eq_foldl]

theorem mean_fold (y : List ℝ) (a : ℝ) (n : ℕ) :
    y.foldl (fun (acc : ℝ × ℕ) yi => (acc.1 + yi, acc.2 + 1)) (a, n) = (a + y.sum, n + y.length) := by
  induction y generalizing a n with
  | nil => simp
  | cons v vs ih =>
    rw [List.foldl_cons, ih, List.sum_cons, List.length_cons]
    ext
    · simp only; ring
    · simp only; ring

theorem mean_eq (y : List ℝ) : mean y = (avg y, y.length) := by
  unfold mean
  rw [mean_fold]
  by_cases h : y = []
  · subst h; simp [avg]
  · have h0 : 0 < y.length := List.length_pos_iff.mpr h
    simp [avg, h0]

theorem variance_eq (y : List ℝ) : variance y = (pvar y, y.length) := by
  unfold variance
  rw [mean_eq]
  dsimp only
  rw [sum_eq]
  by_cases h : y = []
  · subst h; simp [pvar, avg]
  · have h0 : 0 < y.length := List.length_pos_iff.mpr h
    simp [pvar, avg, h0, pow_two]

theorem sum_map_sub (y : List ℝ) (c : ℝ) : (y.map (fun v => v - c)).sum = y.sum - y.length * c := by
  induction y with
  | nil => simp
  | cons v vs ih => simp only [List.map_cons, List.sum_cons, ih, List.length_cons]; push_cast; ring

theorem sum_map_affine (y : List ℝ) (a b : ℝ) :
    (y.map (fun v => a * v + b)).sum = a * y.sum + y.length * b := by
  induction y with
  | nil => simp
  | cons v vs ih => simp only [List.map_cons, List.sum_cons, ih, List.length_cons]; push_cast; ring

theorem avg_affine (y : List ℝ) (hne : y ≠ []) (a b : ℝ) :
    avg (y.map (fun v => a * v + b)) = a * avg y + b := by
  have h0 : (y.length : ℝ) ≠ 0 := by
    have := List.length_pos_iff.mpr hne
    positivity
  unfold avg
  rw [sum_map_affine, List.length_map]
  field_simp

theorem sum_map_mul_left' (y : List ℝ) (f : ℝ → ℝ) (a : ℝ) :
    (y.map (fun v => a * f v)).sum = a * (y.map f).sum := by
  induction y with
  | nil => simp
  | cons v vs ih => simp only [List.map_cons, List.sum_cons, ih]; ring

theorem pvar_affine (y : List ℝ) (hne : y ≠ []) (a b : ℝ) :
    pvar (y.map (fun v => a * v + b)) = a ^ 2 * pvar y := by
  unfold pvar
  rw [avg_affine y hne, List.map_map]
  have : ((fun v => (v - (a * avg y + b)) ^ 2) ∘ fun v => a * v + b) =
      fun v => a ^ 2 * (v - avg y) ^ 2 := by
    funext v; simp only [Function.comp]; ring
  rw [this]
  unfold avg
  rw [sum_map_mul_left' y (fun v => (v - y.sum / y.length) ^ 2), List.length_map, List.length_map,
    mul_div_assoc]

theorem sum_sq_nonneg (y : List ℝ) (f : ℝ → ℝ) : 0 ≤ (y.map (fun v => f v ^ 2)).sum := by
  apply List.sum_nonneg
  intro a ha
  obtain ⟨v, _, rfl⟩ := List.mem_map.mp ha
  positivity

theorem pvar_nonneg (y : List ℝ) : 0 ≤ pvar y := by
  unfold pvar
  rw [avg]
  exact div_nonneg (sum_sq_nonneg y _) (by positivity)

theorem sum_sq_eq_zero (y : List ℝ) (c : ℝ) :
    (y.map (fun v => (v - c) ^ 2)).sum = 0 ↔ ∀ v ∈ y, v = c := by
  induction y with
  | nil => simp
  | cons v vs ih =>
    have h1 : 0 ≤ (vs.map (fun v => (v - c) ^ 2)).sum := sum_sq_nonneg vs (fun v => v - c)
    have h2 : 0 ≤ (v - c) ^ 2 := by positivity
    simp only [List.map_cons, List.sum_cons, List.forall_mem_cons]
    rw [add_eq_zero_iff_of_nonneg h2 h1, ih]
    refine and_congr_left' ?_
    rw [sq_eq_zero_iff, sub_eq_zero]

theorem pvar_eq_zero_iff (y : List ℝ) : pvar y = 0 ↔ ¬ NonConstant y := by
  by_cases hne : y = []
  · subst hne; simp [pvar, avg, NonConstant]
  have h0 : (y.length : ℝ) ≠ 0 := by
    have := List.length_pos_iff.mpr hne
    positivity
  unfold pvar
  rw [avg, List.length_map, div_eq_zero_iff, or_iff_left h0, sum_sq_eq_zero]
  constructor
  · rintro h ⟨u, hu, v, hv, huv⟩
    exact huv ((h u hu).trans (h v hv).symm)
  · intro h v hv
    have hall : ∀ u ∈ y, u = v := fun u hu => by
      by_contra hcon; exact h ⟨u, hu, v, hv, hcon⟩
    have : y.sum = y.length * v := by
      have := List.sum_eq_card_nsmul y v hall
      simpa using this
    rw [avg, this]
    field_simp

theorem pvar_pos (y : List ℝ) (h : NonConstant y) : 0 < pvar y := by
  rcases (pvar_nonneg y).lt_or_eq with h' | h'
  · exact h'
  · exact absurd h ((pvar_eq_zero_iff y).mp h'.symm)

theorem nonConstant_ne {y : List ℝ} (h : NonConstant y) : y ≠ [] := by
  obtain ⟨u, hu, _⟩ := h
  intro h0; subst h0; simp at hu

theorem length_pos_real {y : List ℝ} (h : y ≠ []) : (0 : ℝ) < y.length := by
  have := List.length_pos_iff.mpr h
  positivity

theorem avg_map_sub (y : List ℝ) (hne : y ≠ []) (b : ℝ) :
    avg (y.map (fun v => v - b)) = avg y - b := by
  have := avg_affine y hne 1 (-b)
  simpa [sub_eq_add_neg] using this

theorem getD_drop' (y : List ℝ) (k j : ℕ) : (y.drop k).getD j 0 = y.getD (k + j) 0 := by
  simp [List.getD_eq_getElem?_getD]

/-! ### zip sums as range sums -/

/-- The products of two lists, as an indexed sum. -/
theorem sum_zip_map (f : ℝ → ℝ → ℝ) (a b : List ℝ) (n : ℕ) (ha : n ≤ a.length) (hb : n ≤ b.length)
    (hn : n = a.length ∨ n = b.length) :
    ((a.zip b).map (fun p => f p.1 p.2)).sum =
      ∑ j ∈ Finset.range n, f (a.getD j 0) (b.getD j 0) := by
  induction n generalizing a b with
  | zero =>
    have : a = [] ∨ b = [] := by
      rcases hn with h | h
      · left; exact List.length_eq_zero_iff.mp h.symm
      · right; exact List.length_eq_zero_iff.mp h.symm
    rcases this with h | h <;> simp [h]
  | succ n ih =>
    rcases a with _ | ⟨u, us⟩
    · simp at ha
    rcases b with _ | ⟨v, vs⟩
    · simp at hb
    rw [Finset.sum_range_succ', List.zip_cons_cons, List.map_cons, List.sum_cons,
      ih us vs (by simpa using ha) (by simpa using hb) (by simpa using hn)]
    simp [add_comm]

theorem dot_eq (a b : List ℝ) (h : a.length = b.length) :
    dot a b = ∑ j ∈ Finset.range a.length, a.getD j 0 * b.getD j 0 := by
  unfold dot
  rw [sum_eq]
  exact sum_zip_map (fun u v => u * v) a b a.length le_rfl (by omega) (Or.inl rfl)

/-- The tiled dot product covers the complete tiles only. -/
theorem tiles_eq (l r : List ℝ) (h : l.length = r.length) :
    sum (((chunks4 l).zip (chunks4 r)).map (fun p => dot p.1 p.2)) =
      ∑ j ∈ Finset.range (4 * (l.length / 4)), l.getD j 0 * r.getD j 0 := by
  rw [sum_eq]
  induction hn : l.length / 4 generalizing l r with
  | zero =>
    have hl : l.length < 4 := by omega
    have hc : chunks4 l = [] := by
      rcases l with _ | ⟨a, _ | ⟨b, _ | ⟨c, _ | ⟨d, l⟩⟩⟩⟩ <;> first | rfl | (simp at hl; omega)
    simp [hc]
  | succ n ih =>
    have hl : 4 ≤ l.length := by omega
    rcases l with _ | ⟨a, _ | ⟨b, _ | ⟨c, _ | ⟨d, l⟩⟩⟩⟩ <;> try (simp at hl; done)
    rcases r with _ | ⟨a', _ | ⟨b', _ | ⟨c', _ | ⟨d', r⟩⟩⟩⟩ <;> try (simp at h; done)
    simp only [List.length_cons] at h hn
    have := ih l r (by omega) (by omega)
    rw [chunks4, chunks4, List.zip_cons_cons, List.map_cons, List.sum_cons, this,
      show 4 * (n + 1) = 4 * n + 1 + 1 + 1 + 1 by ring]
    rw [Finset.sum_range_succ', Finset.sum_range_succ', Finset.sum_range_succ',
      Finset.sum_range_succ']
    simp [dot, sum]
    ring

/-- The tiled sum of squares together with the remainder is the whole sum. -/
theorem tiles_sq (y : List ℝ) :
    sum ((remainder4 y).map (fun yi => yi * yi)) +
      sum ((chunks4 y).map (fun t => sum (t.map (fun yi => yi * yi)))) =
      (y.map (fun v => v ^ 2)).sum := by
  rw [sum_eq, sum_eq]
  induction y using chunks4.induct with
  | case1 a b c d rest ih =>
    rw [remainder4, chunks4, List.map_cons, List.sum_cons]
    simp only [List.map_cons, List.sum_cons] at ih ⊢
    rw [← ih]
    simp [sum]
    ring
  | case2 l hl =>
    rw [remainder4.eq_2 l hl, chunks4.eq_2 l hl]
    simp [pow_two]

end SciRs.Stats

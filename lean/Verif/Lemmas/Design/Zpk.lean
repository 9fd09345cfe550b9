import Verif.Model.Design.Zpk
import Verif.Spec.Transfer
import Mathlib.Tactic.Ring
import Mathlib.Tactic.FieldSimp
import Mathlib.Tactic.Linarith
import Mathlib.Tactic.LinearCombination
import Mathlib.Algebra.BigOperators.Group.List.Lemmas

/-! # Lemmas about the zero-pole-gain transformations -/

namespace SciRs.Design

open Complex SciRs.Spec

theorem foldMul_eq (l : List ℂ) : foldMul l = l.prod := by
  unfold foldMul
  rw [List.prod_eq_foldl]

theorem prod_map_mul (l : List ℂ) (f g : ℂ → ℂ) :
    (l.map (fun x => f x * g x)).prod = (l.map f).prod * (l.map g).prod := by
  induction l with
  | nil => simp
  | cons a l ih => simp only [List.map_cons, List.prod_cons, ih]; ring

theorem prod_map_const (l : List ℂ) (c : ℂ) : (l.map (fun _ => c)).prod = c ^ l.length := by
  simp

theorem prod_map_ne_zero {l : List ℂ} {f : ℂ → ℂ} (h : ∀ x ∈ l, f x ≠ 0) : (l.map f).prod ≠ 0 := by
  intro h0
  rw [List.prod_eq_zero_iff] at h0
  obtain ⟨x, hx, h0⟩ := List.mem_map.mp h0
  exact h x hx h0

theorem prod_replicate_sub (n : ℕ) (s a : ℂ) :
    ((List.replicate n a).map (fun z => s - z)).prod = (s - a) ^ n := by
  simp [List.map_replicate, List.prod_replicate]

theorem relativeDegree_ok {z p : List ℂ} (h : z.length ≤ p.length) :
    relativeDegree z p = .ok (p.length - z.length) := by
  unfold relativeDegree
  dsimp only
  rw [if_neg (by omega)]
  congr 1
  omega

theorem relativeDegree_panics {z p : List ℂ} (h : p.length < z.length) :
    relativeDegree z p = .error Err.panic := by
  unfold relativeDegree
  dsimp only
  rw [if_pos (by omega)]

/-! ### Conjugation -/

theorem conjClosed_nil : ConjClosed [] := by simp [ConjClosed]

theorem conjClosed_append {a b : List ℂ} (ha : ConjClosed a) (hb : ConjClosed b) :
    ConjClosed (a ++ b) := by
  unfold ConjClosed at *
  rw [List.map_append]
  exact ha.append hb

theorem conjClosed_map {l : List ℂ} (h : ConjClosed l) {f : ℂ → ℂ}
    (hf : ∀ x, (starRingEnd ℂ) (f x) = f ((starRingEnd ℂ) x)) : ConjClosed (l.map f) := by
  unfold ConjClosed at *
  rw [List.map_map]
  have e : (starRingEnd ℂ) ∘ f = f ∘ (starRingEnd ℂ) := funext hf
  rw [e, ← List.map_map]
  exact h.map f

theorem conjClosed_replicate_real (n : ℕ) (r : ℝ) : ConjClosed (List.replicate n (r : ℂ)) := by
  unfold ConjClosed
  simp [List.map_replicate]

/-- The product of a conjugation-closed list is real. -/
theorem conjClosed_prod_real {l : List ℂ} (h : ConjClosed l) : ((l.prod.re : ℝ) : ℂ) = l.prod := by
  have h1 : (starRingEnd ℂ) l.prod = l.prod := by
    rw [map_list_prod]
    exact h.prod_eq
  exact (Complex.conj_eq_iff_re.mp h1)

theorem real_div {a b : ℂ} (ha : ((a.re : ℝ) : ℂ) = a) (hb : ((b.re : ℝ) : ℂ) = b) :
    (((a / b).re : ℝ) : ℂ) = a / b := by
  rw [← ha, ← hb, ← ofReal_div, ofReal_re]

theorem conjClosed_prod_sub_real {l : List ℂ} (h : ConjClosed l) (f : ℝ) :
    ((((l.map (fun z => (f : ℂ) - z)).prod.re : ℝ)) : ℂ) = (l.map (fun z => (f : ℂ) - z)).prod :=
  conjClosed_prod_real (conjClosed_map h (fun x => by simp))

theorem conjClosed_prod_neg_real {l : List ℂ} (h : ConjClosed l) :
    ((((l.map (fun z => -1 * z)).prod.re : ℝ)) : ℂ) = (l.map (fun z => -1 * z)).prod :=
  conjClosed_prod_real (conjClosed_map h (fun x => by simp))

/-! ### The square root -/

theorem csqrt_sq (w : ℂ) : csqrt w ^ 2 = w := by
  unfold csqrt
  have := Complex.cpow_nat_inv_pow w (n := 2) (by norm_num)
  simp only [one_div]
  exact_mod_cast this

theorem split_factor (a s : ℂ) (wo : ℝ) :
    (s - (a + csqrt (a ^ 2 - ((wo ^ 2 : ℝ) : ℂ)))) * (s - (a - csqrt (a ^ 2 - ((wo ^ 2 : ℝ) : ℂ)))) =
      s ^ 2 - 2 * a * s + (wo : ℂ) ^ 2 := by
  have h := csqrt_sq (a ^ 2 - ((wo ^ 2 : ℝ) : ℂ))
  push_cast at h ⊢
  linear_combination (-1 : ℂ) * h

theorem splitPm_eq (l : List ℂ) (wo : ℝ) :
    splitPm l wo = l.map (fun a => a + csqrt (a ^ 2 - ((wo ^ 2 : ℝ) : ℂ))) ++
      l.map (fun a => a - csqrt (a ^ 2 - ((wo ^ 2 : ℝ) : ℂ))) := by
  simp [splitPm, List.map_map, Function.comp_def]

theorem splitPm_prod (l : List ℂ) (wo : ℝ) (s : ℂ) :
    ((splitPm l wo).map (fun z => s - z)).prod =
      (l.map (fun a => s ^ 2 - 2 * a * s + (wo : ℂ) ^ 2)).prod := by
  rw [splitPm_eq, List.map_append, List.prod_append, List.map_map, List.map_map]
  rw [show (fun a => s ^ 2 - 2 * a * s + (wo : ℂ) ^ 2) = (fun a => _) from
    funext (fun a => (split_factor a s wo).symm), prod_map_mul]
  rfl

theorem splitPm_length (l : List ℂ) (wo : ℝ) : (splitPm l wo).length = 2 * l.length := by
  simp [splitPm]; omega

theorem mem_splitPm {l : List ℂ} {wo : ℝ} {s : ℂ} (h : s ∈ splitPm l wo) :
    ∃ a ∈ l, s ^ 2 - 2 * a * s + (wo : ℂ) ^ 2 = 0 := by
  have h0 : ((splitPm l wo).map (fun z => s - z)).prod = 0 := by
    rw [List.prod_eq_zero_iff]
    exact List.mem_map.mpr ⟨s, h, sub_self s⟩
  rw [splitPm_prod, List.prod_eq_zero_iff] at h0
  obtain ⟨a, ha, hz⟩ := List.mem_map.mp h0
  exact ⟨a, ha, hz⟩

theorem perm_append_flat {α β : Type*} (l : List α) (f g : α → β) :
    (l.map f ++ l.map g).Perm (l.flatMap (fun a => [f a, g a])) := by
  induction l with
  | nil => simp
  | cons a l ih =>
    simp only [List.map_cons, List.flatMap_cons, List.cons_append, List.nil_append]
    refine List.Perm.cons _ ?_
    refine List.perm_middle.trans ?_
    exact List.Perm.cons _ ih

theorem perm_flatMap_congr {α β : Type*} (l : List α) (f g : α → List β)
    (h : ∀ a, (f a).Perm (g a)) : (l.flatMap f).Perm (l.flatMap g) := by
  induction l with
  | nil => exact List.Perm.refl _
  | cons a l ih =>
    simp only [List.flatMap_cons]
    exact (h a).append ih

theorem conjClosed_splitPm {l : List ℂ} (h : ConjClosed l) (wo : ℝ) :
    ConjClosed (Design.splitPm l wo) := by
  unfold ConjClosed at *
  rw [splitPm_eq]
  set q : ℂ → ℂ := fun a => csqrt (a ^ 2 - ((wo ^ 2 : ℝ) : ℂ)) with hqd
  have hp := perm_append_flat l (fun a => a + q a) (fun a => a - q a)
  refine (hp.map _).trans (List.Perm.trans ?_ hp.symm)
  rw [List.map_flatMap]
  have hq : ∀ a, ([a + q a, a - q a].map (starRingEnd ℂ)).Perm
      [(starRingEnd ℂ) a + q ((starRingEnd ℂ) a), (starRingEnd ℂ) a - q ((starRingEnd ℂ) a)] := by
    intro a
    have h1 : q a ^ 2 = a ^ 2 - ((wo ^ 2 : ℝ) : ℂ) := csqrt_sq _
    have h2 : q ((starRingEnd ℂ) a) ^ 2 = ((starRingEnd ℂ) a) ^ 2 - ((wo ^ 2 : ℝ) : ℂ) := csqrt_sq _
    have h3 : ((starRingEnd ℂ) (q a)) ^ 2 = q ((starRingEnd ℂ) a) ^ 2 := by
      rw [h2, ← map_pow, h1]; simp
    rcases sq_eq_sq_iff_eq_or_eq_neg.mp h3 with h4 | h4
    · simp only [List.map_cons, List.map_nil, map_add, map_sub, h4]
      exact List.Perm.refl _
    · simp only [List.map_cons, List.map_nil, map_add, map_sub, h4, ← sub_eq_add_neg, sub_neg_eq_add]
      exact List.Perm.swap _ _ _
  refine (perm_flatMap_congr l _ _ hq).trans ?_
  have e3 : l.flatMap (fun a => [(starRingEnd ℂ) a + q ((starRingEnd ℂ) a),
        (starRingEnd ℂ) a - q ((starRingEnd ℂ) a)]) =
      (l.map (starRingEnd ℂ)).flatMap (fun a => [a + q a, a - q a]) := by
    rw [List.flatMap_map]
  rw [e3]
  exact h.flatMap_right _

end SciRs.Design

import Verif.Model.Design.Poly
import Verif.Spec.Coeffs
import Verif.Lemmas.Design.Zpk
import Mathlib.Data.List.GetD
import Mathlib.Algebra.Polynomial.Coeff
import Mathlib.Algebra.Polynomial.BigOperators
import Mathlib.Algebra.Polynomial.Eval.Degree
import Mathlib.Algebra.BigOperators.Intervals

/-! # Lemmas about `poly_dyn` and `zpk2tf_dyn` -/

namespace SciRs.Design

open Complex SciRs.Spec Polynomial

theorem mapM_ok {α β : Type} {f : α → Res β} {g : α → β} (l : List α) (h : ∀ x ∈ l, f x = .ok (g x)) :
    l.mapM f = .ok (l.map g) := by
  induction l with
  | nil => rfl
  | cons a l ih =>
    rw [List.mapM_cons, h a (by simp), ih (fun x hx => h x (by simp [hx]))]
    rfl

theorem idx_ok {α : Type} {l : List α} {i : ℕ} (h : i < l.length) (d : α) : idx l i = .ok (l.getD i d) := by
  unfold idx
  rw [List.getElem?_eq_getElem h, List.getD_eq_getElem _ _ h]

theorem idx_error {α : Type} {l : List α} {i : ℕ} (h : l.length ≤ i) : idx l i = .error Err.index := by
  unfold idx
  rw [List.getElem?_eq_none h]

/-- The body of the inner loop of `polyEntry`. -/
noncomputable def polyInner (a k : List ℂ) (i : ℕ) (acc : ℂ) (u : ℕ) : Res ℂ :=
  if i - u < 2 then do
    let x ← idx a u
    let y ← idx k (i - u)
    return acc + x * y
  else return acc

theorem polyInner_skip (a k : List ℂ) (i : ℕ) (acc : ℂ) (m : ℕ) (hm : m + 1 ≤ i) :
    (List.range m).foldlM (polyInner a k i) acc = .ok acc := by
  induction m with
  | zero => rfl
  | succ m ih =>
    rw [List.range_succ, List.foldlM_append, ih (by omega)]
    simp only [ok_bind, List.foldlM_cons, List.foldlM_nil, polyInner]
    rw [if_neg (by omega)]
    rfl

theorem polyEntry_ok (a : List ℂ) (zi : ℂ) (i : ℕ) (ha : a ≠ []) (hi : i ≤ a.length) :
    polyEntry a [1, -zi] i = .ok (a.getD i 0 - (if i = 0 then 0 else a.getD (i - 1) 0) * zi) := by
  have hL : 0 < a.length := List.length_pos_iff.mpr ha
  unfold polyEntry
  dsimp only
  rw [if_neg (show ¬ i > a.length by omega)]
  by_cases h0 : i = 0
  · subst h0
    rw [if_pos (show 0 = min 0 (a.length - 1) by omega), idx_ok hL 0]
    simp [idx, pure, Except.pure]
  · rw [if_neg h0]
    by_cases h1 : a.length = 1
    · have : i = 1 := by omega
      subst this
      rw [if_pos (show 0 = min 1 (a.length - 1) by omega), idx_ok hL 0, List.getD_eq_default a 0 (show a.length ≤ 1 by omega)]
      simp [idx, pure, Except.pure]
    · rw [if_neg (show ¬ 0 = min i (a.length - 1) by omega)]
      change List.foldlM (polyInner a [1, -zi] i) 0 _ = _
      rw [Nat.sub_zero, ← List.range_eq_range']
      have k0 : ∀ acc, i < a.length → polyInner a [1, -zi] i acc i = .ok (acc + a.getD i 0) := by
        intro acc h
        unfold polyInner
        rw [if_pos (by omega), idx_ok h 0]
        simp [idx, pure, Except.pure]
      have k1 : ∀ acc, polyInner a [1, -zi] i acc (i - 1) = .ok (acc - a.getD (i - 1) 0 * zi) := by
        intro acc
        unfold polyInner
        rw [if_pos (by omega), idx_ok (show i - 1 < a.length by omega) 0, show i - (i - 1) = 1 by omega]
        simp [idx, pure, Except.pure, sub_eq_add_neg]
      by_cases h2 : i < a.length
      · rw [Nat.min_eq_left (by omega), List.range_succ, List.foldlM_append]
        have : List.range i = List.range (i - 1) ++ [i - 1] := by
          rw [← List.range_succ]; congr 1; omega
        rw [this, List.foldlM_append, polyInner_skip _ _ _ _ _ (by omega)]
        simp only [ok_bind, List.foldlM_cons, List.foldlM_nil, k1, k0 _ h2, bind_pure]
        congr 1; ring
      · have hiL : i = a.length := by omega
        rw [Nat.min_eq_right (by omega), show a.length - 1 + 1 = (i - 1) + 1 by omega, List.range_succ,
          List.foldlM_append, polyInner_skip _ _ _ _ _ (by omega)]
        simp only [ok_bind, List.foldlM_cons, List.foldlM_nil, k1, bind_pure]
        rw [List.getD_eq_default a 0 (show a.length ≤ i by omega)]

theorem polyStep_ok (a : List ℂ) (zi : ℂ) (ha : a ≠ []) :
    polyStep a zi = .ok ((List.range (a.length + 1)).map
      (fun i => a.getD i 0 - (if i = 0 then 0 else a.getD (i - 1) 0) * zi)) := by
  unfold polyStep
  rw [show a.length + 2 - 1 = a.length + 1 by omega]
  refine mapM_ok _ (fun i hi => polyEntry_ok a zi i ha ?_)
  have := List.mem_range.mp hi
  omega

theorem IsCoeffList.getD {c : List ℂ} {n : ℕ} {P : Polynomial ℂ} (h : IsCoeffList c n P) {i : ℕ}
    (hi : i ≤ n) : c.getD i 0 = P.coeff (n - i) := by
  rw [List.getD_eq_getElem?_getD, h.2.2 i hi]
  rfl

theorem polyStep_coeff {a : List ℂ} {n : ℕ} {P : Polynomial ℂ} (h : IsCoeffList a n P) (zi : ℂ) :
    ∃ b, polyStep a zi = .ok b ∧ IsCoeffList b (n + 1) (P * (X - C zi)) := by
  have hl := h.1
  have ha : a ≠ [] := by intro h0; rw [h0] at hl; simp at hl
  refine ⟨_, polyStep_ok a zi ha, by simp [hl], ?_, ?_⟩
  · refine Polynomial.natDegree_mul_le.trans ?_
    have := h.2.1
    rw [Polynomial.natDegree_X_sub_C]
    omega
  · intro i hi
    rw [List.getElem?_map, List.getElem?_range (by omega), Option.map_some]
    congr 1
    rcases Nat.eq_zero_or_pos i with h0 | h0
    · subst h0
      rw [if_pos rfl, IsCoeffList.getD h (by omega), Nat.sub_zero, Nat.sub_zero,
        Polynomial.coeff_mul_X_sub_C, Polynomial.coeff_eq_zero_of_natDegree_lt (show P.natDegree < n + 1 by
          have := h.2.1; omega)]
    · rw [if_neg (by omega), IsCoeffList.getD h (show i - 1 ≤ n by omega)]
      by_cases h1 : i ≤ n
      · rw [IsCoeffList.getD h h1, show n + 1 - i = (n - i) + 1 by omega, Polynomial.coeff_mul_X_sub_C,
          show n - (i - 1) = n - i + 1 by omega]
      · rw [List.getD_eq_default a 0 (by omega), show n + 1 - i = 0 by omega, show n - (i - 1) = 0 by omega,
          Polynomial.mul_coeff_zero]
        simp

theorem polyFold_coeff (z : List ℂ) {a : List ℂ} {n : ℕ} {P : Polynomial ℂ} (h : IsCoeffList a n P) :
    ∃ c, z.foldlM polyStep a = .ok c ∧ IsCoeffList c (n + z.length) (P * rootPoly z) := by
  induction z generalizing a n P with
  | nil => exact ⟨a, rfl, by simpa [rootPoly] using h⟩
  | cons r z ih =>
    obtain ⟨b, hb, hb'⟩ := polyStep_coeff h r
    obtain ⟨c, hc, hc'⟩ := ih hb'
    refine ⟨c, ?_, ?_⟩
    · rw [List.foldlM_cons, hb]; exact hc
    · rw [List.length_cons, show n + (z.length + 1) = n + 1 + z.length by omega]
      convert hc' using 1
      simp only [rootPoly, List.map_cons, List.prod_cons]
      ring

theorem rootPoly_map_conj (z : List ℂ) :
    (rootPoly z).map (starRingEnd ℂ) = rootPoly (z.map (starRingEnd ℂ)) := by
  unfold rootPoly
  rw [Polynomial.map_list_prod, List.map_map, List.map_map]
  congr 1
  refine List.map_congr_left (fun x _ => ?_)
  simp

theorem rootPoly_real {z : List ℂ} (h : ConjClosed z) (j : ℕ) :
    ((((rootPoly z).coeff j).re : ℝ) : ℂ) = (rootPoly z).coeff j := by
  have h1 : (rootPoly z).map (starRingEnd ℂ) = rootPoly z := by
    rw [rootPoly_map_conj]
    exact (h.map _).prod_eq
  have h2 := congrArg (fun Q => Q.coeff j) h1
  simp only [Polynomial.coeff_map] at h2
  exact Complex.conj_eq_iff_re.mp h2

theorem rootPoly_eval (z : List ℂ) (x : ℂ) : (rootPoly z).eval x = (z.map (fun r => x - r)).prod := by
  unfold rootPoly
  rw [Polynomial.eval_list_prod, List.map_map]
  congr 1
  refine List.map_congr_left (fun r _ => ?_)
  simp

theorem rootPoly_natDegree (z : List ℂ) : (rootPoly z).natDegree = z.length := by
  unfold rootPoly
  induction z with
  | nil => simp
  | cons a z ih =>
    rw [List.map_cons, List.prod_cons, Polynomial.natDegree_mul (Polynomial.X_sub_C_ne_zero a), ih,
      Polynomial.natDegree_X_sub_C, List.length_cons, add_comm]
    refine List.prod_ne_zero ?_
    intro h0
    obtain ⟨r, -, hr⟩ := List.mem_map.mp h0
    exact Polynomial.X_sub_C_ne_zero r hr

theorem rootPoly_monic (z : List ℂ) : (rootPoly z).Monic := by
  unfold rootPoly
  induction z with
  | nil => simp
  | cons a z ih => rw [List.map_cons, List.prod_cons]; exact (Polynomial.monic_X_sub_C a).mul ih

theorem sortCplx_perm (l : List ℂ) : (sortCplx l).Perm l := List.mergeSort_perm _ _

theorem eq_of_zip_all {l m : List ℂ} (hlen : l.length = m.length)
    (h : ∀ q ∈ l.zip m, q.1 = q.2) : l = m := by
  induction l generalizing m with
  | nil => cases m with
    | nil => rfl
    | cons b m => simp at hlen
  | cons a l ih => cases m with
    | nil => simp at hlen
    | cons b m =>
      simp only [List.zip_cons_cons, List.mem_cons, forall_eq_or_imp] at h
      rw [h.1, ih (by simpa using hlen) h.2]

theorem conjClosed_of_all {z : List ℂ}
    (h : ((sortCplx z).zip (sortCplx (z.map (starRingEnd ℂ)))).all
      (fun q => @decide (q.1 = q.2) (Classical.propDecidable _)) = true) : ConjClosed z := by
  have h1 : sortCplx z = sortCplx (z.map (starRingEnd ℂ)) := by
    apply eq_of_zip_all
    · rw [(sortCplx_perm _).length_eq, (sortCplx_perm _).length_eq, List.length_map]
    · rw [List.all_eq_true] at h
      intro q hq
      have := h q hq
      exact of_decide_eq_true this
  have h2 := sortCplx_perm (z.map (starRingEnd ℂ))
  rw [← h1] at h2
  exact h2.symm.trans (sortCplx_perm z)

theorem poly_ok (z : List ℂ) : ∃ c, poly z = .ok c ∧ IsCoeffList c z.length (rootPoly z) := by
  have h1 : IsCoeffList [1] 0 (1 : Polynomial ℂ) := by
    refine ⟨rfl, by simp, fun i hi => ?_⟩
    have : i = 0 := by omega
    subst this; simp
  obtain ⟨c, hc, hc'⟩ := polyFold_coeff z h1
  rw [one_mul, zero_add] at hc'
  refine ⟨c, ?_, hc'⟩
  unfold poly
  rw [hc]
  simp only [ok_bind]
  split
  · rename_i hall
    have hcl : ConjClosed z := conjClosed_of_all (by convert hall)
    change Except.ok _ = Except.ok _
    congr 1
    conv_rhs => rw [← List.map_id c]
    refine List.map_congr_left (fun x hx => ?_)
    obtain ⟨i, hi, rfl⟩ := List.mem_iff_getElem.mp hx
    have h3 := hc'.2.2 i (by have := hc'.1; omega)
    rw [List.getElem?_eq_getElem hi, Option.some.injEq] at h3
    rw [h3]
    exact rootPoly_real hcl _
  · rfl

theorem poly2ba_re (x y : List ℂ) : (poly2ba x y).map Complex.re = x.map Complex.re := by
  unfold poly2ba
  dsimp only
  split
  · split
    · rw [List.map_map]; rfl
    · rfl
  · rfl

theorem fillReal_poly2ba (order : ℕ) (x y : List ℂ) : fillReal order (poly2ba x y) = fillReal order x := by
  unfold fillReal
  have h := poly2ba_re x y
  have hl : (poly2ba x y).length = x.length := by
    have := congrArg List.length h; simpa using this
  rw [hl, List.map_take, List.map_take, h]

theorem fillReal_length (order : ℕ) (v : List ℂ) : (fillReal order v).length = order + 1 := by
  unfold fillReal
  simp
  omega

theorem fillReal_getD (order : ℕ) (v : List ℂ) (i : ℕ) (hi : i ≤ order) :
    (fillReal order v).getD i 0 = (v.getD i 0).re := by
  unfold fillReal
  by_cases h : i < v.length
  · rw [List.getD_append _ _ _ _ (by simp; omega), List.getD_eq_getElem _ _ (by simp; omega),
      List.getD_eq_getElem _ _ h]
    simp
  · rw [List.getD_append_right _ _ _ _ (by simp; omega), List.getD_eq_default v 0 (by omega)]
    rw [List.getD_eq_getElem?_getD, List.getElem?_replicate]
    split <;> simp

theorem coeffVal_fill {c : List ℂ} {n order : ℕ} {P : Polynomial ℂ} (h : IsCoeffList c n P) (ho : n ≤ order)
    (k : ℝ) (hr : ∀ j, (((P.coeff j).re : ℝ) : ℂ) = P.coeff j) (x : ℂ) :
    coeffVal (fillReal order (c.map (fun bi => (k : ℂ) * bi))) x = k * P.eval x * x ^ (order - n) := by
  unfold coeffVal
  rw [fillReal_length, Nat.add_sub_cancel]
  have hg : ∀ i ∈ Finset.range (order + 1),
      (((fillReal order (c.map (fun bi => (k : ℂ) * bi))).getD i 0 : ℝ) : ℂ) * x ^ (order - i) =
      if i ∈ Finset.range (n + 1) then (k * P.coeff (n - i) * x ^ (n - i)) * x ^ (order - n) else 0 := by
    intro i hi
    have hi' := Finset.mem_range.mp hi
    rw [fillReal_getD _ _ _ (by omega)]
    by_cases h1 : i ≤ n
    · rw [if_pos (Finset.mem_range.mpr (by omega)),
        List.getD_eq_getElem _ _ (by rw [List.length_map, h.1]; omega), List.getElem_map]
      have h3 := h.2.2 i h1
      rw [List.getElem?_eq_getElem (by rw [h.1]; omega), Option.some.injEq] at h3
      rw [h3, Complex.re_ofReal_mul, Complex.ofReal_mul, hr, mul_assoc (_ * _), ← pow_add]
      congr 2
      omega
    · rw [if_neg (by rw [Finset.mem_range]; omega),
        List.getD_eq_default _ _ (by rw [List.length_map, h.1]; omega)]
      simp
  rw [Finset.sum_congr rfl hg, Finset.sum_ite_mem, Finset.inter_eq_right.mpr
    (Finset.range_subset_range.mpr (by omega)), ← Finset.sum_mul]
  congr 1
  rw [Polynomial.eval_eq_sum_range' (show P.natDegree < n + 1 by have := h.2.1; omega), Finset.mul_sum,
    ← Finset.sum_range_reflect]
  refine Finset.sum_congr rfl (fun j hj => ?_)
  have := Finset.mem_range.mp hj
  rw [show n - (n + 1 - 1 - j) = j by omega]
  ring

end SciRs.Design

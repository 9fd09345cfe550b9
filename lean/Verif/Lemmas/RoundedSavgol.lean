import Verif.Lemmas.Savgol
import Verif.Lemmas.RoundedStats

/-! Helper lemmas: Savitzky-Golay filtering in floating point. -/

namespace SciRs.Savgol

open SciRs.Spec SciRs.Stats SciRs.Rounded

variable {r : Rounding}

theorem padNearest_map {A B : Type} [Zero A] [Zero B] (f : A → B) (hf0 : f 0 = 0) (w : ℕ) (y0 : A)
    (ys : List A) : (padNearest w y0 ys).map f = padNearest w (f y0) (ys.map f) := by
  unfold padNearest
  have e : f ((List.replicate (w / 2 + 1) y0 ++ ys).getLastD 0)
      = (List.replicate (w / 2 + 1) (f y0) ++ ys.map f).getLastD 0 := by
    rw [← List.map_replicate, ← List.map_append, List.getLastD_eq_getLast?, List.getLastD_eq_getLast?,
      List.getLast?_map]
    cases (List.replicate (w / 2 + 1) y0 ++ ys).getLast? <;> simp [hf0]
  simp only [List.map_append, List.map_replicate, e]

theorem getD_map_zero {A B : Type} [Zero A] [Zero B] (f : A → B) (hf0 : f 0 = 0) (l : List A) (j : ℕ) :
    (l.map f).getD j 0 = f (l.getD j 0) := by
  rw [List.getD_eq_getElem?_getD, List.getD_eq_getElem?_getD, List.getElem?_map]
  cases l[j]? <;> simp [hf0]

theorem extendNearest_abs (y : List ℝ) (k : ℤ) :
    extendNearest (y.map (fun v => |v|)) k = |extendNearest y k| := by
  unfold extendNearest
  rw [List.length_map, getD_map_zero _ abs_zero]
  split_ifs
  · cases y <;> simp
  · rfl
  · rw [List.getLastD_eq_getLast?, List.getLastD_eq_getLast?, List.getLast?_map]
    cases y.getLast? <;> simp

theorem dot_err (a b : List (Fl r)) (n : ℕ) (ha : a.length = n) (hb : b.length = n) :
    |(dot a b).val - dot (a.map Fl.val) (b.map Fl.val)|
      ≤ ((1 + r.u) ^ (n + 1) - 1) * dot (a.map (fun v => |v.val|)) (b.map (fun v => |v.val|))
        + 2 * (n * r.t) * (1 + r.u) ^ n := by
  have hu := r.u_nonneg
  have ht := r.t_nonneg
  have hl : ((a.zip b).map (fun p : Fl r × Fl r => p.1 * p.2)).length = n := by simp [ha, hb]
  have h1 := foldl_err ((a.zip b).map (fun p : Fl r × Fl r => p.1 * p.2)) 0
  rw [hl] at h1
  simp only [Fl.val_zero, zero_add, abs_zero] at h1
  have e1 : dot (a.map Fl.val) (b.map Fl.val) = ((a.zip b).map (fun p : Fl r × Fl r => p.1.val * p.2.val)).sum := by
    unfold dot
    rw [sumIter_eq_sum, List.zip_map, List.map_map]
    rfl
  have e2 : dot (a.map (fun v => |v.val|)) (b.map (fun v => |v.val|))
      = ((a.zip b).map (fun p : Fl r × Fl r => |p.1.val * p.2.val|)).sum := by
    unfold dot
    rw [sumIter_eq_sum, List.zip_map, List.map_map]
    congr 1
    refine List.map_congr_left (fun p _ => ?_)
    simp [abs_mul]
  rw [e1, e2, show (dot a b).val = (((a.zip b).map (fun p : Fl r × Fl r => p.1 * p.2)).foldl (· + ·) 0).val from rfl]
  have hzl : (a.zip b).length = n := by simp [ha, hb]
  have key : ∀ l : List (Fl r × Fl r),
      |(vals (l.map (fun p : Fl r × Fl r => p.1 * p.2))).sum - (l.map (fun p : Fl r × Fl r => p.1.val * p.2.val)).sum|
        ≤ r.u * (l.map (fun p : Fl r × Fl r => |p.1.val * p.2.val|)).sum + l.length * r.t ∧
      absSum (vals (l.map (fun p : Fl r × Fl r => p.1 * p.2)))
        ≤ (1 + r.u) * (l.map (fun p : Fl r × Fl r => |p.1.val * p.2.val|)).sum + l.length * r.t := by
    intro l
    induction l with
    | nil => simp [vals, absSum]
    | cons p l ih =>
      obtain ⟨i1, i2⟩ := ih
      have g1 := r.err (p.1.val * p.2.val)
      have g2 := r.abs_le (p.1.val * p.2.val)
      simp only [vals, absSum, List.map_cons, List.sum_cons, List.length_cons, List.map_map,
        Fl.val_mul] at i1 i2 ⊢
      push_cast
      constructor
      · refine le_trans ?_ (le_trans (add_le_add g1 i1) (by linarith))
        refine le_trans (le_of_eq ?_) (abs_add_le _ _)
        congr 1; ring
      · linarith
  obtain ⟨k1, k2⟩ := key (a.zip b)
  rw [hzl] at k1 k2
  have hp := r.one_le_pow n
  generalize ((a.zip b).map (fun p : Fl r × Fl r => |p.1.val * p.2.val|)).sum = S at *
  generalize ((a.zip b).map (fun p : Fl r × Fl r => p.1.val * p.2.val)).sum = T at *
  generalize (((a.zip b).map (fun p : Fl r × Fl r => p.1 * p.2)).foldl (· + ·) (0 : Fl r)).val = V at *
  generalize (vals ((a.zip b).map (fun p : Fl r × Fl r => p.1 * p.2))).sum = W at *
  generalize absSum (vals ((a.zip b).map (fun p : Fl r × Fl r => p.1 * p.2))) = A at *
  rw [pow_succ]
  generalize (1 + r.u) ^ n = g at *
  have h2 : (g - 1) * A ≤ (g - 1) * ((1 + r.u) * S + n * r.t) :=
    mul_le_mul_of_nonneg_left k2 (by linarith)
  have h3 : |V - T| ≤ |V - W| + |W - T| := by
    refine le_trans (le_of_eq ?_) (abs_add_le _ _)
    congr 1; ring
  nlinarith [h1, h2, h3, k1]

/-- The rounded output of the filter, against the weighted sum of the extended signal. -/
theorem windows_dot_err (h : ℕ) (y0 : Fl r) (ys fir : List (Fl r)) (hf : fir.length = 2 * h + 1)
    (i : ℕ) (hi : i < (y0 :: ys).length) :
    |(((windows (2 * h + 1) (padNearest (2 * h + 1) y0 ys)).map (fun w => dot w fir.reverse)).getD i 0).val
        - ∑ j ∈ Finset.range (2 * h + 1),
          (fir.getD j 0).val * extendNearest ((y0 :: ys).map Fl.val) ((i : ℤ) + h - j)|
      ≤ ((1 + r.u) ^ (2 * h + 2) - 1) * (∑ j ∈ Finset.range (2 * h + 1),
          |(fir.getD j 0).val| * |extendNearest ((y0 :: ys).map Fl.val) ((i : ℤ) + h - j)|)
        + 2 * ((2 * h + 1 : ℕ) * r.t) * (1 + r.u) ^ (2 * h + 1) := by
  have hpl := padNearest_length h y0 ys
  have hl := windows_dot_length h y0 ys fir
  have hwl : ((((padNearest (2 * h + 1) y0 ys).drop i).take (2 * h + 1))).length = 2 * h + 1 := by
    simp only [List.length_take, List.length_drop, hpl]; omega
  have hd := dot_err _ fir.reverse (2 * h + 1) hwl (by simpa using hf)
  have e0 : ((windows (2 * h + 1) (padNearest (2 * h + 1) y0 ys)).map (fun w => dot w fir.reverse)).getD i 0
      = dot (((padNearest (2 * h + 1) y0 ys).drop i).take (2 * h + 1)) fir.reverse := by
    rw [List.getD_eq_getElem _ _ (by rw [hl]; exact hi)]
    simp [windows]
  have e1 : ∀ f : Fl r → ℝ, f 0 = 0 →
      dot ((((padNearest (2 * h + 1) y0 ys).drop i).take (2 * h + 1)).map f) (fir.reverse.map f)
      = ∑ j ∈ Finset.range (2 * h + 1),
          f (fir.getD j 0) * extendNearest ((y0 :: ys).map f) ((i : ℤ) + h - j) := by
    intro f hf0
    have h2 := (windows_dot h (f y0) (ys.map f) (fir.map f) (by simpa using hf)).2 i
      (by simpa using hi)
    rw [List.getD_eq_getElem _ _ (by rw [windows_dot_length]; simpa using hi)] at h2
    simp only [windows, List.map_map, List.getElem_map, List.getElem_range, Function.comp,
      getD_map_zero f hf0] at h2
    rw [List.map_cons, ← h2, ← padNearest_map f hf0, List.map_reverse, List.map_take, List.map_drop]
  rw [e1 Fl.val rfl, e1 (fun v => |v.val|) (by simp)] at hd
  rw [e0]
  have e3 : (y0 :: ys).map (fun v : Fl r => |v.val|) = ((y0 :: ys).map Fl.val).map (fun v => |v|) := by
    rw [List.map_map]; rfl
  rw [e3] at hd
  simpa only [extendNearest_abs] using hd

end SciRs.Savgol

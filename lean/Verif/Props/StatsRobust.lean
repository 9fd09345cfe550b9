import Verif.Props.Median
import Verif.Props.Moments

/-!
# C106: the median and the median absolute deviation resist outliers and small errors
-/

namespace SciRs.Props

open SciRs SciRs.Spec SciRs.Stats

section counts
variable {T : Type} [LinearOrder T]

theorem countP_ge_le (s : List T) (hs : s.Pairwise (· ≤ ·)) (lo : T) (i : ℕ) (hi : i < s.length)
    (h : s[i] < lo) : s.countP (fun v => lo ≤ v) + (i + 1) ≤ s.length := by
  have e : s.countP (fun v => lo ≤ v) = (s.take (i + 1)).countP (fun v => lo ≤ v) +
      (s.drop (i + 1)).countP (fun v => lo ≤ v) := by
    rw [← List.countP_append, List.take_append_drop]
  have h0 : (s.take (i + 1)).countP (fun v => lo ≤ v) = 0 := by
    rw [List.countP_eq_zero]
    intro a ha
    obtain ⟨j, hj, rfl⟩ := List.mem_iff_getElem.mp ha
    rw [List.getElem_take]
    rw [List.length_take] at hj
    have hji : s[j]'(by omega) ≤ s[i] := by
      rcases Nat.lt_or_ge j i with hlt | hge
      · exact List.pairwise_iff_getElem.mp hs j i (by omega) hi hlt
      · have : j = i := by omega
        subst this; exact le_rfl
    simpa using lt_of_le_of_lt hji h
  have h1 := List.countP_le_length (p := fun v => decide (lo ≤ v)) (l := s.drop (i + 1))
  rw [List.length_drop] at h1
  omega

theorem countP_le_le (s : List T) (hs : s.Pairwise (· ≤ ·)) (hi : T) (i : ℕ) (h' : i < s.length)
    (h : hi < s[i]) : s.countP (fun v => v ≤ hi) ≤ i := by
  have e : s.countP (fun v => v ≤ hi) = (s.take i).countP (fun v => v ≤ hi) +
      (s.drop i).countP (fun v => v ≤ hi) := by
    rw [← List.countP_append, List.take_append_drop]
  have h0 : (s.drop i).countP (fun v => v ≤ hi) = 0 := by
    rw [List.countP_eq_zero]
    intro a ha
    obtain ⟨j, hj, rfl⟩ := List.mem_iff_getElem.mp ha
    rw [List.getElem_drop]
    rw [List.length_drop] at hj
    have hji : s[i] ≤ s[i + j] := by
      rcases Nat.eq_zero_or_pos j with rfl | hp
      · exact le_rfl
      · exact List.pairwise_iff_getElem.mp hs i (i + j) h' (by omega) (by omega)
    simpa using lt_of_lt_of_le h hji
  have h1 := List.countP_le_length (p := fun v => decide (v ≤ hi)) (l := s.take i)
  rw [List.length_take] at h1
  omega

/-- If two lists correspond entry by entry and each entry of the second is at least that of the first, the
same holds of their ascending arrangements. -/
theorem sorts_mono (y y' s s' : List T) (h : List.Forall₂ (· ≤ ·) y y') (hs : Sorts s y)
    (hs' : Sorts s' y') (i : ℕ) (h1 : i < s.length) (h2 : i < s'.length) : s[i] ≤ s'[i] := by
  by_contra hlt
  push Not at hlt
  have a := countP_ge_le s' hs'.2 s[i] i h2 hlt
  have b : s.countP (fun v => s[i] ≤ v) + i ≥ s.length := by
    have e : s.countP (fun v => s[i] ≤ v) = (s.take i).countP (fun v => s[i] ≤ v) +
        (s.drop i).countP (fun v => s[i] ≤ v) := by
      rw [← List.countP_append, List.take_append_drop]
    have h0 : (s.drop i).countP (fun v => s[i] ≤ v) = (s.drop i).length := by
      rw [List.countP_eq_length]
      intro a ha
      obtain ⟨j, hj, rfl⟩ := List.mem_iff_getElem.mp ha
      rw [List.getElem_drop]
      rw [List.length_drop] at hj
      rcases Nat.eq_zero_or_pos j with rfl | hp
      · simp
      · simpa using List.pairwise_iff_getElem.mp hs.2 i (i + j) h1 (by omega) (by omega)
    rw [List.length_drop] at h0
    omega
  have c : ∀ x : T, ∀ y y' : List T, List.Forall₂ (· ≤ ·) y y' →
      y.countP (fun v => x ≤ v) ≤ y'.countP (fun v => x ≤ v) := by
    intro x y y' h
    induction h with
    | nil => simp
    | @cons u v l l' huv _ ih =>
      rw [List.countP_cons, List.countP_cons]
      by_cases hx : x ≤ u
      · have := hx.trans huv
        simp [hx, this]; exact ih
      · simp only [hx, decide_false]
        exact le_trans ih (Nat.le_add_right _ _)
  have c' := c s[i] y y' h
  rw [← hs.1.countP_eq, ← hs'.1.countP_eq] at c'
  have hl : s.length = s'.length := by
    rw [hs.1.length_eq, hs'.1.length_eq, h.length_eq]
  omega

end counts

section robust
variable {T : Type} [Field T] [LinearOrder T] [IsStrictOrderedRing T]

theorem middle_between (s : List T) (lo hi : T)
    (h1 : lo ≤ s.getD (s.length / 2) 0 ∧ s.getD (s.length / 2) 0 ≤ hi)
    (h2 : s.length % 2 = 0 → lo ≤ s.getD (s.length / 2 - 1) 0 ∧ s.getD (s.length / 2 - 1) 0 ≤ hi) :
    lo ≤ middle s ∧ middle s ≤ hi := by
  unfold middle
  by_cases h : s.length % 2 = 1
  · rw [if_pos h]; exact h1
  · rw [if_neg h]
    obtain ⟨a, b⟩ := h2 (by omega)
    obtain ⟨c, d⟩ := h1
    constructor
    · rw [le_div_iff₀ (by norm_num)]; linarith
    · rw [div_le_iff₀ (by norm_num)]; linarith

/-- **C106** If more than half of the samples lie in an interval, `median` returns a value of that interval,
whatever the other samples are. -/
theorem C106_median_breakdown (y : List T) (lo hi : T)
    (h : y.length < 2 * y.countP (fun v => lo ≤ v ∧ v ≤ hi)) :
    ∃ m, RunReturns (median y) (m, y.length) ∧ lo ≤ m ∧ m ≤ hi := by
  have hne : y ≠ [] := by rintro rfl; simp at h
  obtain ⟨s, hs⟩ := exists_sorts y
  refine ⟨middle s, C01_median y s hs hne, ?_⟩
  have hl := hs.1.length_eq
  have hpos : 0 < s.length := by rw [hl]; exact List.length_pos_iff.mpr hne
  rw [← hs.1.countP_eq] at h
  have hA : s.countP (fun v => lo ≤ v ∧ v ≤ hi) ≤ s.countP (fun v => lo ≤ v) :=
    List.countP_mono_left (fun x _ hx => by simp at hx ⊢; exact hx.1)
  have hB : s.countP (fun v => lo ≤ v ∧ v ≤ hi) ≤ s.countP (fun v => v ≤ hi) :=
    List.countP_mono_left (fun x _ hx => by simp at hx ⊢; exact hx.2)
  have key : ∀ i, (hi' : i < s.length) → (i = s.length / 2 ∨ (s.length % 2 = 0 ∧ i = s.length / 2 - 1)) →
      lo ≤ s.getD i 0 ∧ s.getD i 0 ≤ hi := by
    intro i hi' hcase
    rw [List.getD_eq_getElem _ _ hi']
    constructor
    · by_contra hlt
      push Not at hlt
      have := countP_ge_le s hs.2 lo i hi' hlt
      omega
    · by_contra hlt
      push Not at hlt
      have := countP_le_le s hs.2 hi i hi' hlt
      omega
  exact middle_between s lo hi (key _ (by omega) (Or.inl rfl))
    (fun h0 => key _ (by omega) (Or.inr ⟨h0, rfl⟩))

/-- **C106** If more than half of the samples lie in an interval, `median_abs_deviation` returns at most the
width of that interval, whatever the other samples are. -/
theorem C106_mad_breakdown (y : List T) (lo hi : T)
    (h : y.length < 2 * y.countP (fun v => lo ≤ v ∧ v ≤ hi)) :
    ∃ r, RunReturns (medianAbsDeviation (fun v => |v|) y) (r, y.length) ∧ 0 ≤ r ∧ r ≤ hi - lo := by
  have hne : y ≠ [] := by rintro rfl; simp at h
  obtain ⟨m, hm, h1, h2⟩ := C106_median_breakdown y lo hi h
  have hmed := ((returns_iff_isMedianOf y hne m _).mp hm).1
  obtain ⟨r, hr, h3, h4⟩ := C106_median_breakdown (y.map (fun v => |v - m|)) 0 (hi - lo) (by
    rw [List.length_map, List.countP_map]
    refine lt_of_lt_of_le h (Nat.mul_le_mul_left 2 (List.countP_mono_left (fun x _ hx => ?_)))
    simp only [Function.comp, decide_eq_true_eq] at hx ⊢
    refine ⟨abs_nonneg _, abs_le.mpr ⟨by linarith, by linarith⟩⟩)
  exact ⟨r, C09_mad y hne m r hmed ((returns_iff_isMedianOf _ (by simpa using hne) r _).mp hr).1,
    h3, h4⟩

/-- Two of five samples are arbitrarily wrong: the hypothesis of the two theorems holds for every `p`, `q`. -/
example (p q : ℚ) : ∃ m, RunReturns (median [p, 1, 2, q, 3]) (m, 5) ∧ 1 ≤ m ∧ m ≤ 3 :=
  C106_median_breakdown [p, 1, 2, q, 3] 1 3 (by
    have : (3 : ℕ) ≤ [p, 1, 2, q, 3].countP (fun v => decide (1 ≤ v ∧ v ≤ 3)) := by
      simp only [List.countP_cons, List.countP_nil]
      norm_num
      split_ifs <;> omega
    simp only [List.length_cons, List.length_nil]
    omega)

/-- **C106** Half of the samples is not enough: with half of them equal to `0` and the other half replaced,
`median` returns any prescribed value. -/
theorem C106_breakdown_tight (k : ℕ) (hk : 0 < k) (v : T) :
    RunReturns (median (List.replicate k 0 ++ List.replicate k (2 * v))) (v, 2 * k) := by
  have hl : (List.replicate k (0 : T) ++ List.replicate k (2 * v)).length = 2 * k := by
    simp; omega
  have hne : List.replicate k (0 : T) ++ List.replicate k (2 * v) ≠ [] := by
    intro h0; rw [h0] at hl; simp at hl; omega
  have g : ∀ a b : T, middle (List.replicate k a ++ List.replicate k b) = (a + b) / 2 := by
    intro a b
    have hl' : (List.replicate k a ++ List.replicate k b).length = 2 * k := by simp; omega
    unfold middle
    rw [hl', if_neg (by omega), List.getD_eq_getElem _ _ (by rw [hl']; omega),
      List.getD_eq_getElem _ _ (by rw [hl']; omega), List.getElem_append_left (by simp; omega),
      List.getElem_append_right (by simp)]
    simp
  rw [← hl]
  have srt : ∀ a b : T, a ≤ b → (List.replicate k a ++ List.replicate k b).Pairwise (· ≤ ·) := by
    intro a b hab
    rw [List.pairwise_append]
    refine ⟨List.pairwise_replicate.mpr (Or.inr le_rfl), List.pairwise_replicate.mpr (Or.inr le_rfl), ?_⟩
    intro x hx z hz
    rw [List.eq_of_mem_replicate hx, List.eq_of_mem_replicate hz]
    exact hab
  rcases le_total 0 (2 * v) with hv | hv
  · have := C01_median _ _ ⟨List.Perm.refl _, srt 0 (2 * v) hv⟩ hne
    rw [g] at this
    simpa using this
  · have := C01_median _ _ ⟨List.perm_append_comm, srt (2 * v) 0 hv⟩ hne
    rw [g] at this
    simpa using this

/-- **C106** Raising samples cannot lower the median. -/
theorem C106_median_mono (y y' : List T) (hne : y ≠ []) (h : List.Forall₂ (· ≤ ·) y y') (m m' : T)
    (hm : RunReturns (median y) (m, y.length)) (hm' : RunReturns (median y') (m', y'.length)) :
    m ≤ m' := by
  have hne' : y' ≠ [] := by
    rintro rfl
    exact hne (by simpa using h)
  obtain ⟨⟨s, hs, rfl⟩, _⟩ := (returns_iff_isMedianOf y hne m _).mp hm
  obtain ⟨⟨s', hs', rfl⟩, _⟩ := (returns_iff_isMedianOf y' hne' m' _).mp hm'
  have hl : s.length = s'.length := by rw [hs.1.length_eq, hs'.1.length_eq, h.length_eq]
  have hpos : 0 < s.length := by rw [hs.1.length_eq]; exact List.length_pos_iff.mpr hne
  have key : ∀ i, i < s.length → s.getD i 0 ≤ s'.getD i 0 := by
    intro i hi
    rw [List.getD_eq_getElem _ _ hi, List.getD_eq_getElem _ _ (by omega)]
    exact sorts_mono y y' s s' h hs hs' i hi (by omega)
  unfold middle
  rw [← hl]
  have k1 := key (s.length / 2) (by omega)
  have k2 := key (s.length / 2 - 1) (by omega)
  split
  · exact k1
  · rw [div_le_div_iff_of_pos_right (by norm_num)]
    exact add_le_add k2 k1

/-- **C106** If every sample changes by at most `d`, the median changes by at most `d`. -/
theorem C106_median_lipschitz (y y' : List T) (hne : y ≠ []) (d : T)
    (h : List.Forall₂ (fun u v => |u - v| ≤ d) y y') (m m' : T)
    (hm : RunReturns (median y) (m, y.length)) (hm' : RunReturns (median y') (m', y'.length)) :
    |m - m'| ≤ d := by
  have hne' : y' ≠ [] := by
    rintro rfl
    exact hne (by simpa using h)
  have sh : ∀ (z : List T) (hz : z ≠ []) (w : T), RunReturns (median z) (w, z.length) → 
      RunReturns (median (z.map (fun v => 1 * v + d)))
        (1 * w + d, (z.map (fun v => 1 * v + d)).length) := by
    intro z hz w hw
    exact (returns_iff_isMedianOf _ (by simpa using hz) _ _).mpr
      ⟨isMedianOf_affine 1 d w z hz ((returns_iff_isMedianOf z hz w _).mp hw).1, rfl⟩
  have e1 := C106_median_mono y (y'.map (fun v => 1 * v + d)) hne (by
    rw [List.forall₂_map_right_iff]
    exact h.imp (fun {u v} huv => by have := (abs_le.mp huv).2; linarith)) m _ hm (sh y' hne' m' hm')
  have e2 := C106_median_mono y' (y.map (fun v => 1 * v + d)) hne' (by
    rw [List.forall₂_map_right_iff]
    exact h.flip.imp (fun {u v} huv => by
      have := (abs_le.mp huv).1; linarith)) m' _ hm' (sh y hne m hm)
  exact abs_le.mpr ⟨by linarith, by linarith⟩

/-- **C106** If every sample changes by at most `d`, the median absolute deviation changes by at most
`2 d`. -/
theorem C106_mad_lipschitz (y y' : List T) (hne : y ≠ []) (d : T)
    (h : List.Forall₂ (fun u v => |u - v| ≤ d) y y') (r r' : T)
    (hr : RunReturns (medianAbsDeviation (fun v => |v|) y) (r, y.length))
    (hr' : RunReturns (medianAbsDeviation (fun v => |v|) y') (r', y'.length)) :
    |r - r'| ≤ 2 * d := by
  have hne' : y' ≠ [] := by
    rintro rfl
    exact hne (by simpa using h)
  obtain ⟨m, hm, hmr⟩ := (isMad_iff y hne r).mp hr
  obtain ⟨m', hm', hmr'⟩ := (isMad_iff y' hne' r').mp hr'
  have hmm := C106_median_lipschitz y y' hne d h m m'
    ((returns_iff_isMedianOf y hne m _).mpr ⟨hm, rfl⟩)
    ((returns_iff_isMedianOf y' hne' m' _).mpr ⟨hm', rfl⟩)
  refine C106_median_lipschitz (y.map (fun v => |v - m|)) (y'.map (fun v => |v - m'|))
    (by simpa using hne) (2 * d) ?_ r r'
    ((returns_iff_isMedianOf _ (by simpa using hne) r _).mpr ⟨hmr, rfl⟩)
    ((returns_iff_isMedianOf _ (by simpa using hne') r' _).mpr ⟨hmr', rfl⟩)
  rw [List.forall₂_map_left_iff, List.forall₂_map_right_iff]
  refine h.imp (fun {u v} huv => ?_)
  refine (abs_abs_sub_abs_le_abs_sub _ _).trans ?_
  have e : u - m - (v - m') = (u - v) - (m - m') := by ring
  rw [e]
  refine (abs_sub _ _).trans ?_
  linarith

end robust

/-- The hypotheses of the Lipschitz theorems are met. -/
example : List.Forall₂ (fun u v : ℚ => |u - v| ≤ 1) [1, 2, 9] [2, 2, 8] := by
  refine .cons ?_ (.cons ?_ (.cons ?_ .nil)) <;> norm_num

/-- **C106** One sample decides the mean: replacing the first sample gives any prescribed mean. -/
theorem C106_mean_not_robust (y : List ℝ) (m : ℝ) :
    ∃ v, mean (v :: y) = (m, y.length + 1) := by
  refine ⟨m * (y.length + 1) - y.sum, ?_⟩
  rw [mean_eq]
  have : ((y.length : ℝ) + 1) ≠ 0 := by positivity
  simp only [Prod.mk.injEq, List.length_cons, and_true]
  unfold avg
  simp only [List.sum_cons, List.length_cons]
  push_cast
  field_simp
  ring

end SciRs.Props

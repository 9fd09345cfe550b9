import Verif.Model.Design.Cplx
import Verif.Spec.Pairs
import Verif.Lemmas.Design.Zpk
import Mathlib.Analysis.SpecialFunctions.Complex.Arg
import Mathlib.Data.List.Sort
import Mathlib.Data.List.Forall2

/-! # Lemmas about `cplxreal_dyn` -/

namespace SciRs.Design

open Complex SciRs.Spec

theorem csqrt_re_nonneg (w : ℂ) : 0 ≤ (csqrt w).re := by
  unfold csqrt
  by_cases h : w = 0
  · subst h; simp
  · rw [Complex.cpow_def_of_ne_zero h, Complex.exp_re]
    refine mul_nonneg (Real.exp_pos _).le (Real.cos_nonneg_of_mem_Icc ?_)
    have e : (log w * (1 / 2)).im = w.arg / 2 := by
      rw [show (1 / 2 : ℂ) = ((1 / 2 : ℝ) : ℂ) by push_cast; rfl, mul_comm, Complex.im_ofReal_mul,
        Complex.log_im]
      ring
    rw [e]
    have h1 := Complex.neg_pi_lt_arg w
    have h2 := Complex.arg_le_pi w
    constructor <;> linarith

theorem csqrt_mul_self_re (z : ℂ) : (csqrt (z * z)).re = |z.re| := by
  have h := csqrt_sq (z * z)
  rw [← pow_two] at h
  have h0 := csqrt_re_nonneg (z ^ 2)
  rw [← pow_two]
  rcases sq_eq_sq_iff_eq_or_eq_neg.mp h with h1 | h1
  · rw [h1] at h0 ⊢; rw [abs_of_nonneg h0]
  · rw [h1] at h0 ⊢
    rw [neg_re] at h0 ⊢
    rw [abs_of_nonpos (by linarith)]

/-! ### Runs -/

def rises (s : List Bool) (n : ℕ) : List ℕ :=
  (((diffs s).zipIdx n).filter (fun q => decide (q.1 > 0))).map (fun q => q.2)

def falls (s : List Bool) (n : ℕ) : List ℕ :=
  (((diffs s).zipIdx n).filter (fun q => decide (q.1 < 0))).map (fun q => q.2)

theorem rises_falls (s : List Bool) (n : ℕ) (hne : s ≠ []) (hlast : s.getLast hne = false) :
    (s.head hne = false → List.Forall₂ (· < ·) (rises s n) (falls s n)) ∧
    (s.head hne = true → ∃ f fs, falls s n = f :: fs ∧ List.Forall₂ (· < ·) (rises s n) fs ∧ n ≤ f) := by
  induction s generalizing n with
  | nil => exact absurd rfl hne
  | cons b s ih =>
    cases s with
    | nil =>
      simp only [List.getLast_singleton] at hlast
      subst hlast
      simp [rises, falls, diffs]
    | cons c s =>
      have hl : (c :: s).getLast (by simp) = false := by simpa using hlast
      obtain ⟨i1, i2⟩ := ih (n + 1) (by simp) hl
      have hd : ∀ b, diffs (b :: c :: s) = (match (b, c) with
        | (true, true) => 0
        | (true, false) => -1
        | (false, true) => 1
        | (false, false) => 0) :: diffs (c :: s) := fun b => by cases b <;> cases c <;> simp [diffs]
      simp only [List.head_cons] at i1 i2 ⊢
      cases b <;> cases c
      · refine ⟨fun _ => ?_, by simp⟩
        have := i1 rfl
        simpa [rises, falls, hd] using this
      · refine ⟨fun _ => ?_, by simp⟩
        obtain ⟨f, fs, e, h, hf⟩ := i2 rfl
        have e1 : rises (false :: true :: s) n = n :: rises (true :: s) (n + 1) := by simp [rises, hd]
        have e2 : falls (false :: true :: s) n = falls (true :: s) (n + 1) := by simp [falls, hd]
        rw [e1, e2, e]
        exact List.Forall₂.cons (by omega) h
      · refine ⟨by simp, fun _ => ?_⟩
        have h := i1 rfl
        have e1 : rises (true :: false :: s) n = rises (false :: s) (n + 1) := by simp [rises, hd]
        have e2 : falls (true :: false :: s) n = n :: falls (false :: s) (n + 1) := by simp [falls, hd]
        exact ⟨n, _, e2, by rw [e1]; exact h, le_refl _⟩
      · refine ⟨by simp, fun _ => ?_⟩
        obtain ⟨f, fs, e, h, hf⟩ := i2 rfl
        have e1 : rises (true :: true :: s) n = rises (true :: s) (n + 1) := by simp [rises, hd]
        have e2 : falls (true :: true :: s) n = falls (true :: s) (n + 1) := by simp [falls, hd]
        exact ⟨f, fs, by rw [e2, e], by rw [e1]; exact h, by omega⟩

theorem diffs_length (s : List Bool) : (diffs s).length = s.length - 1 := by
  simp [diffs]

theorem indicesOf_lt {f : ℤ → Bool} {d : List ℤ} {i : ℕ} (h : i ∈ indicesOf f d) : i < d.length := by
  unfold indicesOf at h
  obtain ⟨q, hq, rfl⟩ := List.mem_map.mp h
  have := List.mem_filter.mp hq
  have h2 := List.snd_lt_of_mem_zipIdx this.1
  simpa using h2

theorem sameReal_length (tol : ℝ) (zp : List ℂ) (h : zp ≠ []) :
    (sameReal tol zp).length = zp.length + 1 := by
  have := List.length_pos_iff.mpr h
  simp [sameReal]
  omega

/-- The runs found by the code are well formed. -/
theorem runs_ok (tol : ℝ) (zp : List ℂ) (h : zp ≠ []) :
    List.Forall₂ (fun a b : ℕ => a < b ∧ b < zp.length)
      (indicesOf (fun x => decide (x > 0)) (diffs (sameReal tol zp)))
      (indicesOf (fun x => decide (x < 0)) (diffs (sameReal tol zp))) := by
  have hne : sameReal tol zp ≠ [] := by simp [sameReal]
  have h1 := (rises_falls (sameReal tol zp) 0 hne (by simp [sameReal])).1 (by simp [sameReal])
  have h2 : List.Forall₂ (· < ·) (indicesOf (fun x => decide (x > 0)) (diffs (sameReal tol zp)))
      (indicesOf (fun x => decide (x < 0)) (diffs (sameReal tol zp))) := h1
  rw [List.forall₂_iff_zip] at h2 ⊢
  refine ⟨h2.1, fun {a b} hab => ⟨h2.2 hab, ?_⟩⟩
  have hb := indicesOf_lt (List.of_mem_zip hab).2
  rw [diffs_length, sameReal_length tol zp h] at hb
  simpa using hb

/-! ### Sorting a run -/

theorem sortRun_ok {s : Sorts} (hs : s.Correct) (l : List ℂ) (start stop : ℕ) (h1 : start ≤ stop)
    (h2 : stop ≤ l.length) :
    ∃ l', sortRun s (l, l.map (starRingEnd ℂ)) start stop = .ok (l', l'.map (starRingEnd ℂ)) ∧ l'.Perm l := by
  unfold sortRun
  rw [check_true ⟨h1, h2⟩, check_true ⟨h1, by simpa using h2⟩]
  simp only [ok_bind]
  set sl := (l.take stop).drop start with hsl
  have e1 : ((l.map (starRingEnd ℂ)).take stop).drop start = sl.map (starRingEnd ℂ) := by
    rw [← List.map_take, ← List.map_drop]
  rw [e1]
  have hp := hs.pair_perm (sl.zip (sl.map (starRingEnd ℂ)))
  have hz : sl.zip (sl.map (starRingEnd ℂ)) = sl.map (fun x => (x, (starRingEnd ℂ) x)) := by
    rw [List.zip_map_right]
    clear hp e1 hsl
    induction sl with
    | nil => rfl
    | cons a t ih => simp [ih]
  set chunk := s.byPair (sl.zip (sl.map (starRingEnd ℂ))) with hch
  have hmem : ∀ c ∈ chunk, c.2 = (starRingEnd ℂ) c.1 := by
    intro c hc
    rw [hp.mem_iff, hz] at hc
    obtain ⟨x, -, rfl⟩ := List.mem_map.mp hc
    rfl
  have h3 : (chunk.map (fun c => c.1)).Perm sl := by
    have := hp.map (fun c => c.1)
    rw [hz, List.map_map] at this
    have e : ((fun c : ℂ × ℂ => c.1) ∘ fun x => (x, (starRingEnd ℂ) x)) = id := rfl
    rwa [e, List.map_id] at this
  refine ⟨l.take start ++ chunk.map (fun c => c.1) ++ l.drop stop, ?_, ?_⟩
  · change Except.ok _ = Except.ok _
    congr 2
    rw [List.map_append, List.map_append, List.map_take, List.map_drop, List.map_map]
    congr 2
    exact List.map_congr_left hmem
  · have e2 : l = l.take start ++ sl ++ l.drop stop := by
      rw [hsl]
      conv_lhs => rw [← List.take_append_drop stop l]
      congr 1
      conv_lhs => rw [← List.take_append_drop start (l.take stop)]
      rw [List.take_take, Nat.min_eq_left h1]
    conv_rhs => rw [e2]
    exact ((List.Perm.refl _).append h3).append (List.Perm.refl _)

theorem sortRuns_ok {s : Sorts} (hs : s.Correct) (n : ℕ) (qs : List (ℕ × ℕ))
    (hq : ∀ q ∈ qs, q.1 < q.2 ∧ q.2 < n) (l : List ℂ) (hl : l.length = n) :
    ∃ l', qs.foldlM (fun st q => sortRun s st q.1 (q.2 + 1)) (l, l.map (starRingEnd ℂ)) =
      .ok (l', l'.map (starRingEnd ℂ)) ∧ l'.Perm l := by
  induction qs generalizing l with
  | nil => exact ⟨l, rfl, List.Perm.refl _⟩
  | cons q qs ih =>
    have hq0 := hq q (by simp)
    obtain ⟨l1, h1, p1⟩ := sortRun_ok hs l q.1 (q.2 + 1) (by omega) (by omega)
    obtain ⟨l2, h2, p2⟩ := ih (fun q' hq' => hq q' (by simp [hq'])) l1 (by rw [p1.length_eq, hl])
    refine ⟨l2, ?_, p2.trans p1⟩
    rw [List.foldlM_cons, h1]
    exact h2

/-! ### The whole function -/

theorem zKeyLe_antisymm {a b : ℂ} (ha : 0 < a.im) (hb : 0 < b.im) (h1 : zKeyLe a b) (h2 : zKeyLe b a) :
    a = b := by
  unfold zKeyLe at h1 h2
  rw [abs_of_pos ha, abs_of_pos hb] at h1 h2
  apply Complex.ext
  · rcases h1 with h1 | h1 <;> rcases h2 with h2 | h2 <;> linarith
  · rcases h1 with h1 | h1 <;> rcases h2 with h2 | h2 <;> linarith

/-- The upper half of a list of roots. -/
noncomputable def up (z : List ℂ) : List ℂ := z.filter (fun x => decide (0 < x.im))
/-- The lower half of a list of roots. -/
noncomputable def down (z : List ℂ) : List ℂ := z.filter (fun x => decide (x.im < 0))
/-- The real roots of a list. -/
noncomputable def onAxis (z : List ℂ) : List ℂ := z.filter (fun x => decide (x.im = 0))

theorem conj_up {z : List ℂ} (h : ConjClosed z) : (down z).Perm ((up z).map (starRingEnd ℂ)) := by
  have h1 := (h.filter (fun x => decide (x.im < 0))).symm
  unfold up down
  refine h1.trans ?_
  rw [List.filter_map]
  have : ((fun x : ℂ => decide (x.im < 0)) ∘ (starRingEnd ℂ)) = fun x => decide (0 < x.im) := by
    funext x; simp
  rw [this]

theorem split_perm (z : List ℂ) : (up z ++ down z ++ onAxis z).Perm z := by
  unfold up down onAxis
  induction z with
  | nil => simp
  | cons a z ih =>
    rcases lt_trichotomy a.im 0 with h | h | h
    · rw [List.filter_cons_of_neg (by simp; linarith), List.filter_cons_of_pos (by simpa using h),
        List.filter_cons_of_neg (by simp; exact h.ne)]
      refine List.Perm.trans ?_ (List.Perm.cons a ih)
      rw [List.append_assoc, List.append_assoc, List.cons_append]
      exact List.perm_middle
    · rw [List.filter_cons_of_neg (by simp [h]), List.filter_cons_of_neg (by simp [h]),
        List.filter_cons_of_pos (by simpa using h)]
      refine List.Perm.trans ?_ (List.Perm.cons a ih)
      exact List.perm_middle
    · rw [List.filter_cons_of_pos (by simpa using h), List.filter_cons_of_neg (by simp; linarith),
        List.filter_cons_of_neg (by simp; exact h.ne')]
      exact List.Perm.cons a ih

theorem isReal_iff {tol : ℝ} (ht : 0 ≤ tol) {z : List ℂ} (hs : Separated tol z) {x : ℂ} (hx : x ∈ z) :
    |x.im| ≤ tol * (csqrt (x * x)).re ↔ x.im = 0 := by
  rw [csqrt_mul_self_re]
  constructor
  · intro h
    rcases hs x hx with h1 | h1
    · exact h1
    · exact absurd h1 (not_lt.mpr h)
  · intro h
    rw [h, abs_zero]
    exact mul_nonneg ht (abs_nonneg _)

end SciRs.Design

namespace SciRs.Design

open Complex SciRs.Spec

/-- What the first half of `cplxreal_dyn` computes on separated input. -/
theorem cplxreal_parts {s : Sorts} (hs : s.Correct) {tol : ℝ} (ht : 0 ≤ tol) {z : List ℂ}
    (hz : Separated tol z) :
    ((s.byKey z).filter (fun zi => decide (|zi.im| ≤ tol * (csqrt (zi * zi)).re))).Perm (onAxis z) ∧
    (((s.byKey z).filter (fun zi => !decide (|zi.im| ≤ tol * (csqrt (zi * zi)).re))).filter
      (fun zi => decide (zi.im > 0))) = up (s.byKey z) ∧
    (((s.byKey z).filter (fun zi => !decide (|zi.im| ≤ tol * (csqrt (zi * zi)).re))).filter
      (fun zi => decide (zi.im < 0))) = down (s.byKey z) := by
  have hm : ∀ x ∈ s.byKey z, (|x.im| ≤ tol * (csqrt (x * x)).re ↔ x.im = 0) := fun x hx =>
    isReal_iff ht hz ((hs.key_perm z).mem_iff.mp hx)
  refine ⟨?_, ?_, ?_⟩
  · refine List.Perm.trans (List.Perm.of_eq ?_) ((hs.key_perm z).filter _)
    refine List.filter_congr (fun x hx => ?_)
    simp only [hm x hx]
  · rw [List.filter_filter]
    unfold up
    refine List.filter_congr (fun x hx => ?_)
    simp only [hm x hx]
    by_cases h : 0 < x.im
    · simp [h, h.ne']
    · simp [h]
  · rw [List.filter_filter]
    unfold down
    refine List.filter_congr (fun x hx => ?_)
    simp only [hm x hx]
    by_cases h : x.im < 0
    · simp [h, h.ne]
    · simp [h]

theorem up_eq_conj_down {s : Sorts} (hs : s.Correct) {z : List ℂ} (hc : ConjClosed z) :
    down (s.byKey z) = (up (s.byKey z)).map (starRingEnd ℂ) := by
  have hp := hs.key_perm z
  have hc' : ConjClosed (s.byKey z) := (hp.map _).trans (hc.trans hp.symm)
  have h1 := conj_up hc'
  have h2 : ((down (s.byKey z)).map (starRingEnd ℂ)).Perm (up (s.byKey z)) := by
    have := h1.map (starRingEnd ℂ)
    rw [List.map_map] at this
    refine this.trans (List.Perm.of_eq ?_)
    conv_rhs => rw [← List.map_id (up _)]
    refine List.map_congr_left (fun x _ => by simp)
  have hsrt := hs.key_sorted z
  have e : (down (s.byKey z)).map (starRingEnd ℂ) = up (s.byKey z) := by
    refine List.Perm.eq_of_pairwise (le := zKeyLe) ?_ ?_ ?_ h2
    · intro a b ha hb h3 h4
      obtain ⟨x, hx, rfl⟩ := List.mem_map.mp ha
      have hx' := (List.mem_filter.mp hx).2
      have hb' := (List.mem_filter.mp hb).2
      simp only [decide_eq_true_eq] at hx' hb'
      exact zKeyLe_antisymm (by simpa using hx') hb' h3 h4
    · refine List.Pairwise.map (R := zKeyLe) _ (fun a b h => ?_) (hsrt.filter _)
      simpa [zKeyLe] using h
    · exact hsrt.filter _
  rw [← e, List.map_map]
  conv_lhs => rw [← List.map_id (down _)]
  exact List.map_congr_left (fun x _ => by simp)

theorem cplxreal_ok {eps : ℝ} {s : Sorts} (hs : s.Correct) {t : Option ℝ}
    (ht : 0 ≤ t.getD (eps * 100)) {z : List ℂ} (hz : Separated (t.getD (eps * 100)) z)
    (hc : ConjClosed z) :
    ∃ zc zr, cplxreal eps s z t = .ok (zc, zr) ∧ zc.Perm (up z) ∧ zr.Perm (onAxis z) := by
  unfold cplxreal
  by_cases h0 : z = []
  · subst h0
    exact ⟨[], [], by simp; rfl, by simp [up], by simp [onAxis]⟩
  rw [if_neg h0]
  dsimp only
  set tol := t.getD (eps * 100)
  obtain ⟨p1, p2, p3⟩ := cplxreal_parts hs ht hz
  rw [p2, p3]
  set zr := (s.byKey z).filter (fun zi => decide (|zi.im| ≤ tol * (csqrt (zi * zi)).re)) with hzr
  have hup : (up (s.byKey z)).Perm (up z) := (hs.key_perm z).filter _
  have hsp := (split_perm z).length_eq
  have hdl := (conj_up hc).length_eq
  simp only [List.length_append, List.length_map] at hsp hdl
  have hkl := (hs.key_perm z).length_eq
  by_cases h1 : zr.length = (s.byKey z).length
  · rw [if_pos h1]
    refine ⟨[], zr, rfl, ?_, p1⟩
    rw [p1.length_eq] at h1
    have : up z = [] := List.length_eq_zero_iff.mp (by omega)
    rw [this]
  rw [if_neg h1, up_eq_conj_down hs hc, if_neg (by simp)]
  set zp := up (s.byKey z) with hzp
  have hne : zp ≠ [] := by
    intro h
    have h3 := hup.length_eq
    rw [h] at h3
    rw [p1.length_eq] at h1
    simp at h3
    omega
  have hruns := runs_ok tol zp hne
  rw [check_true hruns.length_eq, ok_bind]
  obtain ⟨l', e, hl'⟩ := sortRuns_ok hs zp.length _
    (fun q hq' => (List.forall₂_iff_zip.mp hruns).2 (show (q.1, q.2) ∈ _ from hq')) zp rfl
  rw [e, ok_bind]
  dsimp only
  have hzip : l'.zip (l'.map (starRingEnd ℂ)) = l'.map (fun x => (x, (starRingEnd ℂ) x)) := by
    rw [List.zip_map_right]
    clear hl' e
    induction l' with
    | nil => rfl
    | cons a t ih => simp [ih]
  rw [hzip, if_neg, List.map_map]
  · refine ⟨l', zr, ?_, hl'.trans hup, p1⟩
    have : ((fun q : ℂ × ℂ => (q.1 + (starRingEnd ℂ) q.2) / 2) ∘ fun x => (x, (starRingEnd ℂ) x)) = id := by
      funext x; simp
    rw [this, List.map_id]; rfl
  · simp only [List.any_map, Bool.not_eq_true, List.any_eq_false]
    intro x _
    simp only [Function.comp, Complex.conj_conj, sub_self, norm_zero, decide_eq_false_iff_not, not_lt, gt_iff_lt]
    exact mul_nonneg ht (norm_nonneg _)

theorem exists_sorts : ∃ s : Sorts, s.Correct := by
  classical
  refine ⟨⟨fun l => l.mergeSort (fun a b => decide (zKeyLe a b)),
    fun l => l.mergeSort (fun a b => decide (pairKeyLe a b))⟩, ⟨fun l => List.mergeSort_perm _ _, ?_,
    fun l => List.mergeSort_perm _ _, ?_⟩⟩
  · intro l
    have := List.pairwise_mergeSort (le := fun a b => decide (zKeyLe a b)) ?_ ?_ l
    · simpa using this
    · intro a b c
      simp only [decide_eq_true_eq]; unfold zKeyLe
      rintro (h1 | ⟨h1, h1'⟩) (h2 | ⟨h2, h2'⟩)
      · left; linarith
      · left; linarith
      · left; linarith
      · right; exact ⟨by linarith, by linarith⟩
    · intro a b
      simp only [Bool.or_eq_true, decide_eq_true_eq]; unfold zKeyLe
      rcases lt_trichotomy a.re b.re with h | h | h
      · left; left; exact h
      · rcases le_total |a.im| |b.im| with h' | h'
        · left; right; exact ⟨h, h'⟩
        · right; right; exact ⟨h.symm, h'⟩
      · right; left; exact h
  · intro l
    have := List.pairwise_mergeSort (le := fun a b => decide (pairKeyLe a b)) ?_ ?_ l
    · simpa using this
    · intro a b c
      simp only [decide_eq_true_eq]; unfold pairKeyLe
      rintro (h1 | ⟨h1, h1'⟩) (h2 | ⟨h2, h2'⟩)
      · left; linarith
      · left; linarith
      · left; linarith
      · right; exact ⟨by linarith, by linarith⟩
    · intro a b
      simp only [Bool.or_eq_true, decide_eq_true_eq]; unfold pairKeyLe
      rcases lt_trichotomy |a.2.im| |b.2.im| with h | h | h
      · left; left; exact h
      · rcases le_total a.1.im b.1.im with h' | h'
        · left; right; exact ⟨h, h'⟩
        · right; right; exact ⟨h.symm, h'⟩
      · right; left; exact h

end SciRs.Design

import Verif.Lemmas.Design.Formats
import Verif.Props.Design.Iirfilter

/-! # Lemmas: roots that are complex but within the tolerance of the real axis -/

namespace SciRs.Design

open Complex SciRs.Spec

/-! ### No undefined behaviour in `zpk2sos_dyn` -/

theorem noUb_expect {α : Type} (o : Option α) : NoUb (expect o) := by
  cases o <;> simp [NoUb, expect]

theorem noUb_removeAt (l : List ℂ) (i : ℕ) : NoUb (removeAt l i) := by
  unfold removeAt
  cases l[i]? <;> simp [NoUb]

theorem noUb_single (z p : List ℂ) (k : ℝ) : NoUb (single z p k) := by
  unfold single
  obtain ⟨t, ht⟩ := Props.zpk2tf_returns 2 ⟨z, p, k⟩
  dsimp only at ht
  rw [ht, ok_bind]
  split
  · exact noUb_ok _
  · simp [NoUb]

theorem noUb_pure {α : Type} (a : α) : NoUb (pure a : Res α) := noUb_ok a

theorem noUb_stepLastReal (pairing : Pairing) (st : PairState) (p1 : ℂ) : NoUb (stepLastReal pairing st p1) := by
  unfold stepLastReal
  split
  · exact (noUb_expect _).bind fun _ _ => (noUb_removeAt _ _).bind fun _ _ => (noUb_single _ _ _).bind fun _ _ =>
      noUb_pure _
  · split
    · exact (noUb_expect _).bind fun _ _ => (noUb_removeAt _ _).bind fun _ _ => (noUb_single _ _ _).bind fun _ _ =>
        noUb_pure _
    · exact (noUb_single _ _ _).bind fun _ _ => noUb_pure _

theorem noUb_stepComplex (st : PairState) (p1 : ℂ) : NoUb (stepComplex st p1) :=
  (noUb_expect _).bind fun _ _ => (noUb_removeAt _ _).bind fun _ _ => (noUb_single _ _ _).bind fun _ _ => noUb_pure _

theorem noUb_secondPole (analog : Bool) (p : List ℂ) (p1 : ℂ) : NoUb (secondPole analog p p1) := by
  unfold secondPole
  split
  · refine (noUb_expect _).bind fun j _ => ?_
    have h : ∀ (l : List (ℂ × ℕ)) i, NoUb (idx l i) := by
      intro l i
      unfold idx
      cases l[i]? <;> simp [NoUb]
    exact (h _ _).bind fun _ _ => noUb_removeAt _ _
  · exact noUb_pure _

theorem noUb_stepZeros (st : PairState) (p1 p2 : ℂ) : NoUb (stepZeros st p1 p2) := by
  unfold stepZeros
  split
  · refine (noUb_expect _).bind fun _ _ => (noUb_removeAt _ _).bind fun q _ => ?_
    split
    · exact (noUb_single _ _ _).bind fun _ _ => noUb_pure _
    · split
      · exact (noUb_expect _).bind fun _ _ => (noUb_removeAt _ _).bind fun _ _ => (noUb_check (by simp)).bind fun _ _ =>
          (noUb_single _ _ _).bind fun _ _ => noUb_pure _
      · exact (noUb_single _ _ _).bind fun _ _ => noUb_pure _
  · exact (noUb_single _ _ _).bind fun _ _ => noUb_pure _

theorem noUb_pairStep (pairing : Pairing) (analog : Bool) (st : PairState) : NoUb (pairStep pairing analog st) := by
  unfold pairStep
  refine (noUb_expect _).bind fun _ _ => (noUb_removeAt _ _).bind fun q _ => ?_
  dsimp only
  split
  · exact noUb_stepLastReal _ _ _
  · split
    · exact noUb_stepComplex _ _
    · exact (noUb_secondPole _ _ _).bind fun _ _ => noUb_stepZeros _ _ _

theorem noUb_foldlM {α β : Type} (f : β → α → Res β) (h : ∀ b a, NoUb (f b a)) (l : List α) (b : β) :
    NoUb (l.foldlM f b) := by
  induction l generalizing b with
  | nil => exact noUb_pure _
  | cons a l ih =>
    rw [List.foldlM_cons]
    exact (h _ _).bind fun _ _ => ih _

theorem noUb_cplxreal (eps : ℝ) (s : Sorts) (z : List ℂ) (t : Option ℝ) : NoUb (cplxreal eps s z t) := by
  unfold cplxreal
  split
  · exact noUb_pure _
  · dsimp only
    split
    · exact noUb_pure _
    · split
      · simp [NoUb]
      · refine (noUb_check (by simp)).bind fun _ _ => (noUb_foldlM _ (fun st q => ?_) _ _).bind fun st _ => ?_
        · exact (noUb_check (by simp)).bind fun _ _ => (noUb_check (by simp)).bind fun _ _ => noUb_pure _
        · split
          · simp [NoUb]
          · exact noUb_pure _

theorem noUb_pairUp (eps : ℝ) (s : Sorts) (pairing : Pairing) (analog : Bool) (z p : List ℂ) (k : ℝ) (n : ℕ) :
    NoUb (pairUp eps s pairing analog z p k n) := by
  unfold pairUp
  refine (noUb_cplxreal _ _ _ _).bind fun _ _ => (noUb_cplxreal _ _ _ _).bind fun _ _ =>
    (noUb_foldlM _ (fun _ _ => noUb_pairStep _ _ _) _ _).bind fun st _ => (noUb_check (by simp)).bind fun _ _ =>
    (noUb_check (by simp)).bind fun _ _ => ?_
  split
  · simp [NoUb]
  · exact noUb_pure _

theorem noUb_zpk2sos (eps : ℝ) (s : Sorts) (order : ℕ) (f : Zpk) (pairing : Option Pairing) (analog : Option Bool) :
    NoUb (zpk2sos eps s order f pairing analog) := by
  unfold zpk2sos
  dsimp only
  generalize analog.getD false = an
  generalize pairing.getD (if an = true then .minimal else .nearest) = pa
  split
  · simp [NoUb]
  · split
    · split <;> exact noUb_pure _
    · split
      · exact (noUb_check (by simp)).bind fun _ _ => noUb_pairUp _ _ _ _ _ _ _ _
      · split
        · simp [NoUb]
        · exact noUb_pairUp _ _ _ _ _ _ _ _

/-! ### A pass takes at most the weight of two roots -/

theorem removeAt_inv {l l' : List ℂ} {i : ℕ} {x : ℂ} (h : removeAt l i = .ok (x, l')) :
    l[i]? = some x ∧ (x :: l').Perm l := by
  unfold removeAt at h
  cases h1 : l[i]? with
  | none => rw [h1] at h; simp at h
  | some y =>
    have h2 := removeAt_ok h1
    rw [h1] at h
    simp only [Except.ok.injEq, Prod.mk.injEq] at h
    obtain ⟨rfl, rfl⟩ := h
    exact ⟨rfl, h2.2⟩

theorem wt_le (x : ℂ) : wt x ≤ 2 := by unfold wt; split <;> omega

theorem wts_removeAt {l l' : List ℂ} {i : ℕ} {x : ℂ} (h : removeAt l i = .ok (x, l')) :
    wts l = wt x + wts l' := by
  rw [← wts_perm (removeAt_inv h).2, wts_cons]

theorem stepLastReal_weight {pairing : Pairing} {st st' : PairState} {p1 : ℂ}
    (h : stepLastReal pairing st p1 = .ok st') : wts st.z ≤ wts st'.z + 2 ∧ st'.p = st.p := by
  unfold stepLastReal at h
  split at h
  · obtain ⟨i, -, h⟩ := bind_eq_ok.mp h
    obtain ⟨q, hq, h⟩ := bind_eq_ok.mp h
    obtain ⟨s, -, h⟩ := bind_eq_ok.mp h
    cases h
    have := wts_removeAt hq
    have := wt_le q.1
    exact ⟨by dsimp only; omega, rfl⟩
  · split at h
    · obtain ⟨i, -, h⟩ := bind_eq_ok.mp h
      obtain ⟨q, hq, h⟩ := bind_eq_ok.mp h
      obtain ⟨s, -, h⟩ := bind_eq_ok.mp h
      cases h
      have := wts_removeAt hq
      have := wt_le q.1
      exact ⟨by dsimp only; omega, rfl⟩
    · obtain ⟨s, -, h⟩ := bind_eq_ok.mp h
      cases h
      exact ⟨by dsimp only; omega, rfl⟩

theorem stepComplex_weight {st st' : PairState} {p1 : ℂ} (h : stepComplex st p1 = .ok st') :
    wts st.z ≤ wts st'.z + 2 ∧ st'.p = st.p := by
  unfold stepComplex at h
  obtain ⟨i, -, h⟩ := bind_eq_ok.mp h
  obtain ⟨q, hq, h⟩ := bind_eq_ok.mp h
  obtain ⟨s, -, h⟩ := bind_eq_ok.mp h
  cases h
  have := wts_removeAt hq
  have := wt_le q.1
  exact ⟨by dsimp only; omega, rfl⟩

theorem stepZeros_weight {st st' : PairState} {p1 p2 : ℂ} (h : stepZeros st p1 p2 = .ok st') :
    wts st.z ≤ wts st'.z + 2 ∧ st'.p = st.p := by
  unfold stepZeros at h
  split at h
  · obtain ⟨i, -, h⟩ := bind_eq_ok.mp h
    obtain ⟨q, hq, h⟩ := bind_eq_ok.mp h
    have h1 := wts_removeAt hq
    have h2 := wt_le q.1
    split at h
    · obtain ⟨s, -, h⟩ := bind_eq_ok.mp h
      cases h
      exact ⟨by dsimp only; omega, rfl⟩
    · rename_i him
      have h3 : wt q.1 = 1 := by unfold wt; rw [if_pos (not_not.mp him)]
      split at h
      · obtain ⟨j, -, h⟩ := bind_eq_ok.mp h
        obtain ⟨q', hq', h⟩ := bind_eq_ok.mp h
        obtain ⟨u, hu, h⟩ := bind_eq_ok.mp h
        obtain ⟨s, -, h⟩ := bind_eq_ok.mp h
        cases h
        have h4 := wts_removeAt hq'
        have h5 : wt q'.1 = 1 := by unfold wt; rw [if_pos (check_eq_ok.mp hu)]
        exact ⟨by dsimp only; omega, rfl⟩
      · obtain ⟨s, -, h⟩ := bind_eq_ok.mp h
        cases h
        exact ⟨by dsimp only; omega, rfl⟩
  · obtain ⟨s, -, h⟩ := bind_eq_ok.mp h
    cases h
    exact ⟨by dsimp only; omega, rfl⟩

theorem secondPole_weight {analog : Bool} {p p' : List ℂ} {p1 p2 : ℂ}
    (h : secondPole analog p p1 = .ok (p2, p')) : wts p + wt p1 ≤ wts p' + 2 := by
  unfold secondPole at h
  split at h
  · rename_i him
    obtain ⟨j, -, h⟩ := bind_eq_ok.mp h
    obtain ⟨e, he, h⟩ := bind_eq_ok.mp h
    have hw := wts_removeAt h
    have h1 : wt p1 = 1 := by unfold wt; rw [if_pos him]
    have hmem : e ∈ p.zipIdx.filter (fun q => decide (q.1.im = 0)) := by
      unfold idx at he
      split at he
      · rename_i x hx
        cases he
        exact List.mem_of_getElem? hx
      · simp at he
    obtain ⟨hm, him2⟩ := List.mem_filter.mp hmem
    have h3 := List.mk_mem_zipIdx_iff_getElem?.mp (show (e.1, e.2) ∈ p.zipIdx from hm)
    have h4 := (removeAt_inv h).1
    rw [h3] at h4
    have h5 : p2.im = 0 := by
      cases h4
      simpa using him2
    have h6 : wt p2 = 1 := by unfold wt; rw [if_pos h5]
    omega
  · cases h
    have := wt_le p1
    omega

theorem pairStep_weight {pairing : Pairing} {analog : Bool} {st st' : PairState}
    (h : pairStep pairing analog st = .ok st') : wts st.z ≤ wts st'.z + 2 ∧ wts st.p ≤ wts st'.p + 2 := by
  unfold pairStep at h
  obtain ⟨i, -, h⟩ := bind_eq_ok.mp h
  obtain ⟨q, hq, h⟩ := bind_eq_ok.mp h
  have hw := wts_removeAt hq
  have hw2 := wt_le q.1
  dsimp only at h
  split at h
  · obtain ⟨h1, h2⟩ := stepLastReal_weight h
    rw [h2]
    exact ⟨h1, by dsimp only; omega⟩
  · split at h
    · obtain ⟨h1, h2⟩ := stepComplex_weight h
      rw [h2]
      exact ⟨h1, by dsimp only; omega⟩
    · obtain ⟨q2, hq2, h⟩ := bind_eq_ok.mp h
      obtain ⟨h1, h2⟩ := stepZeros_weight h
      have h3 := secondPole_weight hq2
      rw [h2]
      exact ⟨h1, by dsimp only; omega⟩

theorem loop_weight {α : Type} {pairing : Pairing} {analog : Bool} (l : List α) {st st' : PairState}
    (h : l.foldlM (fun st _ => pairStep pairing analog st) st = .ok st') :
    wts st.z ≤ wts st'.z + 2 * l.length ∧ wts st.p ≤ wts st'.p + 2 * l.length := by
  induction l generalizing st with
  | nil =>
    cases h
    simp
  | cons a l ih =>
    rw [List.foldlM_cons] at h
    obtain ⟨st1, h1, h2⟩ := bind_eq_ok.mp h
    have h3 := pairStep_weight h1
    have h4 := ih h2
    rw [List.length_cons]
    omega

/-! ### What `cplxreal_dyn` returns -/

theorem sortRun_inv {s : Sorts} (hs : s.Correct) {st st' : List ℂ × List ℂ} {a b : ℕ}
    (h : sortRun s st a b = .ok st') :
    st'.1.length = st.1.length ∧ st'.2.length = st.2.length ∧ (∀ x ∈ st'.1, x ∈ st.1) ∧ ∀ x ∈ st'.2, x ∈ st.2 := by
  unfold sortRun at h
  obtain ⟨u1, h1, h⟩ := bind_eq_ok.mp h
  obtain ⟨u2, h2, h⟩ := bind_eq_ok.mp h
  obtain ⟨h11, h12⟩ := check_eq_ok.mp h1
  obtain ⟨-, h22⟩ := check_eq_ok.mp h2
  cases h
  dsimp only
  have hp := hs.pair_perm (((st.1.take b).drop a).zip ((st.2.take b).drop a))
  set chunk := s.byPair (((st.1.take b).drop a).zip ((st.2.take b).drop a)) with hch
  have hl : chunk.length = b - a := by
    rw [hp.length_eq, List.length_zip, List.length_drop, List.length_drop, List.length_take, List.length_take]
    omega
  have hm : ∀ c ∈ chunk, c.1 ∈ st.1 ∧ c.2 ∈ st.2 := by
    intro c hc
    have := List.of_mem_zip (hp.mem_iff.mp hc)
    exact ⟨List.mem_of_mem_take (List.mem_of_mem_drop this.1), List.mem_of_mem_take (List.mem_of_mem_drop this.2)⟩
  refine ⟨?_, ?_, ?_, ?_⟩
  · simp only [List.length_append, List.length_take, List.length_drop, List.length_map, hl]; omega
  · simp only [List.length_append, List.length_take, List.length_drop, List.length_map, hl]; omega
  · intro x hx
    simp only [List.mem_append, List.mem_map] at hx
    rcases hx with (hx | ⟨c, hc, rfl⟩) | hx
    · exact List.mem_of_mem_take hx
    · exact (hm c hc).1
    · exact List.mem_of_mem_drop hx
  · intro x hx
    simp only [List.mem_append, List.mem_map] at hx
    rcases hx with (hx | ⟨c, hc, rfl⟩) | hx
    · exact List.mem_of_mem_take hx
    · exact (hm c hc).2
    · exact List.mem_of_mem_drop hx

theorem sortRuns_inv {s : Sorts} (hs : s.Correct) (qs : List (ℕ × ℕ)) {st st' : List ℂ × List ℂ}
    (h : qs.foldlM (fun st q => sortRun s st q.1 (q.2 + 1)) st = .ok st') :
    st'.1.length = st.1.length ∧ st'.2.length = st.2.length ∧ (∀ x ∈ st'.1, x ∈ st.1) ∧ ∀ x ∈ st'.2, x ∈ st.2 := by
  induction qs generalizing st with
  | nil =>
    cases h
    exact ⟨rfl, rfl, fun _ => id, fun _ => id⟩
  | cons q qs ih =>
    rw [List.foldlM_cons] at h
    obtain ⟨st1, h1, h2⟩ := bind_eq_ok.mp h
    obtain ⟨a1, a2, a3, a4⟩ := sortRun_inv hs h1
    obtain ⟨b1, b2, b3, b4⟩ := ih h2
    exact ⟨b1.trans a1, b2.trans a2, fun x hx => a3 x (b3 x hx), fun x hx => a4 x (b4 x hx)⟩

theorem wts_append (l m : List ℂ) : wts (l ++ m) = wts l + wts m := by simp [wts]

theorem wts_complex {l : List ℂ} (h : ∀ x ∈ l, x.im ≠ 0) : wts l = 2 * l.length := by
  have h1 := wts_add_realCount l
  have h2 : realCount l = 0 := by
    unfold realCount
    rw [List.length_eq_zero_iff, List.filter_eq_nil_iff]
    intro x hx
    simpa using h x hx
  omega

/-- The weight of what `cplxreal_dyn` returns is the number of roots, plus one for each root that is complex
yet within the tolerance. -/
theorem cplxreal_weight {eps : ℝ} (he : 0 ≤ eps) {s : Sorts} (hs : s.Correct) {z : List ℂ} {r : List ℂ × List ℂ}
    (h : cplxreal eps s z none = .ok r) :
    wts (r.1 ++ r.2) = z.length + (z.filter (fun x => decide (x.im ≠ 0 ∧ |x.im| ≤ eps * 100 * |x.re|))).length := by
  unfold cplxreal at h
  split at h
  · rename_i h0
    cases h
    rw [h0]; simp [wts]
  · dsimp only [Option.getD_none] at h
    simp only [csqrt_mul_self_re] at h
    have htol : 0 ≤ eps * 100 := by positivity
    generalize eps * 100 = tol at h htol
    have hperm := hs.key_perm z
    set L := s.byKey z with hL
    set A := L.filter (fun zi => decide (|zi.im| ≤ tol * |zi.re|)) with hA
    -- the weight of the roots within the tolerance
    have hwA : wts A = A.length + (L.filter (fun x => decide (x.im ≠ 0 ∧ |x.im| ≤ tol * |x.re|))).length := by
      rw [hA]
      clear hA A h hperm hL
      induction L with
      | nil => simp [wts]
      | cons a L ih =>
        by_cases h1 : |a.im| ≤ tol * |a.re|
        · by_cases h2 : a.im = 0
          · rw [List.filter_cons_of_pos (by simpa using h1), List.filter_cons_of_neg (by simp [h2]), wts_cons, ih,
              List.length_cons, wt, if_pos h2]
            omega
          · rw [List.filter_cons_of_pos (by simpa using h1), List.filter_cons_of_pos (by simp [h1, h2]), wts_cons,
              ih, List.length_cons, List.length_cons, wt, if_neg h2]
            omega
        · rw [List.filter_cons_of_neg (by simpa using h1), List.filter_cons_of_neg (by simp at h1 ⊢; exact fun _ => h1),
            ih]
    have hfin : (L.filter (fun x => decide (x.im ≠ 0 ∧ |x.im| ≤ tol * |x.re|))).length =
        (z.filter (fun x => decide (x.im ≠ 0 ∧ |x.im| ≤ tol * |x.re|))).length := (hperm.filter _).length_eq
    have hlz : L.length = z.length := hperm.length_eq
    split at h
    · rename_i h1
      cases h
      rw [List.nil_append, hwA, hfin, h1, hlz]
    · set C := L.filter (fun zi => !decide (|zi.im| ≤ tol * |zi.re|)) with hC
      have hCim : ∀ x ∈ C, x.im ≠ 0 := by
        intro x hx h0
        have := (List.mem_filter.mp hx).2
        rw [h0] at this
        simp at this
        have h2 : 0 ≤ tol * |x.re| := by positivity
        linarith
      have hAC : A.length + C.length = L.length := by
        rw [hA, hC]
        have := List.length_eq_length_filter_add (l := L) (fun zi : ℂ => decide (|zi.im| ≤ tol * |zi.re|))
        omega
      have hPN : (C.filter (fun zi => decide (zi.im > 0))).length + (C.filter (fun zi => decide (zi.im < 0))).length =
          C.length := by
        have h1 := List.length_eq_length_filter_add (l := C) (fun zi : ℂ => decide (zi.im > 0))
        have h2 : C.filter (fun zi => decide (zi.im < 0)) = C.filter (fun zi => !decide (zi.im > 0)) := by
          refine List.filter_congr (fun x hx => ?_)
          have := hCim x hx
          rcases lt_or_gt_of_ne this with h3 | h3
          · simp [h3, h3.le]
          · simp [h3, not_lt.mpr h3.le]
        rw [h2]; omega
      split at h
      · simp at h
      · rename_i hlen
        push Not at hlen
        obtain ⟨u, -, h⟩ := bind_eq_ok.mp h
        obtain ⟨st, hst, h⟩ := bind_eq_ok.mp h
        obtain ⟨b1, b2, b3, b4⟩ := sortRuns_inv hs _ hst
        dsimp only at b1 b2 b3 b4
        split at h
        · simp at h
        · cases h
          dsimp only
          rw [wts_append, hwA, hfin, wts_complex]
          · rw [List.length_map, List.length_zip, b1, b2]
            omega
          · intro x hx
            obtain ⟨q, hq, rfl⟩ := List.mem_map.mp hx
            have h1 := List.of_mem_zip hq
            have h2 := (List.mem_filter.mp (b3 _ h1.1)).2
            have h3 := (List.mem_filter.mp (b4 _ h1.2)).2
            simp only [decide_eq_true_eq] at h2 h3
            have : ((q.1 + (starRingEnd ℂ) q.2) / 2).im = (q.1.im - q.2.im) / 2 := by
              rw [show ((2 : ℂ)) = ((2 : ℝ) : ℂ) by norm_num, div_ofReal_im]
              simp [sub_eq_add_neg]
            rw [this]
            intro h0
            linarith

theorem not_separated_iff {tol : ℝ} {z : List ℂ} :
    ¬ Separated tol z ↔ 0 < (z.filter (fun x => decide (x.im ≠ 0 ∧ |x.im| ≤ tol * |x.re|))).length := by
  unfold Separated
  push Not
  rw [List.length_pos_iff_exists_mem]
  constructor
  · rintro ⟨x, hx, h1, h2⟩
    exact ⟨x, List.mem_filter.mpr ⟨hx, by simp [h1, h2]⟩⟩
  · rintro ⟨x, hx⟩
    obtain ⟨h1, h2⟩ := List.mem_filter.mp hx
    simp only [decide_eq_true_eq] at h2
    exact ⟨x, h1, h2.1, h2.2⟩

/-- If a root is complex yet within the tolerance, nothing is returned. -/
theorem pairUp_near_real {eps : ℝ} (he : 0 ≤ eps) {s : Sorts} (hs : s.Correct) {pairing : Pairing} {analog : Bool}
    {z p : List ℂ} {k : ℝ} {n : ℕ} (hz : z.length = 2 * n) (hp : p.length = 2 * n) {l : List (Sos ℝ)}
    (h : pairUp eps s pairing analog z p k n = .ok l) : Separated (eps * 100) z ∧ Separated (eps * 100) p := by
  unfold pairUp at h
  obtain ⟨cz, hcz, h⟩ := bind_eq_ok.mp h
  obtain ⟨cp, hcp, h⟩ := bind_eq_ok.mp h
  obtain ⟨st, hst, h⟩ := bind_eq_ok.mp h
  obtain ⟨u, hu, h⟩ := bind_eq_ok.mp h
  obtain ⟨u', hu', h⟩ := bind_eq_ok.mp h
  have h1 := check_eq_ok.mp hu
  have h2 := check_eq_ok.mp hu'
  rw [h2] at h1
  have h3 : st.z = [] := List.length_eq_zero_iff.mp h1.symm
  obtain ⟨h4, h5⟩ := loop_weight _ hst
  rw [List.length_range, h3] at h4
  rw [List.length_range, h2] at h5
  dsimp only at h4 h5
  have w1 := cplxreal_weight he hs hcz
  have w2 := cplxreal_weight he hs hcp
  have w0 : wts [] = 0 := rfl
  constructor
  · by_contra hn
    have := not_separated_iff.mp hn
    omega
  · by_contra hn
    have := not_separated_iff.mp hn
    omega

end SciRs.Design

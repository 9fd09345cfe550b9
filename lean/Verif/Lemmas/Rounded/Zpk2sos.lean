import Verif.Lemmas.Rounded.Cplx
import Verif.Lemmas.Design.NearReal

/-! # Lemmas about `zpk2sos_dyn` in any arithmetic -/

namespace SciRs.Rounded

open Complex SciRs.Design SciRs.Spec

variable {A : Arith}

/-! ### No undefined behaviour -/

theorem noUb_idx {α : Type} (l : List α) (i : ℕ) : NoUb (idx l i) := by
  unfold idx
  cases l[i]? <;> simp [NoUb]

theorem noUb_mapM {α β : Type} (f : α → Res β) (h : ∀ a, NoUb (f a)) (l : List α) : NoUb (l.mapM f) := by
  induction l with
  | nil => exact noUb_pure _
  | cons a l ih =>
    rw [List.mapM_cons]
    exact (h _).bind fun _ _ => ih.bind fun _ _ => noUb_pure _

theorem noUb_poly (z : List ℂ) : NoUb (poly A z) := by
  unfold poly
  refine (noUb_foldlM _ (fun a zi => noUb_mapM _ (fun i => ?_) _) _ _).bind fun _ _ => ?_
  · unfold polyEntry
    dsimp only
    generalize (if i > a.length then i - 2 else 0) = ui
    split
    · exact (noUb_idx _ _).bind fun _ _ => (noUb_idx _ _).bind fun _ _ => noUb_pure _
    · refine noUb_foldlM _ (fun acc u => ?_) _ _
      split
      · exact (noUb_idx _ _).bind fun _ _ => (noUb_idx _ _).bind fun _ _ => noUb_pure _
      · exact noUb_pure _
  · dsimp only
    split <;> exact noUb_pure _

theorem noUb_single (z p : List ℂ) (k : ℝ) : NoUb (single A z p k) := by
  unfold single
  refine NoUb.bind ?_ fun t _ => ?_
  · exact (noUb_poly _).bind fun _ _ => (noUb_poly _).bind fun _ _ => noUb_pure _
  · split
    · exact noUb_pure _
    · simp [NoUb]

theorem noUb_cplxreal (s : Sorts) (z : List ℂ) (t : Option ℝ) : NoUb (cplxreal A s z t) := by
  unfold cplxreal
  split
  · exact noUb_pure _
  · dsimp only
    split
    · exact noUb_pure _
    · split
      · simp [NoUb]
      · refine (noUb_check (by simp)).bind fun _ _ => (noUb_foldlM _ (fun st q => ?_) _ _).bind fun st _ => ?_
        · exact (noUb_check (by simp)).bind fun _ _ => (noUb_check (by simp)).bind fun _ _ => noUb_pure _
        · split
          · simp [NoUb]
          · exact noUb_pure _

theorem noUb_stepLastReal (pairing : Pairing) (st : PairState) (p1 : ℂ) : NoUb (stepLastReal A pairing st p1) := by
  unfold stepLastReal
  split
  · exact (noUb_expect _).bind fun _ _ => (noUb_removeAt _ _).bind fun _ _ => (noUb_single _ _ _).bind fun _ _ =>
      noUb_pure _
  · split
    · exact (noUb_expect _).bind fun _ _ => (noUb_removeAt _ _).bind fun _ _ => (noUb_single _ _ _).bind fun _ _ =>
        noUb_pure _
    · exact (noUb_single _ _ _).bind fun _ _ => noUb_pure _

theorem noUb_stepComplex (st : PairState) (p1 : ℂ) : NoUb (stepComplex A st p1) :=
  (noUb_expect _).bind fun _ _ => (noUb_removeAt _ _).bind fun _ _ => (noUb_single _ _ _).bind fun _ _ => noUb_pure _

theorem noUb_secondPole (analog : Bool) (p : List ℂ) (p1 : ℂ) : NoUb (secondPole A analog p p1) := by
  unfold secondPole
  split
  · refine (noUb_expect _).bind fun j _ => ?_
    have h : ∀ (l : List (ℂ × ℕ)) i, NoUb (idx l i) := by
      intro l i
      unfold idx
      cases l[i]? <;> simp [NoUb]
    exact (h _ _).bind fun _ _ => noUb_removeAt _ _
  · exact noUb_pure _

theorem noUb_stepZeros (st : PairState) (p1 p2 : ℂ) : NoUb (stepZeros A st p1 p2) := by
  unfold stepZeros
  split
  · refine (noUb_expect _).bind fun _ _ => (noUb_removeAt _ _).bind fun q _ => ?_
    split
    · exact (noUb_single _ _ _).bind fun _ _ => noUb_pure _
    · split
      · exact (noUb_expect _).bind fun _ _ => (noUb_removeAt _ _).bind fun _ _ => (noUb_check (by simp)).bind fun _ _ =>
          (noUb_single _ _ _).bind fun _ _ => noUb_pure _
      · exact (noUb_single _ _ _).bind fun _ _ => noUb_pure _
  · exact (noUb_single _ _ _).bind fun _ _ => noUb_pure _

theorem noUb_pairStep (pairing : Pairing) (analog : Bool) (st : PairState) : NoUb (pairStep A pairing analog st) := by
  unfold pairStep
  refine (noUb_expect _).bind fun _ _ => (noUb_removeAt _ _).bind fun q _ => ?_
  dsimp only
  split
  · exact noUb_stepLastReal _ _ _
  · split
    · exact noUb_stepComplex _ _
    · exact (noUb_secondPole _ _ _).bind fun _ _ => noUb_stepZeros _ _ _

theorem noUb_pairUp (s : Sorts) (pairing : Pairing) (analog : Bool) (z p : List ℂ) (k : ℝ) (n : ℕ) :
    NoUb (pairUp A s pairing analog z p k n) := by
  unfold pairUp
  refine (noUb_cplxreal _ _ _).bind fun _ _ => (noUb_cplxreal _ _ _).bind fun _ _ =>
    (noUb_foldlM _ (fun _ _ => noUb_pairStep _ _ _) _ _).bind fun st _ => (noUb_check (by simp)).bind fun _ _ =>
    (noUb_check (by simp)).bind fun _ _ => ?_
  split
  · simp [NoUb]
  · exact noUb_pure _

theorem noUb_zpk2sos (s : Sorts) (order : ℕ) (f : Zpk) (pairing : Option Pairing) (analog : Option Bool) :
    NoUb (zpk2sos A s order f pairing analog) := by
  unfold zpk2sos
  dsimp only
  generalize analog.getD false = an
  generalize pairing.getD (if an = true then .minimal else .nearest) = pa
  split
  · simp [NoUb]
  · split
    · split <;> exact noUb_pure _
    · split
      · exact (noUb_check (by simp)).bind fun _ _ => noUb_pairUp _ _ _ _ _ _ _
      · split
        · simp [NoUb]
        · exact noUb_pairUp _ _ _ _ _ _ _

/-! ### A pass takes at most the weight of two roots -/

theorem stepLastReal_weight {pairing : Pairing} {st st' : PairState} {p1 : ℂ}
    (h : stepLastReal A pairing st p1 = .ok st') : wts st.z ≤ wts st'.z + 2 ∧ st'.p = st.p := by
  unfold stepLastReal at h
  split at h
  · obtain ⟨i, -, h⟩ := bind_eq_ok.mp h
    obtain ⟨q, hq, h⟩ := bind_eq_ok.mp h
    obtain ⟨s, -, h⟩ := bind_eq_ok.mp h
    cases h
    have := wts_removeAt hq
    have := wt_le q.1
    exact ⟨by dsimp only; omega, rfl⟩
  · split at h
    · obtain ⟨i, -, h⟩ := bind_eq_ok.mp h
      obtain ⟨q, hq, h⟩ := bind_eq_ok.mp h
      obtain ⟨s, -, h⟩ := bind_eq_ok.mp h
      cases h
      have := wts_removeAt hq
      have := wt_le q.1
      exact ⟨by dsimp only; omega, rfl⟩
    · obtain ⟨s, -, h⟩ := bind_eq_ok.mp h
      cases h
      exact ⟨by dsimp only; omega, rfl⟩

theorem stepComplex_weight {st st' : PairState} {p1 : ℂ} (h : stepComplex A st p1 = .ok st') :
    wts st.z ≤ wts st'.z + 2 ∧ st'.p = st.p := by
  unfold stepComplex at h
  obtain ⟨i, -, h⟩ := bind_eq_ok.mp h
  obtain ⟨q, hq, h⟩ := bind_eq_ok.mp h
  obtain ⟨s, -, h⟩ := bind_eq_ok.mp h
  cases h
  have := wts_removeAt hq
  have := wt_le q.1
  exact ⟨by dsimp only; omega, rfl⟩

theorem stepZeros_weight {st st' : PairState} {p1 p2 : ℂ} (h : stepZeros A st p1 p2 = .ok st') :
    wts st.z ≤ wts st'.z + 2 ∧ st'.p = st.p := by
  unfold stepZeros at h
  split at h
  · obtain ⟨i, -, h⟩ := bind_eq_ok.mp h
    obtain ⟨q, hq, h⟩ := bind_eq_ok.mp h
    have h1 := wts_removeAt hq
    have h2 := wt_le q.1
    split at h
    · obtain ⟨s, -, h⟩ := bind_eq_ok.mp h
      cases h
      exact ⟨by dsimp only; omega, rfl⟩
    · rename_i him
      have h3 : wt q.1 = 1 := by unfold wt; rw [if_pos (not_not.mp him)]
      split at h
      · obtain ⟨j, -, h⟩ := bind_eq_ok.mp h
        obtain ⟨q', hq', h⟩ := bind_eq_ok.mp h
        obtain ⟨u, hu, h⟩ := bind_eq_ok.mp h
        obtain ⟨s, -, h⟩ := bind_eq_ok.mp h
        cases h
        have h4 := wts_removeAt hq'
        have h5 : wt q'.1 = 1 := by unfold wt; rw [if_pos (check_eq_ok.mp hu)]
        exact ⟨by dsimp only; omega, rfl⟩
      · obtain ⟨s, -, h⟩ := bind_eq_ok.mp h
        cases h
        exact ⟨by dsimp only; omega, rfl⟩
  · obtain ⟨s, -, h⟩ := bind_eq_ok.mp h
    cases h
    exact ⟨by dsimp only; omega, rfl⟩

theorem secondPole_weight {analog : Bool} {p p' : List ℂ} {p1 p2 : ℂ}
    (h : secondPole A analog p p1 = .ok (p2, p')) : wts p + wt p1 ≤ wts p' + 2 := by
  unfold secondPole at h
  split at h
  · rename_i him
    obtain ⟨j, -, h⟩ := bind_eq_ok.mp h
    obtain ⟨e, he, h⟩ := bind_eq_ok.mp h
    have hw := wts_removeAt h
    have h1 : wt p1 = 1 := by unfold wt; rw [if_pos him]
    have hmem : e ∈ p.zipIdx.filter (fun q => decide (q.1.im = 0)) := by
      unfold idx at he
      split at he
      · rename_i x hx
        cases he
        exact List.mem_of_getElem? hx
      · simp at he
    obtain ⟨hm, him2⟩ := List.mem_filter.mp hmem
    have h3 := List.mk_mem_zipIdx_iff_getElem?.mp (show (e.1, e.2) ∈ p.zipIdx from hm)
    have h4 := (removeAt_inv h).1
    rw [h3] at h4
    have h5 : p2.im = 0 := by
      cases h4
      simpa using him2
    have h6 : wt p2 = 1 := by unfold wt; rw [if_pos h5]
    omega
  · cases h
    have := wt_le p1
    omega

theorem pairStep_weight {pairing : Pairing} {analog : Bool} {st st' : PairState}
    (h : pairStep A pairing analog st = .ok st') : wts st.z ≤ wts st'.z + 2 ∧ wts st.p ≤ wts st'.p + 2 := by
  unfold pairStep at h
  obtain ⟨i, -, h⟩ := bind_eq_ok.mp h
  obtain ⟨q, hq, h⟩ := bind_eq_ok.mp h
  have hw := wts_removeAt hq
  have hw2 := wt_le q.1
  dsimp only at h
  split at h
  · obtain ⟨h1, h2⟩ := stepLastReal_weight h
    rw [h2]
    exact ⟨h1, by dsimp only; omega⟩
  · split at h
    · obtain ⟨h1, h2⟩ := stepComplex_weight h
      rw [h2]
      exact ⟨h1, by dsimp only; omega⟩
    · obtain ⟨q2, hq2, h⟩ := bind_eq_ok.mp h
      obtain ⟨h1, h2⟩ := stepZeros_weight h
      have h3 := secondPole_weight hq2
      rw [h2]
      exact ⟨h1, by dsimp only; omega⟩

theorem loop_weight {α : Type} {pairing : Pairing} {analog : Bool} (l : List α) {st st' : PairState}
    (h : l.foldlM (fun st _ => pairStep A pairing analog st) st = .ok st') :
    wts st.z ≤ wts st'.z + 2 * l.length ∧ wts st.p ≤ wts st'.p + 2 * l.length := by
  induction l generalizing st with
  | nil =>
    cases h
    simp
  | cons a l ih =>
    rw [List.foldlM_cons] at h
    obtain ⟨st1, h1, h2⟩ := bind_eq_ok.mp h
    have h3 := pairStep_weight h1
    have h4 := ih h2
    rw [List.length_cons]
    omega

/-! ### One section -/

/-- A section made from two zeros and two poles. -/
structure IsSection (A : Arith) (s : Sos ℝ) (z1 z2 p1 p2 : ℂ) : Prop where
  made : single A [z1, z2] [p1, p2] 1 = .ok s
  z : ConjClosed [z1, z2]
  p : ConjClosed [p1, p2]
  a0 : s.a0 = 1
  zi0 : s.zi0 = 0
  zi1 : s.zi1 = 0

theorem poly_two (hA : A.Lawful) (r1 r2 : ℂ) : ∃ c1 c2 : ℂ, poly A [r1, r2] = .ok [1, c1, c2] := by
  have h11 : A.cadd 0 (A.cmul 1 1) = 1 := by rw [hA.cmul_one_one, hA.cadd_zero_one]
  have e1 : polyStep A [1] r1 = .ok [1, A.cadd 0 (A.cmul 1 (-r1))] := by
    simp [polyStep, polyEntry, List.range_succ, idx, h11, bind, Except.bind, pure, Except.pure]
  have e2 : ∀ b, polyStep A [1, b] r2 = .ok [1, A.cadd (A.cadd 0 (A.cmul 1 (-r2))) (A.cmul b 1),
      A.cadd 0 (A.cmul b (-r2))] := by
    intro b
    simp [polyStep, polyEntry, List.range_succ, List.range'_succ, idx, h11, bind, Except.bind, pure, Except.pure]
  unfold poly
  simp only [List.foldlM_cons, List.foldlM_nil, e1, ok_bind, e2]
  split
  · refine ⟨((A.cadd (A.cadd 0 (A.cmul 1 (-r2))) (A.cmul (A.cadd 0 (A.cmul 1 (-r1))) 1)).re : ℂ),
      ((A.cadd 0 (A.cmul (A.cadd 0 (A.cmul 1 (-r1))) (-r2))).re : ℂ), ?_⟩
    simp [pure, Except.pure, bind, Except.bind]
  · exact ⟨_, _, rfl⟩

theorem single_ok (hA : A.Lawful) {z1 z2 p1 p2 : ℂ} (hz : ConjClosed [z1, z2]) (hp : ConjClosed [p1, p2]) :
    ∃ s, single A [z1, z2] [p1, p2] 1 = .ok s ∧ IsSection A s z1 z2 p1 p2 := by
  obtain ⟨b1, b2, eb⟩ := poly_two hA z1 z2
  obtain ⟨a1, a2, ea⟩ := poly_two hA p1 p2
  have key : ∀ s, single A [z1, z2] [p1, p2] 1 = .ok s → s.a0 = 1 ∧ s.zi0 = 0 ∧ s.zi1 = 0 := by
    intro s hs
    unfold single zpk2tf at hs
    rw [eb, ok_bind, ea] at hs
    simp only [ok_bind, poly2ba, fillReal] at hs
    split_ifs at hs <;> simp [pure, Except.pure, bind, Except.bind] at hs <;> subst hs <;> simp [Sos.new]
  have hex : ∃ s, single A [z1, z2] [p1, p2] 1 = .ok s := by
    unfold single zpk2tf
    rw [eb, ok_bind, ea]
    simp only [ok_bind, poly2ba, fillReal]
    split_ifs <;> simp [pure, Except.pure, bind, Except.bind]
  obtain ⟨s, hs⟩ := hex
  obtain ⟨h1, h2, h3⟩ := key s hs
  exact ⟨s, hs, ⟨hs, hz, hp, h1, h2, h3⟩⟩

/-! ### Choosing -/

theorem idxWorst_ok (analog : Bool) {p : List ℂ} (h : p ≠ []) :
    ∃ i, idxWorst A analog p = .ok i ∧ i < p.length := by
  unfold idxWorst
  obtain ⟨q, hq, e⟩ := minBy_some (l := p.zipIdx.map (fun q : ℂ × ℕ =>
    (q.2, if analog then |q.1.re| else |A.sub 1 (A.cabs q.1)|))) (by simpa using h)
  rw [e]
  refine ⟨q.1, rfl, ?_⟩
  obtain ⟨r, hr, rfl⟩ := List.mem_map.mp hq
  simpa using List.snd_lt_of_mem_zipIdx hr

theorem nearestIdx_ok {fro : List ℂ} {t : ℂ} {w : Which} (h : ∃ x ∈ fro, Accepts w x) :
    ∃ i x, nearestIdx A fro t w = .ok i ∧ fro[i]? = some x ∧ Accepts w x := by
  obtain ⟨x, hx, hw⟩ := h
  obtain ⟨i, hi, rfl⟩ := List.mem_iff_getElem.mp hx
  have hm : (fro[i], i) ∈ fro.zipIdx := by
    rw [List.mk_mem_zipIdx_iff_getElem?, List.getElem?_eq_getElem hi]
  unfold nearestIdx
  dsimp only
  suffices H : ∀ cand : List (ℂ × ℕ), (fro[i], i) ∈ cand → (∀ q ∈ cand, q ∈ fro.zipIdx ∧ Accepts w q.1) →
      ∃ i x, expect (minBy (cand.map (fun q => (q.2, A.cabs (A.csub q.1 t))))) = .ok i ∧ fro[i]? = some x ∧
        Accepts w x by
    cases w with
    | real =>
      refine H _ (List.mem_filter.mpr ⟨hm, by simpa [Accepts] using hw⟩) (fun q hq => ?_)
      have := List.mem_filter.mp hq
      exact ⟨this.1, by simpa [Accepts] using this.2⟩
    | complex =>
      refine H _ (List.mem_filter.mpr ⟨hm, by simpa [Accepts] using hw⟩) (fun q hq => ?_)
      have := List.mem_filter.mp hq
      exact ⟨this.1, by simpa [Accepts] using this.2⟩
    | any => exact H _ hm (fun q hq => ⟨hq, trivial⟩)
  intro cand h1 h2
  obtain ⟨q, hq, e⟩ := minBy_some (l := cand.map (fun q => (q.2, A.cabs (A.csub q.1 t))))
    (by intro h0; rw [List.map_eq_nil_iff] at h0; rw [h0] at h1; simp at h1)
  obtain ⟨r, hr, rfl⟩ := List.mem_map.mp hq
  rw [e]
  obtain ⟨h3, h4⟩ := h2 r hr
  exact ⟨r.2, r.1, rfl, List.mk_mem_zipIdx_iff_getElem?.mp h3, h4⟩

/-! ### One pass of the loop -/

/-- The choice of the two poles of a section: the first is the last real pole, or a second one is found. -/
theorem poles_ok (analog : Bool) {p : List ℂ} (hp : p ≠ []) :
    ∃ i p1 pr, idxWorst A analog p = .ok i ∧ removeAt p i = .ok (p1, pr) ∧ (p1 :: pr).Perm p ∧
      ((p1.im = 0 ∧ realCount pr = 0) ∨
        (¬ (p1.im = 0 ∧ realCount pr = 0) ∧
        ∃ p2 p', secondPole A analog pr p1 = .ok (p2, p') ∧ wts p' + 2 = wts p ∧ ConjClosed [p1, p2] ∧
          ([p1, p2] ++ roots p').Perm (roots p))) := by
  obtain ⟨i, hi, hil⟩ := idxWorst_ok (A := A) analog hp
  obtain ⟨hr, hperm⟩ := removeAt_ok (List.getElem?_eq_getElem hil)
  set p1 := p[i] with hp1
  set pr := p.eraseIdx i with hpr
  refine ⟨i, p1, pr, hi, hr, hperm, ?_⟩
  by_cases hlast : p1.im = 0 ∧ realCount pr = 0
  · exact Or.inl hlast
  refine Or.inr ⟨hlast, ?_⟩
  have hw := wts_perm hperm
  rw [wts_cons] at hw
  unfold secondPole
  by_cases h : p1.im = 0
  · rw [if_pos h]
    rw [wt, if_pos h] at hw
    have hpos : 0 < realCount pr := Nat.pos_of_ne_zero (fun h0 => hlast ⟨h, h0⟩)
    obtain ⟨x, hx, hx0⟩ := exists_real hpos
    set prealIdx := pr.zipIdx.filter (fun q => decide (q.1.im = 0)) with hpi
    have hne : prealIdx.map (fun q => q.1) ≠ [] := by
      obtain ⟨j, hj, rfl⟩ := List.mem_iff_getElem.mp hx
      intro h0
      rw [List.map_eq_nil_iff] at h0
      have : (pr[j], j) ∈ prealIdx := List.mem_filter.mpr
        ⟨by rw [List.mk_mem_zipIdx_iff_getElem?, List.getElem?_eq_getElem hj], by simpa using hx0⟩
      rw [h0] at this; simp at this
    obtain ⟨j, hj, hjl⟩ := idxWorst_ok (A := A) analog hne
    rw [List.length_map] at hjl
    dsimp only
    rw [hj, ok_bind]
    have e1 : idx prealIdx j = .ok prealIdx[j] := by
      unfold idx; rw [List.getElem?_eq_getElem hjl]
    rw [e1, ok_bind]
    have hmem0 : prealIdx[j] ∈ prealIdx := List.getElem_mem hjl
    generalize prealIdx[j] = e at hmem0
    have hmem := List.mem_filter.mp hmem0
    obtain ⟨hr2, hperm2⟩ := removeAt_ok (l := pr) (List.mk_mem_zipIdx_iff_getElem?.mp hmem.1)
    have him : e.1.im = 0 := by simpa using hmem.2
    rw [hr2]
    refine ⟨_, _, rfl, ?_, conjClosed_reals h him, ?_⟩
    · have := wts_perm hperm2
      rw [wts_cons, wt, if_pos him] at this
      omega
    · refine List.Perm.trans ?_ (roots_perm hperm)
      rw [roots_cons, both, if_pos h]
      refine List.Perm.cons _ ?_
      refine List.Perm.trans ?_ (roots_perm hperm2)
      rw [roots_cons, both, if_pos him]
      rfl
  · rw [if_neg h]
    rw [wt, if_neg h] at hw
    refine ⟨_, _, rfl, by omega, conjClosed_pair _, ?_⟩
    refine List.Perm.trans ?_ (roots_perm hperm)
    rw [roots_cons, both, if_neg h]

/-- The zeros and poles left have the same even weight: no special case applies and a full section is
made. -/
theorem pairStep_even (hA : A.Lawful) (pairing : Pairing) (analog : Bool) (st : PairState) (m : ℕ)
    (hz : wts st.z = 2 * (m + 1)) (hp : wts st.p = 2 * (m + 1)) :
    ∃ (z' p' : List ℂ) (s : Sos ℝ) (z1 z2 p1 p2 : ℂ),
      pairStep A pairing analog st = .ok ⟨z', p', st.sos ++ [s]⟩ ∧
      wts z' = 2 * m ∧ wts p' = 2 * m ∧ IsSection A s z1 z2 p1 p2 ∧
      ([z1, z2] ++ roots z').Perm (roots st.z) ∧ ([p1, p2] ++ roots p').Perm (roots st.p) := by
  obtain ⟨z, p, sos⟩ := st
  dsimp only at hz hp ⊢
  obtain ⟨i, p1, pr, hi, hr, hperm, hch⟩ := poles_ok (A := A) analog (ne_nil_of_wts (show 0 < wts p by omega))
  have hw := wts_perm hperm
  rw [wts_cons] at hw
  have hrc := wts_add_realCount pr
  rcases hch with hch | ⟨hnl, p2, p', hsp, hwp', hcp, hfp⟩
  · rw [wt, if_pos hch.1] at hw
    omega
  have hwp' : wts p' = 2 * m := by omega
  unfold pairStep
  dsimp only
  rw [hi, ok_bind, hr, ok_bind]
  dsimp only
  rw [if_neg hnl, if_neg, hsp, ok_bind]
  rotate_left
  · rintro ⟨-, h1, h2, -⟩
    rw [wt, if_neg h1] at hw
    omega
  -- the zeros
  unfold stepZeros
  dsimp only
  have hzne : z ≠ [] := ne_nil_of_wts (by omega)
  rw [if_pos hzne]
  obtain ⟨x0, hx0⟩ := List.exists_mem_of_ne_nil z hzne
  obtain ⟨iz, z1, hiz, hz1, -⟩ := nearestIdx_ok (A := A) (t := p1) (w := .any) ⟨x0, hx0, trivial⟩
  obtain ⟨hrz, hpermz⟩ := removeAt_ok hz1
  rw [hiz, ok_bind, hrz, ok_bind]
  dsimp only
  set zr := z.eraseIdx iz
  have hwz := wts_perm hpermz
  rw [wts_cons] at hwz
  have hrczr := wts_add_realCount zr
  by_cases h : z1.im = 0
  · rw [if_neg (by simpa using h)]
    rw [wt, if_pos h] at hwz
    have hzr : 0 < realCount zr := by omega
    obtain ⟨y0, hy0, hy1⟩ := exists_real hzr
    rw [if_pos (List.ne_nil_of_mem hy0)]
    obtain ⟨iz2, z2, hiz2, hz2, hz2r⟩ := nearestIdx_ok (A := A) (t := p1) (w := .real) ⟨y0, hy0, hy1⟩
    obtain ⟨hrz2, hpermz2⟩ := removeAt_ok hz2
    rw [hiz2, ok_bind, hrz2, ok_bind]
    have hz2i : z2.im = 0 := hz2r
    dsimp only
    rw [check_true hz2i, ok_bind]
    obtain ⟨s, hs, hsec⟩ := single_ok hA (conjClosed_reals h hz2i) hcp
    rw [hs, ok_bind]
    refine ⟨_, _, s, _, _, _, _, rfl, ?_, hwp', hsec, ?_, hfp⟩
    · have := wts_perm hpermz2
      rw [wts_cons, wt, if_pos hz2i] at this
      omega
    · refine List.Perm.trans ?_ (roots_perm hpermz)
      rw [roots_cons, both, if_pos h]
      refine List.Perm.cons _ ?_
      refine List.Perm.trans ?_ (roots_perm hpermz2)
      rw [roots_cons, both, if_pos hz2i]
      rfl
  · rw [if_pos h]
    rw [wt, if_neg h] at hwz
    obtain ⟨s, hs, hsec⟩ := single_ok hA (conjClosed_pair z1) hcp
    rw [hs, ok_bind]
    refine ⟨_, _, s, _, _, _, _, rfl, by omega, hwp', hsec, ?_, hfp⟩
    refine List.Perm.trans ?_ (roots_perm hpermz)
    rw [roots_cons, both, if_neg h]

/-! ### The loop -/

/-- Sections made from the roots `q` of each: `q.1`, `q.2.1` the zeros, `q.2.2.1`, `q.2.2.2` the poles. -/
def Made (A : Arith) (l : List (Sos ℝ)) (qs : List (ℂ × ℂ × ℂ × ℂ)) : Prop :=
  List.Forall₂ (fun s q => IsSection A s q.1 q.2.1 q.2.2.1 q.2.2.2) l qs

def zerosOf (qs : List (ℂ × ℂ × ℂ × ℂ)) : List ℂ := qs.flatMap (fun q => [q.1, q.2.1])
def polesOf (qs : List (ℂ × ℂ × ℂ × ℂ)) : List ℂ := qs.flatMap (fun q => [q.2.2.1, q.2.2.2])

theorem loop_even {α : Type} (hA : A.Lawful) (pairing : Pairing) (analog : Bool) (l : List α) (st : PairState)
    (hz : wts st.z = 2 * l.length) (hp : wts st.p = 2 * l.length) :
    ∃ new qs, l.foldlM (fun st _ => pairStep A pairing analog st) st = .ok ⟨[], [], st.sos ++ new⟩ ∧
      new.length = l.length ∧ Made A new qs ∧
      (zerosOf qs).Perm (roots st.z) ∧ (polesOf qs).Perm (roots st.p) := by
  induction l generalizing st with
  | nil =>
    obtain ⟨z, p, sos⟩ := st
    dsimp only at hz hp
    have h1 := wts_eq_zero (l := z) (by simpa using hz)
    have h2 := wts_eq_zero (l := p) (by simpa using hp)
    subst h1; subst h2
    exact ⟨[], [], by simp [pure, Except.pure], rfl, .nil, List.Perm.refl _, List.Perm.refl _⟩
  | cons a l ih =>
    obtain ⟨z', p', s, z1, z2, p1, p2, e, hz', hp', hs, hn, hd⟩ := pairStep_even hA pairing analog st l.length hz hp
    obtain ⟨new, qs, e2, hl, hm, hN, hD⟩ := ih ⟨z', p', st.sos ++ [s]⟩ hz' hp'
    refine ⟨s :: new, (z1, z2, p1, p2) :: qs, ?_, by simp [hl], .cons hs hm, ?_, ?_⟩
    · rw [List.foldlM_cons, e, ok_bind, e2, List.append_assoc]
      rfl
    · refine List.Perm.trans ?_ hn
      exact hN.append_left [z1, z2]
    · refine List.Perm.trans ?_ hd
      exact hD.append_left [p1, p2]

/-- The scaling of the first section by the gain. -/
def scaleFirst (A : Arith) (k : ℝ) : List (Sos ℝ) → List (Sos ℝ)
  | [] => []
  | s :: rest => { s with b0 := A.mul s.b0 k, b1 := A.mul s.b1 k, b2 := A.mul s.b2 k } :: rest

/-- When no root passes for real wrongly, the roots are all used, each in one section. -/
theorem pairUp_even (hA : A.Lawful) {s : Sorts} (hs : s.Correct) (pairing : Pairing)
    (analog : Bool) {z p : List ℂ} (k : ℝ) {n : ℕ} (hn : n ≠ 0) (hz : ConjClosed z) (hp : ConjClosed p)
    (hzr : ∀ x ∈ z, A.Rep x) (hpr : ∀ x ∈ p, A.Rep x)
    (hzs : Separated A (defaultTol A) z) (hps : Separated A (defaultTol A) p) (hzl : z.length = 2 * n)
    (hpl : p.length = 2 * n) :
    ∃ new qs, pairUp A s pairing analog z p k n = .ok (scaleFirst A k new) ∧ new.length = n ∧
      Made A new qs ∧ (zerosOf qs).Perm z ∧ (polesOf qs).Perm p := by
  have ht := defaultTol_nonneg hA
  obtain ⟨zc, zr, ez, z1, z2⟩ := cplxreal_ok (t := none) hA hs ht hz hzr
  obtain ⟨pc, pr, ep, p1, p2⟩ := cplxreal_ok (t := none) hA hs ht hp hpr
  have rz := cplxreal_roots hA ht hzs hz z1 z2
  have rp := cplxreal_roots hA ht hps hp p1 p2
  unfold pairUp
  rw [ez, ep]
  simp only [ok_bind]
  obtain ⟨new, qs, e, hl, hm, hN, hD⟩ := loop_even hA pairing analog (List.range n) ⟨zc ++ zr, pc ++ pr, []⟩
    (by rw [List.length_range, ← hzl, ← rz.length_eq, roots_length])
    (by rw [List.length_range, ← hpl, ← rp.length_eq, roots_length])
  rw [e, ok_bind]
  dsimp only
  rw [check_true rfl, ok_bind, check_true rfl, ok_bind, List.nil_append]
  rw [List.length_range] at hl
  refine ⟨new.reverse, qs.reverse, ?_, by simpa using hl, List.rel_reverse hm, ?_, ?_⟩
  · have hlr : new.reverse.length = n := by rw [List.length_reverse, hl]
    generalize new.reverse = r at hlr
    match r, hlr with
    | [], h => exact absurd h.symm hn
    | s0 :: rest, h => rfl
  · exact (((List.reverse_perm qs).flatMap_right _).trans hN).trans rz
  · exact (((List.reverse_perm qs).flatMap_right _).trans hD).trans rp

/-- If a root is complex yet passes for real, nothing is returned. -/
theorem pairUp_near_real (hA : A.Lawful) {s : Sorts} (hs : s.Correct) {pairing : Pairing} {analog : Bool}
    {z p : List ℂ} {k : ℝ} {n : ℕ} (hcz : ConjClosed z) (hcp : ConjClosed p)
    (hzr : ∀ x ∈ z, A.Rep x) (hpr : ∀ x ∈ p, A.Rep x) (hz : z.length = 2 * n) (hp : p.length = 2 * n)
    {l : List (Sos ℝ)} (h : pairUp A s pairing analog z p k n = .ok l) :
    Separated A (defaultTol A) z ∧ Separated A (defaultTol A) p := by
  have ht := defaultTol_nonneg hA
  obtain ⟨zc, zr, ez, z1, z2⟩ := cplxreal_ok (t := none) hA hs ht hcz hzr
  obtain ⟨pc, pr, ep, p1, p2⟩ := cplxreal_ok (t := none) hA hs ht hcp hpr
  unfold pairUp at h
  rw [ez, ep] at h
  simp only [ok_bind] at h
  obtain ⟨st, hst, h⟩ := bind_eq_ok.mp h
  obtain ⟨u, hu, h⟩ := bind_eq_ok.mp h
  obtain ⟨u', hu', h⟩ := bind_eq_ok.mp h
  have h1 := check_eq_ok.mp hu
  have h2 := check_eq_ok.mp hu'
  rw [h2] at h1
  have h3 : st.z = [] := List.length_eq_zero_iff.mp h1.symm
  obtain ⟨h4, h5⟩ := loop_weight _ hst
  rw [List.length_range, h3] at h4
  rw [List.length_range, h2] at h5
  dsimp only at h4 h5
  have w1 := cplxreal_weight hA ht hcz z1 z2
  have w2 := cplxreal_weight hA ht hcp p1 p2
  have w0 : wts [] = 0 := rfl
  constructor
  · by_contra hn
    have := not_separated_iff.mp hn
    omega
  · by_contra hn
    have := not_separated_iff.mp hn
    omega

end SciRs.Rounded

import Verif.Model.Design.Zpk2sos
import Verif.Spec.Sections
import Verif.Lemmas.Design.Cplx
import Verif.Props.Design.Poly

/-! # Lemmas about `zpk2sos_dyn` -/

namespace SciRs.Design

open Complex SciRs.Spec

/-! ### Choosing and removing -/

theorem minBy_foldl_mem (qs : List (ℕ × ℝ)) (q : ℕ × ℝ) :
    qs.foldl (fun m q => if q.2 < m.2 then q else m) q ∈ q :: qs := by
  induction qs generalizing q with
  | nil => simp
  | cons a qs ih =>
    rw [List.foldl_cons]
    have := ih (if a.2 < q.2 then a else q)
    split_ifs at this ⊢ with h
    · exact List.mem_cons_of_mem _ this
    · rcases List.mem_cons.mp this with h1 | h1
      · rw [h1]; simp
      · exact List.mem_cons_of_mem _ (List.mem_cons_of_mem _ h1)

theorem minBy_some {l : List (ℕ × ℝ)} (h : l ≠ []) : ∃ q ∈ l, minBy l = some q.1 := by
  cases l with
  | nil => exact absurd rfl h
  | cons q qs => exact ⟨_, minBy_foldl_mem qs q, rfl⟩

theorem idxWorst_ok (analog : Bool) {p : List ℂ} (h : p ≠ []) :
    ∃ i, idxWorst analog p = .ok i ∧ i < p.length := by
  unfold idxWorst
  obtain ⟨q, hq, e⟩ := minBy_some (l := p.zipIdx.map (fun q : ℂ × ℕ =>
    (q.2, if analog then |q.1.re| else |1 - ‖q.1‖|))) (by simpa using h)
  rw [e]
  refine ⟨q.1, rfl, ?_⟩
  obtain ⟨r, hr, rfl⟩ := List.mem_map.mp hq
  simpa using List.snd_lt_of_mem_zipIdx hr

/-- Which entries are acceptable to `nearestIdx`. -/
def Accepts : Which → ℂ → Prop
  | .real, x => x.im = 0
  | .complex, x => x.im ≠ 0
  | .any, _ => True

theorem nearestIdx_ok {fro : List ℂ} {t : ℂ} {w : Which} (h : ∃ x ∈ fro, Accepts w x) :
    ∃ i x, nearestIdx fro t w = .ok i ∧ fro[i]? = some x ∧ Accepts w x := by
  obtain ⟨x, hx, hw⟩ := h
  obtain ⟨i, hi, rfl⟩ := List.mem_iff_getElem.mp hx
  have hm : (fro[i], i) ∈ fro.zipIdx := by
    rw [List.mk_mem_zipIdx_iff_getElem?, List.getElem?_eq_getElem hi]
  unfold nearestIdx
  dsimp only
  suffices H : ∀ cand : List (ℂ × ℕ), (fro[i], i) ∈ cand → (∀ q ∈ cand, q ∈ fro.zipIdx ∧ Accepts w q.1) →
      ∃ i x, expect (minBy (cand.map (fun q => (q.2, ‖q.1 - t‖)))) = .ok i ∧ fro[i]? = some x ∧ Accepts w x by
    cases w with
    | real =>
      refine H _ (List.mem_filter.mpr ⟨hm, by simpa [Accepts] using hw⟩) (fun q hq => ?_)
      have := List.mem_filter.mp hq
      exact ⟨this.1, by simpa [Accepts] using this.2⟩
    | complex =>
      refine H _ (List.mem_filter.mpr ⟨hm, by simpa [Accepts] using hw⟩) (fun q hq => ?_)
      have := List.mem_filter.mp hq
      exact ⟨this.1, by simpa [Accepts] using this.2⟩
    | any => exact H _ hm (fun q hq => ⟨hq, trivial⟩)
  intro cand h1 h2
  obtain ⟨q, hq, e⟩ := minBy_some (l := cand.map (fun q => (q.2, ‖q.1 - t‖)))
    (by intro h0; rw [List.map_eq_nil_iff] at h0; rw [h0] at h1; simp at h1)
  obtain ⟨r, hr, rfl⟩ := List.mem_map.mp hq
  rw [e]
  obtain ⟨h3, h4⟩ := h2 r hr
  exact ⟨r.2, r.1, rfl, List.mk_mem_zipIdx_iff_getElem?.mp h3, h4⟩

theorem removeAt_ok {l : List ℂ} {i : ℕ} {x : ℂ} (h : l[i]? = some x) :
    removeAt l i = .ok (x, l.eraseIdx i) ∧ (x :: l.eraseIdx i).Perm l := by
  unfold removeAt
  rw [h]
  refine ⟨rfl, ?_⟩
  obtain ⟨hi, rfl⟩ := List.getElem?_eq_some_iff.mp h
  exact List.getElem_cons_eraseIdx_perm hi

/-! ### Weights -/

/-- How many roots a representative stands for. -/
noncomputable def wt (x : ℂ) : ℕ := if x.im = 0 then 1 else 2
/-- The factor a representative stands for. -/
noncomputable def fac (t x : ℂ) : ℂ := if x.im = 0 then t - x else (t - x) * (t - (starRingEnd ℂ) x)
noncomputable def wts (l : List ℂ) : ℕ := (l.map wt).sum
noncomputable def facs (l : List ℂ) (t : ℂ) : ℂ := (l.map (fac t)).prod

theorem wts_perm {l m : List ℂ} (h : l.Perm m) : wts l = wts m := (h.map _).sum_eq
theorem facs_perm {l m : List ℂ} (h : l.Perm m) (t : ℂ) : facs l t = facs m t := (h.map _).prod_eq
theorem realCount_perm {l m : List ℂ} (h : l.Perm m) : realCount l = realCount m := (h.filter _).length_eq

theorem wts_cons (x : ℂ) (l : List ℂ) : wts (x :: l) = wt x + wts l := by simp [wts]
theorem facs_cons (x : ℂ) (l : List ℂ) (t : ℂ) : facs (x :: l) t = fac t x * facs l t := by simp [facs]
theorem realCount_cons_real {x : ℂ} (h : x.im = 0) (l : List ℂ) : realCount (x :: l) = realCount l + 1 := by
  simp [realCount, h]
theorem realCount_cons_complex {x : ℂ} (h : x.im ≠ 0) (l : List ℂ) : realCount (x :: l) = realCount l := by
  simp [realCount, h]

theorem wts_add_realCount (l : List ℂ) : wts l + realCount l = 2 * l.length := by
  induction l with
  | nil => rfl
  | cons a l ih =>
    rw [wts_cons, List.length_cons]
    by_cases h : a.im = 0
    · rw [realCount_cons_real h, wt, if_pos h]; omega
    · rw [realCount_cons_complex h, wt, if_neg h]; omega

theorem exists_real {l : List ℂ} (h : 0 < realCount l) : ∃ x ∈ l, x.im = 0 := by
  obtain ⟨x, hx⟩ := List.exists_mem_of_length_pos h
  have := List.mem_filter.mp hx
  exact ⟨x, this.1, by simpa using this.2⟩

theorem ne_nil_of_wts {l : List ℂ} (h : 0 < wts l) : l ≠ [] := by
  rintro rfl
  simp [wts] at h

theorem wts_eq_zero {l : List ℂ} (h : wts l = 0) : l = [] := by
  cases l with
  | nil => rfl
  | cons a l =>
    rw [wts_cons] at h
    unfold wt at h
    split_ifs at h <;> omega

/-! ### One section -/

theorem conj_of_real {x : ℂ} (h : x.im = 0) : (starRingEnd ℂ) x = x := Complex.conj_eq_iff_im.mpr h

theorem conjClosed_pair (x : ℂ) : ConjClosed [x, (starRingEnd ℂ) x] := by
  simp only [ConjClosed, List.map_cons, List.map_nil, Complex.conj_conj]
  exact List.Perm.swap _ _ _

theorem conjClosed_reals {x y : ℂ} (hx : x.im = 0) (hy : y.im = 0) : ConjClosed [x, y] := by
  simp [ConjClosed, conj_of_real hx, conj_of_real hy]

theorem coeffVal_three (a b c : ℝ) (x : ℂ) : coeffVal [a, b, c] x = a * x ^ 2 + b * x + c := by
  simp [coeffVal, Finset.sum_range_succ]

/-- What a section contributes. -/
structure IsSection (s : Sos ℝ) (n d : ℂ → ℂ) : Prop where
  num : ∀ x, coeffVal [s.b0, s.b1, s.b2] x = n x
  den : ∀ x, coeffVal [s.a0, s.a1, s.a2] x = d x
  a0 : s.a0 = 1
  zi0 : s.zi0 = 0
  zi1 : s.zi1 = 0

theorem single_ok {z : List ℂ} {p1 p2 : ℂ} (hz : ConjClosed z) (hzl : z.length ≤ 2)
    (hp : ConjClosed [p1, p2]) :
    ∃ s, single z [p1, p2] 1 = .ok s ∧
      IsSection s (fun x => (z.map (fun r => x - r)).prod * x ^ (2 - z.length))
        (fun x => (x - p1) * (x - p2)) := by
  obtain ⟨t, ht, hb, ha, h⟩ := Props.C49_polynomials 2 ⟨z, [p1, p2], 1⟩ hz hp hzl (by simp)
  unfold single
  dsimp only at ht
  rw [ht, ok_bind]
  obtain ⟨b, a⟩ := t
  dsimp only at hb ha h ⊢
  match b, hb, a, ha with
  | [b0, b1, b2], _, [a0, a1, a2], _ =>
    refine ⟨_, rfl, ⟨fun x => ?_, fun x => ?_, ?_, rfl, rfl⟩⟩
    · refine (h x).1.trans ?_
      simp [Zpk.num]
    · refine (h x).2.trans ?_
      simp [Zpk.den]
    · have e : ∀ x : ℂ, (a0 : ℂ) * x ^ 2 + a1 * x + a2 = (x - p1) * (x - p2) := fun x => by
        rw [← coeffVal_three]
        refine (h x).2.trans ?_
        simp [Zpk.den]
      have : (a0 : ℂ) = 1 := by linear_combination (e 1 + e (-1)) / 2 - e 0
      exact_mod_cast this

/-! ### One pass of the loop -/

/-- The choice of the two poles of a section: the first is the last real pole, or a second one is found. -/
theorem poles_ok (analog : Bool) {p : List ℂ} (hp : p ≠ []) :
    ∃ i p1 pr, idxWorst analog p = .ok i ∧ removeAt p i = .ok (p1, pr) ∧ (p1 :: pr).Perm p ∧
      ((p1.im = 0 ∧ realCount pr = 0) ∨
        (¬ (p1.im = 0 ∧ realCount pr = 0) ∧
        ∃ p2 p', secondPole analog pr p1 = .ok (p2, p') ∧ wts p' + 2 = wts p ∧ ConjClosed [p1, p2] ∧
          ∀ t, facs p t = (t - p1) * (t - p2) * facs p' t)) := by
  obtain ⟨i, hi, hil⟩ := idxWorst_ok analog hp
  obtain ⟨hr, hperm⟩ := removeAt_ok (List.getElem?_eq_getElem hil)
  set p1 := p[i] with hp1
  set pr := p.eraseIdx i with hpr
  refine ⟨i, p1, pr, hi, hr, hperm, ?_⟩
  by_cases hlast : p1.im = 0 ∧ realCount pr = 0
  · exact Or.inl hlast
  refine Or.inr ⟨hlast, ?_⟩
  have hw := wts_perm hperm
  rw [wts_cons] at hw
  unfold secondPole
  by_cases h : p1.im = 0
  · rw [if_pos h]
    rw [wt, if_pos h] at hw
    have hpos : 0 < realCount pr := Nat.pos_of_ne_zero (fun h0 => hlast ⟨h, h0⟩)
    obtain ⟨x, hx, hx0⟩ := exists_real hpos
    set prealIdx := pr.zipIdx.filter (fun q => decide (q.1.im = 0)) with hpi
    have hne : prealIdx.map (fun q => q.1) ≠ [] := by
      obtain ⟨j, hj, rfl⟩ := List.mem_iff_getElem.mp hx
      intro h0
      rw [List.map_eq_nil_iff] at h0
      have : (pr[j], j) ∈ prealIdx := List.mem_filter.mpr
        ⟨by rw [List.mk_mem_zipIdx_iff_getElem?, List.getElem?_eq_getElem hj], by simpa using hx0⟩
      rw [h0] at this; simp at this
    obtain ⟨j, hj, hjl⟩ := idxWorst_ok analog hne
    rw [List.length_map] at hjl
    dsimp only
    rw [hj, ok_bind]
    have e1 : idx prealIdx j = .ok prealIdx[j] := by
      unfold idx; rw [List.getElem?_eq_getElem hjl]
    rw [e1, ok_bind]
    have hmem0 : prealIdx[j] ∈ prealIdx := List.getElem_mem hjl
    generalize prealIdx[j] = e at hmem0
    have hmem := List.mem_filter.mp hmem0
    obtain ⟨hr2, hperm2⟩ := removeAt_ok (l := pr) (List.mk_mem_zipIdx_iff_getElem?.mp hmem.1)
    have him : e.1.im = 0 := by simpa using hmem.2
    rw [hr2]
    refine ⟨_, _, rfl, ?_, conjClosed_reals h him, fun t => ?_⟩
    · have := wts_perm hperm2
      rw [wts_cons, wt, if_pos him] at this
      omega
    · rw [← facs_perm hperm, facs_cons, ← facs_perm hperm2, facs_cons, fac, if_pos h, fac, if_pos him]
      ring
  · rw [if_neg h]
    rw [wt, if_neg h] at hw
    refine ⟨_, _, rfl, by omega, conjClosed_pair _, fun t => ?_⟩
    rw [← facs_perm hperm, facs_cons, fac, if_neg h]

/-- Without zeros, a pass makes a section with a double zero at the origin. -/
theorem pairStep_allpole (pairing : Pairing) (analog : Bool) (p : List ℂ) (sos : List (Sos ℝ))
    (hp : p ≠ []) :
    (pairing = .minimal ∧ wts p % 2 = 1 ∧ Panics (pairStep pairing analog ⟨[], p, sos⟩)) ∨
    (wts p % 2 = 1 ∧ pairing ≠ .minimal) ∨
    ∃ (p' : List ℂ) (s : Sos ℝ) (d : ℂ → ℂ), pairStep pairing analog ⟨[], p, sos⟩ = .ok ⟨[], p', sos ++ [s]⟩ ∧
      wts p' + 2 = wts p ∧ IsSection s (fun t => t ^ 2) d ∧ (∀ t, facs p t = d t * facs p' t) := by
  obtain ⟨i, p1, pr, hi, hr, hperm, h⟩ := poles_ok analog hp
  rcases h with h | ⟨hnl, p2, p', hsp, hw, hc, hf⟩
  · have hw := wts_perm hperm
    have hrc := wts_add_realCount pr
    rw [wts_cons, wt, if_pos h.1] at hw
    by_cases hm : pairing = .minimal
    · refine Or.inl ⟨hm, by omega, ?_⟩
      unfold pairStep
      dsimp only
      rw [hi, ok_bind, hr, ok_bind]
      dsimp only
      rw [if_pos h]
      unfold stepLastReal
      rw [if_pos hm]
      simp [nearestIdx, minBy, expect]
    · exact Or.inr (Or.inl ⟨by omega, hm⟩)
  · refine Or.inr (Or.inr ?_)
    unfold pairStep
    dsimp only
    rw [hi, ok_bind, hr, ok_bind]
    dsimp only
    rw [if_neg hnl, if_neg (by simp), hsp, ok_bind]
    unfold stepZeros
    dsimp only
    rw [if_neg (by simp)]
    obtain ⟨s, hs, hsec⟩ := single_ok (z := []) conjClosed_nil (by simp) hc
    rw [hs, ok_bind]
    refine ⟨p', s, _, rfl, hw, ?_, hf⟩
    simpa using hsec

/-- The zeros and poles left have the same even weight: no special case applies and a full section is
made. -/
theorem pairStep_even (pairing : Pairing) (analog : Bool) (st : PairState) (m : ℕ)
    (hz : wts st.z = 2 * (m + 1)) (hp : wts st.p = 2 * (m + 1)) :
    ∃ (z' p' : List ℂ) (s : Sos ℝ) (n d : ℂ → ℂ), pairStep pairing analog st = .ok ⟨z', p', st.sos ++ [s]⟩ ∧
      wts z' = 2 * m ∧ wts p' = 2 * m ∧ IsSection s n d ∧
      (∀ t, facs st.z t = n t * facs z' t) ∧ (∀ t, facs st.p t = d t * facs p' t) := by
  obtain ⟨z, p, sos⟩ := st
  dsimp only at hz hp ⊢
  obtain ⟨i, p1, pr, hi, hr, hperm, hch⟩ := poles_ok analog (ne_nil_of_wts (show 0 < wts p by omega))
  have hw := wts_perm hperm
  rw [wts_cons] at hw
  have hrc := wts_add_realCount pr
  rcases hch with hch | ⟨hnl, p2, p', hsp, hwp', hcp, hfp⟩
  · rw [wt, if_pos hch.1] at hw
    omega
  have hwp' : wts p' = 2 * m := by omega
  unfold pairStep
  dsimp only
  rw [hi, ok_bind, hr, ok_bind]
  dsimp only
  rw [if_neg hnl, if_neg, hsp, ok_bind]
  rotate_left
  · rintro ⟨-, h1, h2, -⟩
    rw [wt, if_neg h1] at hw
    omega
  -- the zeros
  unfold stepZeros
  dsimp only
  have hzne : z ≠ [] := ne_nil_of_wts (by omega)
  rw [if_pos hzne]
  obtain ⟨x0, hx0⟩ := List.exists_mem_of_ne_nil z hzne
  obtain ⟨iz, z1, hiz, hz1, -⟩ := nearestIdx_ok (t := p1) (w := .any) ⟨x0, hx0, trivial⟩
  obtain ⟨hrz, hpermz⟩ := removeAt_ok hz1
  rw [hiz, ok_bind, hrz, ok_bind]
  dsimp only
  set zr := z.eraseIdx iz
  have hwz := wts_perm hpermz
  rw [wts_cons] at hwz
  have hrczr := wts_add_realCount zr
  by_cases h : z1.im = 0
  · rw [if_neg (by simpa using h)]
    rw [wt, if_pos h] at hwz
    have hzr : 0 < realCount zr := by omega
    obtain ⟨y0, hy0, hy1⟩ := exists_real hzr
    rw [if_pos (List.ne_nil_of_mem hy0)]
    obtain ⟨iz2, z2, hiz2, hz2, hz2r⟩ := nearestIdx_ok (t := p1) (w := .real) ⟨y0, hy0, hy1⟩
    obtain ⟨hrz2, hpermz2⟩ := removeAt_ok hz2
    rw [hiz2, ok_bind, hrz2, ok_bind]
    have hz2i : z2.im = 0 := hz2r
    dsimp only
    rw [check_true hz2i, ok_bind]
    obtain ⟨s, hs, hsec⟩ := single_ok (conjClosed_reals h hz2i) (by simp) hcp
    rw [hs, ok_bind]
    refine ⟨_, _, s, _, _, rfl, ?_, hwp', hsec, fun t => ?_, fun t => hfp t⟩
    · have := wts_perm hpermz2
      rw [wts_cons, wt, if_pos hz2i] at this
      omega
    · rw [← facs_perm hpermz, facs_cons, ← facs_perm hpermz2, facs_cons, fac, if_pos h, fac, if_pos hz2i]
      simp
      ring
  · rw [if_pos h]
    rw [wt, if_neg h] at hwz
    obtain ⟨s, hs, hsec⟩ := single_ok (conjClosed_pair z1) (by simp) hcp
    rw [hs, ok_bind]
    refine ⟨_, _, s, _, _, rfl, by omega, hwp', hsec, fun t => ?_, fun t => hfp t⟩
    rw [← facs_perm hpermz, facs_cons, fac, if_neg h]
    simp

end SciRs.Design

namespace SciRs.Design

open Complex SciRs.Spec

/-! ### The loop -/

/-- A list of proper sections. -/
def Proper (l : List (Sos ℝ)) : Prop := ∀ s ∈ l, s.a0 = 1 ∧ s.zi0 = 0 ∧ s.zi1 = 0

theorem loop_even {α : Type} (pairing : Pairing) (analog : Bool) (l : List α) (st : PairState)
    (hz : wts st.z = 2 * l.length) (hp : wts st.p = 2 * l.length) :
    ∃ new, l.foldlM (fun st _ => pairStep pairing analog st) st = .ok ⟨[], [], st.sos ++ new⟩ ∧
      new.length = l.length ∧ Proper new ∧
      (∀ t, sosNum new t = facs st.z t) ∧ (∀ t, sosDen new t = facs st.p t) := by
  induction l generalizing st with
  | nil =>
    obtain ⟨z, p, sos⟩ := st
    dsimp only at hz hp
    have h1 := wts_eq_zero (l := z) (by simpa using hz)
    have h2 := wts_eq_zero (l := p) (by simpa using hp)
    subst h1; subst h2
    refine ⟨[], by simp [pure, Except.pure], rfl, by simp [Proper], fun t => ?_, fun t => ?_⟩
    · simp [sosNum, facs]
    · simp [sosDen, facs]
  | cons a l ih =>
    obtain ⟨z', p', s, n, d, e, hz', hp', hs, hn, hd⟩ := pairStep_even pairing analog st l.length hz hp
    obtain ⟨new, e2, hl, hpr, hN, hD⟩ := ih ⟨z', p', st.sos ++ [s]⟩ hz' hp'
    refine ⟨s :: new, ?_, by simp [hl], ?_, fun t => ?_, fun t => ?_⟩
    · rw [List.foldlM_cons, e, ok_bind, e2, List.append_assoc]
      rfl
    · intro x hx
      rcases List.mem_cons.mp hx with rfl | hx
      · exact ⟨hs.a0, hs.zi0, hs.zi1⟩
      · exact hpr x hx
    · rw [hn t, ← hN t, ← hs.num t]; simp [sosNum]
    · rw [hd t, ← hD t, ← hs.den t]; simp [sosDen]

theorem loop_allpole_even {α : Type} (pairing : Pairing) (analog : Bool) (l : List α) (p : List ℂ)
    (sos : List (Sos ℝ)) (hp : wts p = 2 * l.length) :
    ∃ new, l.foldlM (fun st _ => pairStep pairing analog st) ⟨[], p, sos⟩ = .ok ⟨[], [], sos ++ new⟩ ∧
      new.length = l.length ∧ Proper new ∧
      (∀ t, sosNum new t = t ^ (2 * l.length)) ∧ (∀ t, sosDen new t = facs p t) := by
  induction l generalizing p sos with
  | nil =>
    have h2 := wts_eq_zero (l := p) (by simpa using hp)
    subst h2
    refine ⟨[], by simp [pure, Except.pure], rfl, by simp [Proper], fun t => ?_, fun t => ?_⟩
    · simp [sosNum]
    · simp [sosDen, facs]
  | cons a l ih =>
    rw [List.length_cons] at hp
    rcases pairStep_allpole pairing analog p sos (ne_nil_of_wts (by omega)) with h | h | h
    · omega
    · omega
    · obtain ⟨p', s, d, e, hp', hs, hd⟩ := h
      obtain ⟨new, e2, hl, hpr, hN, hD⟩ := ih p' (sos ++ [s]) (by omega)
      refine ⟨s :: new, ?_, by simp [hl], ?_, fun t => ?_, fun t => ?_⟩
      · rw [List.foldlM_cons, e, ok_bind, e2, List.append_assoc]
        rfl
      · intro x hx
        rcases List.mem_cons.mp hx with rfl | hx
        · exact ⟨hs.a0, hs.zi0, hs.zi1⟩
        · exact hpr x hx
      · have : sosNum (s :: new) t = coeffVal [s.b0, s.b1, s.b2] t * sosNum new t := by simp [sosNum]
        rw [this, hN t, hs.num t, List.length_cons]
        ring
      · rw [hd t, ← hD t, ← hs.den t]; simp [sosDen]

theorem loop_allpole_odd {α : Type} (analog : Bool) (l : List α) (p : List ℂ)
    (sos : List (Sos ℝ)) (hp : wts p + 1 = 2 * l.length) :
    Panics (l.foldlM (fun st _ => pairStep .minimal analog st) ⟨[], p, sos⟩) := by
  induction l generalizing p sos with
  | nil => simp at hp
  | cons a l ih =>
    rw [List.length_cons] at hp
    rw [List.foldlM_cons]
    rcases pairStep_allpole .minimal analog p sos (ne_nil_of_wts (by omega)) with h | h | h
    · obtain ⟨-, -, e, hub, he⟩ := h
      rw [he]
      exact ⟨e, hub, rfl⟩
    · exact absurd rfl h.2
    · obtain ⟨p', s, d, e, hp', hs, hd⟩ := h
      rw [e, ok_bind]
      exact ih p' _ (by omega)

theorem reps_wts {z zc zr : List ℂ} (hc : ConjClosed z) (h1 : zc.Perm (up z)) (h2 : zr.Perm (onAxis z)) :
    wts (zc ++ zr) = z.length := by
  rw [wts_perm (h1.append h2)]
  have hl := (split_perm z).length_eq
  have hd := (conj_up hc).length_eq
  simp only [List.length_append, List.length_map] at hl hd
  have e1 : wts (up z) = 2 * (up z).length := by
    unfold wts
    rw [List.map_congr_left (g := fun _ => 2)]
    · simp [mul_comm]
    · intro x hx
      have : 0 < x.im := by simpa using (List.mem_filter.mp hx).2
      simp [wt, this.ne']
  have e2 : wts (onAxis z) = (onAxis z).length := by
    unfold wts
    rw [List.map_congr_left (g := fun _ => 1)]
    · simp
    · intro x hx
      have : x.im = 0 := by simpa using (List.mem_filter.mp hx).2
      simp [wt, this]
  have e3 : wts (up z ++ onAxis z) = wts (up z) + wts (onAxis z) := by simp [wts]
  omega

theorem reps_facs {z zc zr : List ℂ} (hc : ConjClosed z) (h1 : zc.Perm (up z)) (h2 : zr.Perm (onAxis z))
    (t : ℂ) : facs (zc ++ zr) t = (z.map (fun r => t - r)).prod := by
  rw [facs_perm (h1.append h2)]
  have hs := ((split_perm z).map (fun r => t - r)).prod_eq
  rw [← hs]
  have hd := ((conj_up hc).map (fun r => t - r)).prod_eq
  rw [List.map_append, List.map_append, List.prod_append, List.prod_append, hd, List.map_map]
  have e1 : facs (up z) t = ((up z).map (fun r => t - r)).prod *
      ((up z).map ((fun r => t - r) ∘ (starRingEnd ℂ))).prod := by
    rw [← prod_map_mul]
    unfold facs
    refine congrArg _ (List.map_congr_left (fun x hx => ?_))
    have : 0 < x.im := by simpa using (List.mem_filter.mp hx).2
    simp [fac, this.ne']
  have e2 : facs (onAxis z) t = ((onAxis z).map (fun r => t - r)).prod := by
    unfold facs
    refine congrArg _ (List.map_congr_left (fun x hx => ?_))
    have : x.im = 0 := by simpa using (List.mem_filter.mp hx).2
    simp [fac, this]
  have e3 : facs (up z ++ onAxis z) t = facs (up z) t * facs (onAxis z) t := by simp [facs]
  rw [e3, e1, e2]

theorem pairUp_even {eps : ℝ} (he : 0 ≤ eps) {s : Sorts} (hs : s.Correct) (pairing : Pairing)
    (analog : Bool) {z p : List ℂ} (k : ℝ) {n : ℕ} (hn : n ≠ 0) (hz : ConjClosed z) (hp : ConjClosed p)
    (hzs : Separated (eps * 100) z) (hps : Separated (eps * 100) p) (hzl : z.length = 2 * n)
    (hpl : p.length = 2 * n) :
    ∃ sos, pairUp eps s pairing analog z p k n = .ok sos ∧ sos.length = n ∧ Proper sos ∧
      (∀ t, sosNum sos t = k * (z.map (fun r => t - r)).prod) ∧
      (∀ t, sosDen sos t = (p.map (fun r => t - r)).prod) := by
  obtain ⟨zc, zr, ez, z1, z2⟩ := cplxreal_ok (t := none) hs (show 0 ≤ eps * 100 by positivity) hzs hz
  obtain ⟨pc, pr, ep, p1, p2⟩ := cplxreal_ok (t := none) hs (show 0 ≤ eps * 100 by positivity) hps hp
  unfold pairUp
  rw [ez, ep]
  simp only [ok_bind]
  obtain ⟨new, e, hl, hpr, hN, hD⟩ := loop_even pairing analog (List.range n) ⟨zc ++ zr, pc ++ pr, []⟩
    (by rw [List.length_range, ← hzl]; exact reps_wts hz z1 z2)
    (by rw [List.length_range, ← hpl]; exact reps_wts hp p1 p2)
  rw [e, ok_bind]
  dsimp only
  rw [check_true rfl, ok_bind, check_true rfl, ok_bind, List.nil_append]
  rw [List.length_range] at hl
  dsimp only at hN hD
  have hrev : ∀ t, sosNum new.reverse t = sosNum new t ∧ sosDen new.reverse t = sosDen new t := fun t =>
    ⟨((List.reverse_perm new).map _).prod_eq, ((List.reverse_perm new).map _).prod_eq⟩
  have hprr : Proper new.reverse := fun x hx => hpr x (List.mem_reverse.mp hx)
  have hlr : new.reverse.length = n := by rw [List.length_reverse, hl]
  generalize new.reverse = r at hrev hprr hlr
  match r, hlr with
  | [], h => exact absurd h.symm hn
  | s0 :: rest, h =>
    refine ⟨_, rfl, by simpa using h, ?_, fun t => ?_, fun t => ?_⟩
    · intro x hx
      rcases List.mem_cons.mp hx with rfl | hx
      · exact hprr s0 (by simp)
      · exact hprr x (by simp [hx])
    · rw [← reps_facs hz z1 z2 t, ← hN t, ← (hrev t).1]
      simp only [sosNum, List.map_cons, List.prod_cons, coeffVal_three]
      push_cast
      ring
    · rw [← reps_facs hp p1 p2 t, ← hD t, ← (hrev t).2]
      simp only [sosDen, List.map_cons, List.prod_cons]

/-! ### Padding -/

theorem conjClosed_pad {z : List ℂ} (h : ConjClosed z) (n : ℕ) : ConjClosed (z ++ List.replicate n 0) :=
  conjClosed_append h (by simpa using conjClosed_replicate_real n 0)

theorem separated_pad {e : ℝ} {z : List ℂ} (h : Separated e z) (n : ℕ) :
    Separated e (z ++ List.replicate n 0) := by
  intro x hx
  rcases List.mem_append.mp hx with hx | hx
  · exact h x hx
  · left; rw [(List.mem_replicate.mp hx).2]; simp

theorem prod_pad (z : List ℂ) (n : ℕ) (t : ℂ) :
    ((z ++ List.replicate n 0).map (fun r => t - r)).prod = (z.map (fun r => t - r)).prod * t ^ n := by
  simp

theorem pad_append (z : List ℂ) (n : ℕ) : (z ++ List.replicate n 0) ++ [0] = z ++ List.replicate (n + 1) 0 := by
  rw [List.append_assoc, List.replicate_succ']

end SciRs.Design

import Verif.Lemmas.Design.Zpk2sos
import Verif.Spec.SectionOrder

/-! # Lemmas about the order in which `zpk2sos_dyn` picks roots -/

namespace SciRs.Design

open Complex SciRs.Spec

theorem minBy_foldl_le (qs : List (ℕ × ℝ)) (q : ℕ × ℝ) :
    ∀ r ∈ q :: qs, (qs.foldl (fun m q => if q.2 < m.2 then q else m) q).2 ≤ r.2 := by
  induction qs generalizing q with
  | nil => intro r hr; simp at hr; rw [hr]; rfl
  | cons a qs ih =>
    rw [List.foldl_cons]
    have := ih (if a.2 < q.2 then a else q)
    intro r hr
    have h0 := this _ (List.mem_cons_self ..)
    rcases List.mem_cons.mp hr with rfl | hr
    · refine h0.trans ?_
      split_ifs with h
      · exact h.le
      · exact le_rfl
    · rcases List.mem_cons.mp hr with rfl | hr
      · refine h0.trans ?_
        split_ifs with h
        · exact le_rfl
        · exact not_lt.mp h
      · exact this r (List.mem_cons_of_mem _ hr)

/-- What `min_by` picks. -/
theorem pick_min {cand : List (ℂ × ℕ)} {key : ℂ → ℝ} {i : ℕ}
    (h : expect (minBy (cand.map (fun q => (q.2, key q.1)))) = .ok i) :
    ∃ q ∈ cand, q.2 = i ∧ ∀ r ∈ cand, key q.1 ≤ key r.1 := by
  cases hc : cand.map (fun q => (q.2, key q.1)) with
  | nil => rw [hc] at h; simp [minBy, expect] at h
  | cons a l =>
    rw [hc] at h
    have hm := minBy_foldl_mem l a
    have hl := minBy_foldl_le l a
    simp only [minBy, expect, Except.ok.injEq] at h
    generalize l.foldl (fun m q => if q.2 < m.2 then q else m) a = e at h hm hl
    rw [← hc] at hm hl
    obtain ⟨q, hq, rfl⟩ := List.mem_map.mp hm
    exact ⟨q, hq, h, fun r hr => hl _ (List.mem_map.mpr ⟨r, hr, rfl⟩)⟩

theorem idxWorst_min {analog : Bool} {p : List ℂ} {i : ℕ} (h : idxWorst analog p = .ok i) :
    ∃ x, p[i]? = some x ∧ ∀ y ∈ p, stabilityMargin analog x ≤ stabilityMargin analog y := by
  obtain ⟨q, hq, rfl, hl⟩ := pick_min (key := stabilityMargin analog) h
  refine ⟨q.1, List.mk_mem_zipIdx_iff_getElem?.mp hq, fun y hy => ?_⟩
  obtain ⟨j, hj, rfl⟩ := List.mem_iff_getElem.mp hy
  exact hl (p[j], j) (by rw [List.mk_mem_zipIdx_iff_getElem?, List.getElem?_eq_getElem hj])

theorem nearestIdx_min {fro : List ℂ} {t : ℂ} {w : Which} {i : ℕ} (h : nearestIdx fro t w = .ok i) :
    ∃ x, fro[i]? = some x ∧ Accepts w x ∧ ∀ y ∈ fro, Accepts w y → ‖x - t‖ ≤ ‖y - t‖ := by
  suffices H : ∀ cand : List (ℂ × ℕ), (∀ q, q ∈ cand ↔ q ∈ fro.zipIdx ∧ Accepts w q.1) →
      expect (minBy (cand.map (fun q => (q.2, ‖q.1 - t‖)))) = .ok i →
      ∃ x, fro[i]? = some x ∧ Accepts w x ∧ ∀ y ∈ fro, Accepts w y → ‖x - t‖ ≤ ‖y - t‖ by
    unfold nearestIdx at h
    cases w with
    | real => exact H _ (fun q => by rw [List.mem_filter]; simp [Accepts]) h
    | complex => exact H _ (fun q => by rw [List.mem_filter]; simp [Accepts]) h
    | any => exact H _ (fun q => by simp [Accepts]) h
  intro cand hc h
  obtain ⟨q, hq, rfl, hl⟩ := pick_min (key := fun x => ‖x - t‖) h
  obtain ⟨h1, h2⟩ := (hc q).mp hq
  refine ⟨q.1, List.mk_mem_zipIdx_iff_getElem?.mp h1, h2, fun y hy hw => ?_⟩
  obtain ⟨j, hj, rfl⟩ := List.mem_iff_getElem.mp hy
  exact hl (fro[j], j) ((hc _).mpr
    ⟨by rw [List.mk_mem_zipIdx_iff_getElem?, List.getElem?_eq_getElem hj], hw⟩)

/-- How the second of two roots of a section goes with the first, when `l'` are the roots left. -/
def Completes (key : ℂ → ℝ) (l l' : List ℂ) (q r : ℂ) : Prop :=
  (q.im ≠ 0 ∧ r = (starRingEnd ℂ) q) ∨
    (q.im = 0 ∧ r.im = 0 ∧ r ∈ l ∧ ∀ x ∈ l', x.im = 0 → key r ≤ key x)

/-- The choice of the two poles of a section. -/
theorem poles_greedy (analog : Bool) {p : List ℂ} (hp : p ≠ []) :
    ∃ i p1 pr, idxWorst analog p = .ok i ∧ removeAt p i = .ok (p1, pr) ∧ (p1 :: pr).Perm p ∧
      (∀ x ∈ p, stabilityMargin analog p1 ≤ stabilityMargin analog x) ∧
      ((p1.im = 0 ∧ realCount pr = 0) ∨
        (¬ (p1.im = 0 ∧ realCount pr = 0) ∧
        ∃ p2 p', secondPole analog pr p1 = .ok (p2, p') ∧ wts p' + 2 = wts p ∧ ConjClosed [p1, p2] ∧
          (∀ x ∈ p', x ∈ p) ∧ Completes (stabilityMargin analog) p p' p1 p2)) := by
  obtain ⟨i, hi, hil⟩ := idxWorst_ok analog hp
  obtain ⟨x1, hx1, hmin⟩ := idxWorst_min hi
  obtain ⟨hr, hperm⟩ := removeAt_ok hx1
  set pr := p.eraseIdx i with hpr
  refine ⟨i, x1, pr, hi, hr, hperm, hmin, ?_⟩
  by_cases hlast : x1.im = 0 ∧ realCount pr = 0
  · exact Or.inl hlast
  refine Or.inr ⟨hlast, ?_⟩
  have hw := wts_perm hperm
  rw [wts_cons] at hw
  have hsub : ∀ x ∈ pr, x ∈ p := fun x hx => hperm.mem_iff.mp (List.mem_cons_of_mem _ hx)
  unfold secondPole
  by_cases h : x1.im = 0
  · rw [if_pos h]
    rw [wt, if_pos h] at hw
    have hpos : 0 < realCount pr := Nat.pos_of_ne_zero (fun h0 => hlast ⟨h, h0⟩)
    obtain ⟨x, hx, hx0⟩ := exists_real hpos
    set prealIdx := pr.zipIdx.filter (fun q => decide (q.1.im = 0)) with hpi
    have hcand : ∀ y ∈ pr, y.im = 0 → y ∈ prealIdx.map (fun q => q.1) := by
      intro y hy hy0
      obtain ⟨j, hj, rfl⟩ := List.mem_iff_getElem.mp hy
      exact List.mem_map.mpr ⟨(pr[j], j), List.mem_filter.mpr
        ⟨by rw [List.mk_mem_zipIdx_iff_getElem?, List.getElem?_eq_getElem hj], by simpa using hy0⟩, rfl⟩
    have hne : prealIdx.map (fun q => q.1) ≠ [] := List.ne_nil_of_mem (hcand x hx hx0)
    obtain ⟨j, hj, hjl⟩ := idxWorst_ok analog hne
    obtain ⟨x2, hx2, hmin2⟩ := idxWorst_min hj
    rw [List.length_map] at hjl
    dsimp only
    rw [hj, ok_bind]
    have e1 : idx prealIdx j = .ok prealIdx[j] := by
      unfold idx; rw [List.getElem?_eq_getElem hjl]
    rw [e1, ok_bind]
    have hmem0 : prealIdx[j] ∈ prealIdx := List.getElem_mem hjl
    have hx2' : prealIdx[j].1 = x2 := by
      rw [List.getElem?_map, List.getElem?_eq_getElem hjl] at hx2
      simpa using hx2
    generalize prealIdx[j] = e at hmem0 hx2'
    subst hx2'
    have hmem := List.mem_filter.mp hmem0
    obtain ⟨hr2, hperm2⟩ := removeAt_ok (l := pr) (List.mk_mem_zipIdx_iff_getElem?.mp hmem.1)
    have him : e.1.im = 0 := by simpa using hmem.2
    rw [hr2]
    have hsub2 : ∀ x ∈ pr.eraseIdx e.2, x ∈ pr := fun x hx => hperm2.mem_iff.mp (List.mem_cons_of_mem _ hx)
    refine ⟨_, _, rfl, ?_, conjClosed_reals h him, fun x hx => hsub x (hsub2 x hx), Or.inr ⟨h, him, ?_, ?_⟩⟩
    · have := wts_perm hperm2
      rw [wts_cons, wt, if_pos him] at this
      omega
    · exact hsub _ (hperm2.mem_iff.mp (List.mem_cons_self ..))
    · exact fun y hy hy0 => hmin2 y (hcand y (hsub2 y hy) hy0)
  · rw [if_neg h]
    rw [wt, if_neg h] at hw
    exact ⟨_, _, rfl, by omega, conjClosed_pair _, hsub, Or.inl ⟨h, rfl⟩⟩

/-- One pass, when the zeros and poles left have the same even weight. -/
theorem pairStep_greedy (pairing : Pairing) (analog : Bool) (st : PairState) (m : ℕ)
    (hz : wts st.z = 2 * (m + 1)) (hp : wts st.p = 2 * (m + 1)) :
    ∃ (z' p' : List ℂ) (s : Sos ℝ) (q r w v : ℂ),
      pairStep pairing analog st = .ok ⟨z', p', st.sos ++ [s]⟩ ∧
      wts z' = 2 * m ∧ wts p' = 2 * m ∧
      IsSection s (fun x => (x - w) * (x - v)) (fun x => (x - q) * (x - r)) ∧
      q ∈ st.p ∧ (∀ x ∈ st.p, stabilityMargin analog q ≤ stabilityMargin analog x) ∧ (∀ x ∈ p', x ∈ st.p) ∧
      Completes (stabilityMargin analog) st.p p' q r ∧
      w ∈ st.z ∧ (∀ x ∈ st.z, ‖w - q‖ ≤ ‖x - q‖) ∧ (∀ x ∈ z', x ∈ st.z) ∧
      Completes (fun x => ‖x - q‖) st.z z' w v := by
  obtain ⟨z, p, sos⟩ := st
  dsimp only at hz hp ⊢
  obtain ⟨i, p1, pr, hi, hr, hperm, hmin, hch⟩ := poles_greedy analog (ne_nil_of_wts (show 0 < wts p by omega))
  have hw := wts_perm hperm
  rw [wts_cons] at hw
  have hrc := wts_add_realCount pr
  rcases hch with hch | ⟨hnl, p2, p', hsp, hwp', hcp, hsubp, hcomp⟩
  · rw [wt, if_pos hch.1] at hw
    omega
  have hwp' : wts p' = 2 * m := by omega
  have hp1 : p1 ∈ p := hperm.mem_iff.mp (List.mem_cons_self ..)
  unfold pairStep
  dsimp only
  rw [hi, ok_bind, hr, ok_bind]
  dsimp only
  rw [if_neg hnl, if_neg, hsp, ok_bind]
  rotate_left
  · rintro ⟨-, h1, h2, -⟩
    rw [wt, if_neg h1] at hw
    omega
  unfold stepZeros
  dsimp only
  have hzne : z ≠ [] := ne_nil_of_wts (by omega)
  rw [if_pos hzne]
  obtain ⟨x0, hx0⟩ := List.exists_mem_of_ne_nil z hzne
  obtain ⟨iz, z1, hiz, hz1, -⟩ := nearestIdx_ok (t := p1) (w := .any) ⟨x0, hx0, trivial⟩
  obtain ⟨z1', hz1', -, hminz⟩ := nearestIdx_min hiz
  obtain rfl : z1 = z1' := by rw [hz1] at hz1'; exact Option.some.inj hz1'
  obtain ⟨hrz, hpermz⟩ := removeAt_ok hz1
  rw [hiz, ok_bind, hrz, ok_bind]
  dsimp only
  set zr := z.eraseIdx iz
  have hwz := wts_perm hpermz
  rw [wts_cons] at hwz
  have hrczr := wts_add_realCount zr
  have hz1m : z1 ∈ z := hpermz.mem_iff.mp (List.mem_cons_self ..)
  have hsubz : ∀ x ∈ zr, x ∈ z := fun x hx => hpermz.mem_iff.mp (List.mem_cons_of_mem _ hx)
  have hminz' : ∀ x ∈ z, ‖z1 - p1‖ ≤ ‖x - p1‖ := fun x hx => hminz x hx trivial
  by_cases h : z1.im = 0
  · rw [if_neg (by simpa using h)]
    rw [wt, if_pos h] at hwz
    have hzr : 0 < realCount zr := by omega
    obtain ⟨y0, hy0, hy1⟩ := exists_real hzr
    rw [if_pos (List.ne_nil_of_mem hy0)]
    obtain ⟨iz2, z2, hiz2, hz2, hz2r⟩ := nearestIdx_ok (t := p1) (w := .real) ⟨y0, hy0, hy1⟩
    obtain ⟨z2', hz2', -, hminz2⟩ := nearestIdx_min hiz2
    obtain rfl : z2 = z2' := by rw [hz2] at hz2'; exact Option.some.inj hz2'
    obtain ⟨hrz2, hpermz2⟩ := removeAt_ok hz2
    rw [hiz2, ok_bind, hrz2, ok_bind]
    have hz2i : z2.im = 0 := hz2r
    dsimp only
    rw [check_true hz2i, ok_bind]
    obtain ⟨s, hs, hsec⟩ := single_ok (conjClosed_reals h hz2i) (by simp) hcp
    rw [hs, ok_bind]
    have hsub2 : ∀ x ∈ zr.eraseIdx iz2, x ∈ zr := fun x hx => hpermz2.mem_iff.mp (List.mem_cons_of_mem _ hx)
    refine ⟨_, _, s, p1, p2, z1, z2, rfl, ?_, hwp', by simpa using hsec, hp1, hmin, hsubp, hcomp, hz1m, hminz',
      fun x hx => hsubz x (hsub2 x hx), Or.inr ⟨h, hz2i, ?_, fun x hx hx0 => hminz2 x (hsub2 x hx) hx0⟩⟩
    · have := wts_perm hpermz2
      rw [wts_cons, wt, if_pos hz2i] at this
      omega
    · exact hsubz _ (hpermz2.mem_iff.mp (List.mem_cons_self ..))
  · rw [if_pos h]
    rw [wt, if_neg h] at hwz
    obtain ⟨s, hs, hsec⟩ := single_ok (conjClosed_pair z1) (by simp) hcp
    rw [hs, ok_bind]
    exact ⟨_, _, s, p1, p2, z1, _, rfl, by omega, hwp', by simpa using hsec, hp1, hmin, hsubp, hcomp, hz1m, hminz',
      hsubz, Or.inl ⟨h, rfl⟩⟩

/-- The sections in the order in which they are made, each chosen in preference to the later ones. -/
def GreedyList (margin : ℂ → ℝ) : List (Sos ℝ) → Prop
  | [] => True
  | s :: l => (∃ q r w v, Greedy margin l s q r w v) ∧ GreedyList margin l

theorem margin_conj (analog : Bool) (x : ℂ) :
    stabilityMargin analog ((starRingEnd ℂ) x) = stabilityMargin analog x := by
  unfold stabilityMargin
  rw [Complex.conj_re, Complex.norm_conj]

/-- A root in the upper half-plane is closer to a point there than its conjugate. -/
theorem conj_farther {x q : ℂ} (hx : 0 ≤ x.im) (hq : 0 ≤ q.im) : ‖x - q‖ ≤ ‖(starRingEnd ℂ) x - q‖ := by
  rw [← sq_le_sq₀ (norm_nonneg _) (norm_nonneg _), ← Complex.normSq_eq_norm_sq, ← Complex.normSq_eq_norm_sq,
    Complex.normSq_apply, Complex.normSq_apply]
  simp only [sub_re, sub_im, conj_re, conj_im]
  nlinarith [mul_nonneg hx hq]

theorem loop_greedy {α : Type} (pairing : Pairing) (analog : Bool) (l : List α) (st : PairState)
    (hz : wts st.z = 2 * l.length) (hp : wts st.p = 2 * l.length) (hz0 : ∀ x ∈ st.z, 0 ≤ x.im)
    (hp0 : ∀ x ∈ st.p, 0 ≤ x.im) :
    ∃ new, l.foldlM (fun st _ => pairStep pairing analog st) st = .ok ⟨[], [], st.sos ++ new⟩ ∧
      new.length = l.length ∧ GreedyList (stabilityMargin analog) new ∧
      (∀ s ∈ new, ∀ x, IsPole s x → x ∈ st.p ∨ (starRingEnd ℂ) x ∈ st.p) ∧
      (∀ s ∈ new, ∀ x, IsZero s x → x ∈ st.z ∨ (starRingEnd ℂ) x ∈ st.z) := by
  induction l generalizing st with
  | nil =>
    obtain ⟨z, p, sos⟩ := st
    dsimp only at hz hp
    have h1 := wts_eq_zero (l := z) (by simpa using hz)
    have h2 := wts_eq_zero (l := p) (by simpa using hp)
    subst h1; subst h2
    exact ⟨[], by simp [pure, Except.pure], rfl, trivial, by simp, by simp⟩
  | cons a l ih =>
    obtain ⟨z', p', s, q, r, w, v, e, hz', hp', hs, hq, hqm, hsp, hqr, hw, hwm, hsz, hwv⟩ :=
      pairStep_greedy pairing analog st l.length hz hp
    obtain ⟨new, e2, hl, hg, hP, hZ⟩ := ih ⟨z', p', st.sos ++ [s]⟩ hz' hp' (fun x hx => hz0 x (hsz x hx))
      (fun x hx => hp0 x (hsp x hx))
    dsimp only at hP hZ
    have hmem : ∀ {l l' : List ℂ} {key : ℂ → ℝ} {a b : ℂ}, a ∈ l → Completes key l l' a b →
        ∀ x, (x - a) * (x - b) = 0 → x ∈ l ∨ (starRingEnd ℂ) x ∈ l := by
      intro l l' key a b ha hab x hx
      rcases mul_eq_zero.mp hx with h | h
      · left; rwa [sub_eq_zero.mp h]
      · rw [sub_eq_zero.mp h]
        rcases hab with ⟨-, h⟩ | ⟨-, -, h, -⟩
        · right; rwa [h, Complex.conj_conj]
        · exact Or.inl h
    refine ⟨s :: new, ?_, by simp [hl], ⟨⟨q, r, w, v, ?_⟩, hg⟩, ?_, ?_⟩
    · rw [List.foldlM_cons, e, ok_bind, e2, List.append_assoc]
      rfl
    · have hpole : ∀ t ∈ new, ∀ x, IsPole t x → x.im = 0 → x ∈ p' := fun t ht x hx hx0 => by
        rcases hP t ht x hx with h | h
        · exact h
        · rwa [conj_of_real hx0] at h
      have hzero : ∀ t ∈ new, ∀ x, IsZero t x → x.im = 0 → x ∈ z' := fun t ht x hx hx0 => by
        rcases hZ t ht x hx with h | h
        · exact h
        · rwa [conj_of_real hx0] at h
      refine ⟨hs.den, ⟨1, one_ne_zero, fun x => by rw [one_mul]; exact hs.num x⟩, ⟨?_, ?_⟩, ?_, ?_, ⟨?_, ?_⟩, ?_, ?_⟩
      · rcases hqr with ⟨-, h⟩ | ⟨-, -, h, -⟩
        · rw [h, margin_conj]
        · exact hqm r h
      · intro t ht x hx
        rcases hP t ht x hx with h | h
        · exact hqm x (hsp x h)
        · rw [← margin_conj analog x]
          exact hqm _ (hsp _ h)
      · intro h
        rcases hqr with ⟨-, h'⟩ | ⟨h', -⟩
        · exact h'
        · exact absurd h' h
      · intro h
        rcases hqr with ⟨h', -⟩ | ⟨-, h1, -, h2⟩
        · exact absurd h h'
        · exact ⟨h1, fun t ht x hx hx0 => h2 x (hpole t ht x hx hx0) hx0⟩
      · rcases hwv with ⟨-, h⟩ | ⟨-, -, h, -⟩
        · rw [h]; exact conj_farther (hz0 _ hw) (hp0 _ hq)
        · exact hwm v h
      · intro t ht x hx
        rcases hZ t ht x hx with h | h
        · exact hwm x (hsz x h)
        · have h2 := conj_farther (hz0 _ (hsz _ h)) (hp0 _ hq)
          rw [Complex.conj_conj] at h2
          exact (hwm _ (hsz _ h)).trans h2
      · intro h
        rcases hwv with ⟨-, h'⟩ | ⟨h', -⟩
        · exact h'
        · exact absurd h' h
      · intro h
        rcases hwv with ⟨h', -⟩ | ⟨-, h1, -, h2⟩
        · exact absurd h h'
        · exact ⟨h1, fun t ht x hx hx0 => h2 x (hzero t ht x hx hx0) hx0⟩
    · intro t ht x hx
      rcases List.mem_cons.mp ht with rfl | ht
      · exact hmem hq hqr x ((hs.den x).symm.trans hx)
      · rcases hP t ht x hx with h | h
        · exact Or.inl (hsp _ h)
        · exact Or.inr (hsp _ h)
    · intro t ht x hx
      rcases List.mem_cons.mp ht with rfl | ht
      · exact hmem hw hwv x ((hs.num x).symm.trans hx)
      · rcases hZ t ht x hx with h | h
        · exact Or.inl (hsz _ h)
        · exact Or.inr (hsz _ h)

/-- Any section of a greedy list was chosen in preference to the later ones. -/
theorem greedyList_split {margin : ℂ → ℝ} : ∀ {l : List (Sos ℝ)}, GreedyList margin l →
    ∀ {l1 l2 : List (Sos ℝ)} {s : Sos ℝ}, l = l1 ++ s :: l2 → ∃ q r w v, Greedy margin l2 s q r w v
  | [], _, l1, l2, s, h => by simp at h
  | a :: l, hg, [], l2, s, h => by
    simp only [List.nil_append, List.cons.injEq] at h
    rw [← h.1, ← h.2]
    exact hg.1
  | a :: l, hg, b :: l1, l2, s, h => by
    simp only [List.cons_append, List.cons.injEq] at h
    exact greedyList_split hg.2 h.2

/-- Multiplying the numerators of other sections by a constant does not move their zeros. -/
theorem greedy_congr {margin : ℂ → ℝ} {l l' : List (Sos ℝ)} {s s' : Sos ℝ} {q r w v : ℂ}
    (h : Greedy margin l s q r w v)
    (hl : ∀ t' ∈ l', ∃ t ∈ l, (∀ x, IsPole t' x → IsPole t x) ∧ (∀ x, IsZero t' x → IsZero t x))
    (hd : ∀ x, coeffVal [s'.a0, s'.a1, s'.a2] x = coeffVal [s.a0, s.a1, s.a2] x)
    (hn : ∃ k : ℂ, k ≠ 0 ∧ ∀ x, coeffVal [s'.b0, s'.b1, s'.b2] x = k * coeffVal [s.b0, s.b1, s.b2] x) :
    Greedy margin l' s' q r w v := by
  obtain ⟨k, hk, hn⟩ := hn
  obtain ⟨c, hc, hz⟩ := h.zeros
  refine ⟨fun x => (hd x).trans (h.poles x), ⟨k * c, mul_ne_zero hk hc, fun x => ?_⟩, ⟨h.worst.1, ?_⟩, h.pole_pair,
    fun h0 => ⟨(h.pole_real h0).1, ?_⟩, ⟨h.nearest.1, ?_⟩, h.zero_pair, fun h0 => ⟨(h.zero_real h0).1, ?_⟩⟩
  · rw [hn x, hz x, mul_assoc]
  · intro t' ht' x hx
    obtain ⟨t, ht, h1, h2⟩ := hl t' ht'
    exact h.worst.2 t ht x (h1 x hx)
  · intro t' ht' x hx
    obtain ⟨t, ht, h1, h2⟩ := hl t' ht'
    exact (h.pole_real h0).2 t ht x (h1 x hx)
  · intro t' ht' x hx
    obtain ⟨t, ht, h1, h2⟩ := hl t' ht'
    exact h.nearest.2 t ht x (h2 x hx)
  · intro t' ht' x hx
    obtain ⟨t, ht, h1, h2⟩ := hl t' ht'
    exact (h.zero_real h0).2 t ht x (h2 x hx)

theorem reps_im {z zc zr : List ℂ} (h1 : zc.Perm (up z)) (h2 : zr.Perm (onAxis z)) :
    ∀ x ∈ zc ++ zr, 0 ≤ x.im := by
  intro x hx
  rcases List.mem_append.mp hx with hx | hx
  · have : 0 < x.im := by simpa using (List.mem_filter.mp (h1.mem_iff.mp hx)).2
    exact this.le
  · have : x.im = 0 := by simpa using (List.mem_filter.mp (h2.mem_iff.mp hx)).2
    exact this.ge

theorem pairUp_greedy {eps : ℝ} (he : 0 ≤ eps) {s : Sorts} (hs : s.Correct) (pairing : Pairing)
    (analog : Bool) {z p : List ℂ} {k : ℝ} (hk : k ≠ 0) {n : ℕ} (hn : n ≠ 0) (hz : ConjClosed z) (hp : ConjClosed p)
    (hzs : Separated (eps * 100) z) (hps : Separated (eps * 100) p) (hzl : z.length = 2 * n)
    (hpl : p.length = 2 * n) {sos : List (Sos ℝ)} (h : pairUp eps s pairing analog z p k n = .ok sos)
    {before after : List (Sos ℝ)} {c : Sos ℝ} (hsos : sos = before ++ c :: after) :
    ∃ q r w v, Greedy (stabilityMargin analog) before c q r w v := by
  obtain ⟨zc, zr, ez, z1, z2⟩ := cplxreal_ok (t := none) hs (show 0 ≤ eps * 100 by positivity) hzs hz
  obtain ⟨pc, pr, ep, p1, p2⟩ := cplxreal_ok (t := none) hs (show 0 ≤ eps * 100 by positivity) hps hp
  unfold pairUp at h
  rw [ez, ep] at h
  simp only [ok_bind] at h
  obtain ⟨new, e, hl, hg, -, -⟩ := loop_greedy pairing analog (List.range n) ⟨zc ++ zr, pc ++ pr, []⟩
    (by rw [List.length_range, ← hzl]; exact reps_wts hz z1 z2)
    (by rw [List.length_range, ← hpl]; exact reps_wts hp p1 p2) (reps_im z1 z2) (reps_im p1 p2)
  rw [e, ok_bind] at h
  dsimp only at h
  rw [check_true rfl, ok_bind, check_true rfl, ok_bind, List.nil_append] at h
  have hkc : (k : ℂ) ≠ 0 := by exact_mod_cast hk
  generalize hr : new.reverse = rv at h
  have hnew : new = rv.reverse := by rw [← hr, List.reverse_reverse]
  match rv, h with
  | [], h => cases h
  | s0 :: rest, h =>
    cases h
    cases before with
    | nil =>
      simp only [List.nil_append, List.cons.injEq] at hsos
      obtain ⟨rfl, rfl⟩ := hsos
      rw [List.reverse_cons] at hnew
      obtain ⟨q, r, w, v, hgr⟩ := greedyList_split hg hnew
      refine ⟨q, r, w, v, greedy_congr hgr (by simp) (fun x => rfl) ⟨k, hkc, fun x => ?_⟩⟩
      simp only [coeffVal_three]
      push_cast
      ring
    | cons b0 before =>
      simp only [List.cons_append, List.cons.injEq] at hsos
      obtain ⟨rfl, rfl⟩ := hsos
      rw [List.reverse_cons, List.reverse_append, List.reverse_cons, List.append_assoc, List.append_assoc,
        List.singleton_append] at hnew
      obtain ⟨q, r, w, v, hgr⟩ := greedyList_split hg hnew
      refine ⟨q, r, w, v, greedy_congr hgr ?_ (fun x => rfl) ⟨1, one_ne_zero, fun x => by rw [one_mul]⟩⟩
      intro t ht
      rcases List.mem_cons.mp ht with rfl | ht
      · refine ⟨s0, by simp, fun x hx => hx, fun x hx => ?_⟩
        unfold IsZero at hx ⊢
        simp only [coeffVal_three] at hx ⊢
        push_cast at hx
        refine (mul_eq_zero.mp (?_ : (k : ℂ) * _ = 0)).resolve_left hkc
        linear_combination hx
      · exact ⟨t, by simp [ht], fun x hx => hx, fun x hx => hx⟩

end SciRs.Design

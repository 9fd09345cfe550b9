import Verif.Lemmas.Design.Iirfilter

/-! # Lemmas about `zpk2sos_dyn` with the pairing `Minimal` -/

namespace SciRs.Design

open Complex SciRs.Spec

theorem nearestIdx_inv {fro : List ℂ} {t : ℂ} {w : Which} {i : ℕ} (h : nearestIdx fro t w = .ok i) :
    ∃ x, fro[i]? = some x ∧ Accepts w x := by
  by_cases hx : ∃ x ∈ fro, Accepts w x
  · obtain ⟨j, x, hj, hx, hw⟩ := nearestIdx_ok (t := t) hx
    rw [hj] at h
    cases h
    exact ⟨x, hx, hw⟩
  · exfalso
    push Not at hx
    have hnil : ∀ c : List (ℂ × ℕ), (∀ q ∈ c, q ∈ fro.zipIdx ∧ Accepts w q.1) → c = [] := by
      intro c hc
      cases c with
      | nil => rfl
      | cons q c =>
        obtain ⟨h1, h2⟩ := hc q (by simp)
        exact absurd h2 (hx _ (List.fst_mem_of_mem_zipIdx h1))
    unfold nearestIdx at h
    cases w with
    | real =>
      dsimp only at h
      rw [hnil (fro.zipIdx.filter _) (fun q hq => ⟨(List.mem_filter.mp hq).1, by
        simpa [Accepts] using (List.mem_filter.mp hq).2⟩)] at h
      simp [minBy, expect] at h
    | complex =>
      dsimp only at h
      rw [hnil (fro.zipIdx.filter _) (fun q hq => ⟨(List.mem_filter.mp hq).1, by
        simpa [Accepts] using (List.mem_filter.mp hq).2⟩)] at h
      simp [minBy, expect] at h
    | any =>
      dsimp only at h
      rw [hnil fro.zipIdx (fun q hq => ⟨hq, trivial⟩)] at h
      simp [minBy, expect] at h

/-- What one pass leaves of the roots `l`, when its section has the polynomial `n`. -/
structure Uses (l l' : List ℂ) (n : ℂ → ℂ) : Prop where
  le : wts l' ≤ wts l
  ge : wts l ≤ wts l' + 2
  fac : ∀ t, n t * facs l' t = facs l t * t ^ (2 + wts l' - wts l)

theorem uses_pair {l l' : List ℂ} {a b : ℂ} (h : wts l' + 2 = wts l)
    (hf : ∀ t, facs l t = (t - a) * (t - b) * facs l' t) : Uses l l' (fun t => (t - a) * (t - b)) :=
  ⟨by omega, by omega, fun t => by rw [hf, show 2 + wts l' - wts l = 0 by omega]; ring⟩

theorem uses_complex {l l' : List ℂ} {a : ℂ} (h : (a :: l').Perm l) (ha : a.im ≠ 0) :
    Uses l l' (fun t => (t - a) * (t - (starRingEnd ℂ) a)) := by
  have hw := wts_perm h
  rw [wts_cons, wt, if_neg ha] at hw
  refine uses_pair (by omega) (fun t => ?_)
  rw [← facs_perm h, facs_cons, fac, if_neg ha]

theorem uses_reals {l m l' : List ℂ} {a b : ℂ} (h : (a :: m).Perm l) (ha : a.im = 0) (h' : (b :: l').Perm m)
    (hb : b.im = 0) : Uses l l' (fun t => (t - a) * (t - b)) := by
  have hw := wts_perm h
  have hw' := wts_perm h'
  rw [wts_cons, wt, if_pos ha] at hw
  rw [wts_cons, wt, if_pos hb] at hw'
  refine uses_pair (by omega) (fun t => ?_)
  rw [← facs_perm h, facs_cons, ← facs_perm h', facs_cons, fac, fac, if_pos ha, if_pos hb]
  ring

theorem uses_real {l l' : List ℂ} {a : ℂ} (h : (a :: l').Perm l) (ha : a.im = 0) :
    Uses l l' (fun t => (t - a) * t) := by
  have hw := wts_perm h
  rw [wts_cons, wt, if_pos ha] at hw
  refine ⟨by omega, by omega, fun t => ?_⟩
  rw [← facs_perm h, facs_cons, fac, if_pos ha, ← wts_perm h, wts_cons, wt, if_pos ha,
    show 2 + wts l' - (1 + wts l') = 1 by omega]
  ring

theorem uses_none : Uses [] [] (fun t => t ^ 2) :=
  ⟨by simp, by simp, fun t => by simp [facs]⟩

theorem conjClosed_real {x : ℂ} (hx : x.im = 0) : ConjClosed [x] := by
  simp [ConjClosed, conj_of_real hx]

/-- Zeros: whichever branch is taken, a pass that succeeds uses up what it puts into the section. -/
theorem stepZeros_sound {st st' : PairState} {p1 p2 : ℂ} (hc : ConjClosed [p1, p2])
    (h : stepZeros st p1 p2 = .ok st') :
    ∃ (s : Sos ℝ) (n : ℂ → ℂ), st'.sos = st.sos ++ [s] ∧ st'.p = st.p ∧
      IsSection s n (fun t => (t - p1) * (t - p2)) ∧ Uses st.z st'.z n := by
  unfold stepZeros at h
  split_ifs at h with hz
  · obtain ⟨i, hi, h⟩ := bind_eq_ok.mp h
    obtain ⟨z1, hz1, -⟩ := nearestIdx_inv hi
    obtain ⟨hr, hperm⟩ := removeAt_ok hz1
    rw [hr, ok_bind] at h
    dsimp only at h
    split_ifs at h with h1 h2
    · obtain ⟨s, hs, hsec⟩ := single_ok (conjClosed_pair z1) (by simp) hc
      rw [hs, ok_bind] at h
      cases h
      refine ⟨s, _, rfl, rfl, hsec, ?_⟩
      simpa using uses_complex hperm h1
    · obtain ⟨j, hj, h⟩ := bind_eq_ok.mp h
      obtain ⟨z2, hz2, hz2r⟩ := nearestIdx_inv hj
      obtain ⟨hr2, hperm2⟩ := removeAt_ok hz2
      have hz2i : z2.im = 0 := hz2r
      have hz1i : z1.im = 0 := by simpa using h1
      rw [hr2, ok_bind] at h
      dsimp only at h
      rw [check_true hz2i, ok_bind] at h
      obtain ⟨s, hs, hsec⟩ := single_ok (conjClosed_reals hz1i hz2i) (by simp) hc
      rw [hs, ok_bind] at h
      cases h
      refine ⟨s, _, rfl, rfl, hsec, ?_⟩
      simpa using uses_reals hperm hz1i hperm2 hz2i
    · have hz1i : z1.im = 0 := by simpa using h1
      obtain ⟨s, hs, hsec⟩ := single_ok (conjClosed_real hz1i) (by simp) hc
      rw [hs, ok_bind] at h
      cases h
      refine ⟨s, _, rfl, rfl, hsec, ?_⟩
      simpa using uses_real hperm hz1i
  · have hz : st.z = [] := by simpa using hz
    obtain ⟨s, hs, hsec⟩ := single_ok (z := []) conjClosed_nil (by simp) hc
    rw [hs, ok_bind] at h
    cases h
    refine ⟨s, _, rfl, rfl, hsec, ?_⟩
    dsimp only
    rw [hz]
    simpa using uses_none

/-- A pass with the pairing `Minimal` that succeeds. -/
theorem pairStep_minimal_sound {analog : Bool} {st st' : PairState}
    (h : pairStep .minimal analog st = .ok st') :
    ∃ (s : Sos ℝ) (n d : ℂ → ℂ), st'.sos = st.sos ++ [s] ∧ IsSection s n d ∧ Uses st.z st'.z n ∧
      Uses st.p st'.p d := by
  have hp : st.p ≠ [] := by
    intro h0
    unfold pairStep at h
    rw [h0] at h
    simp [idxWorst, minBy, expect] at h
  obtain ⟨i, p1, pr, hi, hr, hperm, hch⟩ := poles_ok analog hp
  unfold pairStep at h
  rw [hi, ok_bind, hr, ok_bind] at h
  dsimp only at h
  rcases hch with hch | ⟨hnl, p2, p', hsp, hw, hcp, hfp⟩
  · rw [if_pos hch] at h
    unfold stepLastReal at h
    rw [if_pos rfl] at h
    dsimp only at h
    obtain ⟨j, hj, h⟩ := bind_eq_ok.mp h
    obtain ⟨z1, hz1, hz1r⟩ := nearestIdx_inv hj
    obtain ⟨hrz, hpermz⟩ := removeAt_ok hz1
    have hz1i : z1.im = 0 := hz1r
    rw [hrz, ok_bind] at h
    obtain ⟨s, hs, hsec⟩ := single_ok (z := [z1, 0]) (conjClosed_reals hz1i (by simp)) (by simp)
      (conjClosed_reals hch.1 (show (0 : ℂ).im = 0 by simp))
    rw [hs, ok_bind] at h
    cases h
    refine ⟨s, _, _, rfl, hsec, ?_, ?_⟩
    · simpa using uses_real hpermz hz1i
    · simpa using uses_real hperm hch.1
  · rw [if_neg hnl] at h
    split_ifs at h with h2
    · unfold stepComplex at h
      dsimp only at h
      obtain ⟨j, hj, h⟩ := bind_eq_ok.mp h
      obtain ⟨z1, hz1, hz1r⟩ := nearestIdx_inv hj
      obtain ⟨hrz, hpermz⟩ := removeAt_ok hz1
      rw [hrz, ok_bind] at h
      obtain ⟨s, hs, hsec⟩ := single_ok (conjClosed_pair z1) (by simp) (conjClosed_pair p1)
      rw [hs, ok_bind] at h
      cases h
      refine ⟨s, _, _, rfl, hsec, ?_, uses_complex hperm h2.2.1⟩
      simpa using uses_complex hpermz hz1r
    · rw [hsp, ok_bind] at h
      obtain ⟨s, n, e1, e2, hsec, hu⟩ := stepZeros_sound hcp h
      refine ⟨s, n, _, e1, hsec, hu, ?_⟩
      rw [e2]
      exact uses_pair hw hfp

theorem loop_minimal_sound {α : Type} {analog : Bool} (l : List α) {st st' : PairState}
    (h : l.foldlM (fun st _ => pairStep .minimal analog st) st = .ok st') :
    ∃ new, st'.sos = st.sos ++ new ∧ new.length = l.length ∧ Proper new ∧
      (wts st'.z ≤ wts st.z ∧ wts st.z ≤ wts st'.z + 2 * l.length) ∧
      (wts st'.p ≤ wts st.p ∧ wts st.p ≤ wts st'.p + 2 * l.length) ∧
      (∀ t, sosNum new t * facs st'.z t = facs st.z t * t ^ (2 * l.length + wts st'.z - wts st.z)) ∧
      (∀ t, sosDen new t * facs st'.p t = facs st.p t * t ^ (2 * l.length + wts st'.p - wts st.p)) := by
  induction l generalizing st with
  | nil =>
    simp only [List.foldlM_nil, pure, Except.pure, Except.ok.injEq] at h
    subst h
    exact ⟨[], by simp, rfl, by simp [Proper], by simp, by simp, fun t => by simp [sosNum], fun t => by simp [sosDen]⟩
  | cons a l ih =>
    rw [List.foldlM_cons] at h
    obtain ⟨st1, h1, h⟩ := bind_eq_ok.mp h
    obtain ⟨s, n, d, es, hsec, hz, hp⟩ := pairStep_minimal_sound h1
    obtain ⟨new, e, hl, hpr, hz', hp', hN, hD⟩ := ih h
    refine ⟨s :: new, by rw [e, es]; simp, by simp [hl], ?_, ?_, ?_, fun t => ?_, fun t => ?_⟩
    · intro x hx
      rcases List.mem_cons.mp hx with rfl | hx
      · exact ⟨hsec.a0, hsec.zi0, hsec.zi1⟩
      · exact hpr x hx
    · have := hz.le; have := hz.ge; rw [List.length_cons]; omega
    · have := hp.le; have := hp.ge; rw [List.length_cons]; omega
    · have e1 : sosNum (s :: new) t = n t * sosNum new t := by rw [← hsec.num t]; simp [sosNum]
      have := hz.le; have := hz.ge
      rw [e1, mul_assoc, hN t, ← mul_assoc, hz.fac t, mul_assoc, ← pow_add, List.length_cons]
      congr 2; omega
    · have e1 : sosDen (s :: new) t = d t * sosDen new t := by rw [← hsec.den t]; simp [sosDen]
      have := hp.le; have := hp.ge
      rw [e1, mul_assoc, hD t, ← mul_assoc, hp.fac t, mul_assoc, ← pow_add, List.length_cons]
      congr 2; omega

/-! ### When it returns -/

/-- Zeros that can always be handed out in twos: an even number, or real ones only. -/
def Handy (z : List ℂ) : Prop := wts z % 2 = 0 ∨ ∀ x ∈ z, x.im = 0

theorem handy_reals {z : List ℂ} (h : ∀ x ∈ z, x.im = 0) {l : List ℂ} (hl : ∀ x ∈ l, x ∈ z) : Handy l :=
  Or.inr (fun x hx => h x (hl x hx))

theorem stepZeros_ok (st : PairState) {p1 p2 : ℂ} (hc : ConjClosed [p1, p2]) (hz : Handy st.z) :
    ∃ st', stepZeros st p1 p2 = .ok st' ∧ st'.p = st.p ∧ Handy st'.z ∧ wts st'.z = wts st.z - 2 := by
  obtain ⟨z, p, sos⟩ := st
  dsimp only at hz ⊢
  unfold stepZeros
  dsimp only
  by_cases hzne : z = []
  · subst hzne
    rw [if_neg (by simp)]
    obtain ⟨s, hs, -⟩ := single_ok (z := []) conjClosed_nil (by simp) hc
    rw [hs, ok_bind]
    exact ⟨_, rfl, rfl, hz, by simp [wts]⟩
  rw [if_pos hzne]
  obtain ⟨x0, hx0⟩ := List.exists_mem_of_ne_nil z hzne
  obtain ⟨iz, z1, hiz, hz1, -⟩ := nearestIdx_ok (t := p1) (w := .any) ⟨x0, hx0, trivial⟩
  obtain ⟨hrz, hpermz⟩ := removeAt_ok hz1
  rw [hiz, ok_bind, hrz, ok_bind]
  dsimp only
  set zr := z.eraseIdx iz
  have hwz := wts_perm hpermz
  rw [wts_cons] at hwz
  have hrczr := wts_add_realCount zr
  have hmem : ∀ x ∈ z1 :: zr, x ∈ z := fun x hx => hpermz.mem_iff.mp hx
  by_cases h : z1.im = 0
  · rw [if_neg (by simpa using h)]
    rw [wt, if_pos h] at hwz
    by_cases hnil : zr = []
    · rw [if_neg (by simpa using hnil)]
      obtain ⟨s, hs, -⟩ := single_ok (conjClosed_real h) (by simp) hc
      rw [hs, ok_bind]
      refine ⟨_, rfl, rfl, ?_, ?_⟩
      · dsimp only; rw [hnil]; exact Or.inl rfl
      · have : wts zr = 0 := by rw [hnil]; rfl
        dsimp only; omega
    rw [if_pos hnil]
    have hex : ∃ y ∈ zr, y.im = 0 := by
      rcases hz with hz | hz
      · exact exists_real (by omega)
      · obtain ⟨y, hy⟩ := List.exists_mem_of_ne_nil zr hnil
        exact ⟨y, hy, hz y (hmem y (by simp [hy]))⟩
    obtain ⟨y0, hy0, hy1⟩ := hex
    obtain ⟨iz2, z2, hiz2, hz2, hz2r⟩ := nearestIdx_ok (t := p1) (w := .real) ⟨y0, hy0, hy1⟩
    obtain ⟨hrz2, hpermz2⟩ := removeAt_ok hz2
    rw [hiz2, ok_bind, hrz2, ok_bind]
    have hz2i : z2.im = 0 := hz2r
    dsimp only
    rw [check_true hz2i, ok_bind]
    obtain ⟨s, hs, hsec⟩ := single_ok (conjClosed_reals h hz2i) (by simp) hc
    rw [hs, ok_bind]
    have hw2 := wts_perm hpermz2
    rw [wts_cons, wt, if_pos hz2i] at hw2
    refine ⟨_, rfl, rfl, ?_, by dsimp only; omega⟩
    rcases hz with hz | hz
    · exact Or.inl (by dsimp only; omega)
    · exact handy_reals hz (fun x hx => hmem x (List.mem_cons_of_mem _ (hpermz2.mem_iff.mp
        (List.mem_cons_of_mem _ hx))))
  · rw [if_pos h]
    rw [wt, if_neg h] at hwz
    obtain ⟨s, hs, hsec⟩ := single_ok (conjClosed_pair z1) (by simp) hc
    rw [hs, ok_bind]
    refine ⟨_, rfl, rfl, ?_, by dsimp only; omega⟩
    rcases hz with hz | hz
    · exact Or.inl (by dsimp only; omega)
    · exact absurd (hz z1 (hmem z1 (by simp))) h

theorem pairStep_handy (pairing : Pairing) (analog : Bool) (st : PairState) (m : ℕ)
    (hp : wts st.p = 2 * (m + 1)) (hz : Handy st.z) :
    ∃ st', pairStep pairing analog st = .ok st' ∧ wts st'.p = 2 * m ∧ Handy st'.z ∧ wts st'.z = wts st.z - 2 := by
  obtain ⟨i, p1, pr, hi, hr, hperm, hch⟩ := poles_ok analog (ne_nil_of_wts (show 0 < wts st.p by omega))
  have hw := wts_perm hperm
  rw [wts_cons] at hw
  have hrc := wts_add_realCount pr
  rcases hch with hch | ⟨hnl, p2, p', hsp, hwp', hcp, hfp⟩
  · rw [wt, if_pos hch.1] at hw
    omega
  unfold pairStep
  dsimp only
  rw [hi, ok_bind, hr, ok_bind]
  dsimp only
  rw [if_neg hnl, if_neg, hsp, ok_bind]
  · obtain ⟨st', e, h1, h2, h3⟩ := stepZeros_ok { st with p := p' } hcp hz
    exact ⟨st', e, by rw [h1]; dsimp only; omega, h2, h3⟩
  · rintro ⟨-, h1, h2, -⟩
    rw [wt, if_neg h1] at hw
    omega

theorem loop_handy {α : Type} (pairing : Pairing) (analog : Bool) (l : List α) (st : PairState)
    (hp : wts st.p = 2 * l.length) (hz : Handy st.z) (hle : wts st.z ≤ 2 * l.length) :
    ∃ st', l.foldlM (fun st _ => pairStep pairing analog st) st = .ok st' ∧ st'.z = [] ∧ st'.p = [] := by
  induction l generalizing st with
  | nil =>
    exact ⟨st, rfl, wts_eq_zero (by simpa using hle), wts_eq_zero (by simpa using hp)⟩
  | cons a l ih =>
    rw [List.length_cons] at hp hle
    obtain ⟨st1, e, h1, h2, h3⟩ := pairStep_handy pairing analog st l.length hp hz
    obtain ⟨st2, e2, h4, h5⟩ := ih st1 h1 h2 (by omega)
    exact ⟨st2, by rw [List.foldlM_cons, e, ok_bind, e2], h4, h5⟩

/-- One real pole among an odd number, and as many zeros. -/
theorem loop_one_real {α : Type} (analog : Bool) (l : List α) (st : PairState)
    (hp : wts st.p + 1 = 2 * l.length) (hz : wts st.z = wts st.p) (hone : realCount st.p = 1) :
    ∃ st', l.foldlM (fun st _ => pairStep .minimal analog st) st = .ok st' ∧ st'.z = [] ∧ st'.p = [] := by
  induction l generalizing st with
  | nil => simp at hp
  | cons a l ih =>
    rw [List.length_cons] at hp
    have hpne : st.p ≠ [] := by intro h0; rw [h0] at hone; simp [realCount] at hone
    obtain ⟨i, p1, pr, hi, hr, hperm, hch⟩ := poles_ok analog hpne
    have hw := wts_perm hperm
    have hrcp := realCount_perm hperm
    have hlen := hperm.length_eq
    rw [wts_cons] at hw
    rw [List.length_cons] at hlen
    have hrz := wts_add_realCount st.z
    have hrp := wts_add_realCount st.p
    have hrr := wts_add_realCount pr
    rw [List.foldlM_cons]
    rcases hch with hch | ⟨hnl, p2, p', hsp, hwp', hcp, hfp⟩
    · rw [wt, if_pos hch.1] at hw
      obtain ⟨y0, hy0, hy1⟩ := exists_real (l := st.z) (by omega)
      obtain ⟨j, z1, hj, hz1, hz1r⟩ := nearestIdx_ok (t := p1) (w := .real) ⟨y0, hy0, hy1⟩
      obtain ⟨hrz, hpermz⟩ := removeAt_ok hz1
      have hz1i : z1.im = 0 := hz1r
      obtain ⟨s, hs, -⟩ := single_ok (z := [z1, 0]) (conjClosed_reals hz1i (by simp)) (by simp)
        (conjClosed_reals hch.1 (show (0 : ℂ).im = 0 by simp))
      have e : pairStep .minimal analog st =
          .ok ⟨st.z.eraseIdx j, pr, st.sos ++ [s]⟩ := by
        unfold pairStep
        rw [hi, ok_bind, hr, ok_bind]
        dsimp only
        rw [if_pos hch]
        unfold stepLastReal
        rw [if_pos rfl]
        dsimp only
        rw [hj, ok_bind, hrz, ok_bind, hs, ok_bind]
        rfl
      rw [e, ok_bind]
      have hwz := wts_perm hpermz
      rw [wts_cons, wt, if_pos hz1i] at hwz
      exact loop_handy .minimal analog l _ (by dsimp only; omega) (Or.inl (by dsimp only; omega)) (by dsimp only; omega)
    · have hc1 : p1.im ≠ 0 := by
        intro h0
        rw [realCount_cons_real h0] at hrcp
        exact hnl ⟨h0, by omega⟩
      rw [realCount_cons_complex hc1] at hrcp
      rw [wt, if_neg hc1] at hw
      have hsp' : p2 = (starRingEnd ℂ) p1 ∧ p' = pr := by
        unfold secondPole at hsp
        rw [if_neg hc1] at hsp
        cases hsp
        exact ⟨rfl, rfl⟩
      by_cases hz1c : realCount st.z = 1
      · have hcz : ∃ x ∈ st.z, x.im ≠ 0 := by
          by_contra hno
          push Not at hno
          have : realCount st.z = st.z.length := by
            unfold realCount
            rw [List.filter_eq_self.mpr (fun x hx => by simpa using hno x hx)]
          omega
        obtain ⟨y0, hy0, hy1⟩ := hcz
        obtain ⟨j, z1, hj, hz1, hz1r⟩ := nearestIdx_ok (t := p1) (w := .complex) ⟨y0, hy0, hy1⟩
        obtain ⟨hrz, hpermz⟩ := removeAt_ok hz1
        have hz1i : z1.im ≠ 0 := hz1r
        obtain ⟨s, hs, -⟩ := single_ok (conjClosed_pair z1) (by simp) (conjClosed_pair p1)
        have e : pairStep .minimal analog st =
            .ok ⟨st.z.eraseIdx j, pr, st.sos ++ [s]⟩ := by
          unfold pairStep
          rw [hi, ok_bind, hr, ok_bind]
          dsimp only
          rw [if_neg hnl, if_pos ⟨by omega, hc1, by omega, hz1c⟩]
          unfold stepComplex
          dsimp only
          rw [hj, ok_bind, hrz, ok_bind, hs, ok_bind]
          rfl
        rw [e, ok_bind]
        have hwz := wts_perm hpermz
        rw [wts_cons, wt, if_neg hz1i] at hwz
        exact ih _ (by dsimp only; omega) (by dsimp only; omega) (by dsimp only; omega)
      · have e : pairStep .minimal analog st = stepZeros { st with p := pr } p1 p2 := by
          unfold pairStep
          rw [hi, ok_bind, hr, ok_bind]
          dsimp only
          rw [if_neg hnl, if_neg (fun h => hz1c h.2.2.2), hsp, ok_bind, hsp'.2]
        have e2 : ∃ st', stepZeros { st with p := pr } p1 p2 = .ok st' ∧ st'.p = pr ∧ wts st'.z + 2 = wts st.z := by
          unfold stepZeros
          dsimp only
          have hzne : st.z ≠ [] := ne_nil_of_wts (by omega)
          rw [if_pos hzne]
          obtain ⟨x0, hx0⟩ := List.exists_mem_of_ne_nil st.z hzne
          obtain ⟨iz, z1, hiz, hz1, -⟩ := nearestIdx_ok (t := p1) (w := .any) ⟨x0, hx0, trivial⟩
          obtain ⟨hrz', hpermz⟩ := removeAt_ok hz1
          rw [hiz, ok_bind, hrz', ok_bind]
          dsimp only
          have hwz := wts_perm hpermz
          rw [wts_cons] at hwz
          have hrcz := realCount_perm hpermz
          by_cases h : z1.im = 0
          · rw [if_neg (by simpa using h)]
            rw [wt, if_pos h] at hwz
            rw [realCount_cons_real h] at hrcz
            obtain ⟨y0, hy0, hy1⟩ := exists_real (l := st.z.eraseIdx iz) (by omega)
            rw [if_pos (List.ne_nil_of_mem hy0)]
            obtain ⟨iz2, z2, hiz2, hz2, hz2r⟩ := nearestIdx_ok (t := p1) (w := .real) ⟨y0, hy0, hy1⟩
            obtain ⟨hrz2, hpermz2⟩ := removeAt_ok hz2
            rw [hiz2, ok_bind, hrz2, ok_bind]
            have hz2i : z2.im = 0 := hz2r
            dsimp only
            rw [check_true hz2i, ok_bind]
            obtain ⟨s, hs, hsec⟩ := single_ok (conjClosed_reals h hz2i) (by simp) hcp
            rw [hs, ok_bind]
            have hw2 := wts_perm hpermz2
            rw [wts_cons, wt, if_pos hz2i] at hw2
            exact ⟨_, rfl, rfl, by dsimp only; omega⟩
          · rw [if_pos h]
            rw [wt, if_neg h] at hwz
            obtain ⟨s, hs, hsec⟩ := single_ok (conjClosed_pair z1) (by simp) hcp
            rw [hs, ok_bind]
            exact ⟨_, rfl, rfl, by dsimp only; omega⟩
        obtain ⟨st', e2, h1, h2⟩ := e2
        rw [e, e2, ok_bind]
        exact ih st' (by rw [h1]; omega) (by rw [h1]; omega) (by rw [h1]; omega)

/-- No real zero for the last real pole. -/
theorem loop_no_real_zero {α : Type} {analog : Bool} (l : List α) {st st' : PairState}
    (hp : wts st.p % 2 = 1) (hz : ∀ x ∈ st.z, x.im ≠ 0)
    (h : l.foldlM (fun st _ => pairStep .minimal analog st) st = .ok st') : wts st'.p % 2 = 1 := by
  induction l generalizing st with
  | nil =>
    simp only [List.foldlM_nil, pure, Except.pure, Except.ok.injEq] at h
    rw [← h]
    exact hp
  | cons a l ih =>
    rw [List.foldlM_cons] at h
    obtain ⟨st1, h1, h⟩ := bind_eq_ok.mp h
    have hpne := ne_nil_of_wts (show 0 < wts st.p by omega)
    obtain ⟨i, p1, pr, hi, hr, hperm, hch⟩ := poles_ok analog hpne
    have hw := wts_perm hperm
    rw [wts_cons] at hw
    unfold pairStep at h1
    rw [hi, ok_bind, hr, ok_bind] at h1
    dsimp only at h1
    rcases hch with hch | ⟨hnl, p2, p', hsp, hwp', hcp, hfp⟩
    · rw [if_pos hch] at h1
      unfold stepLastReal at h1
      rw [if_pos rfl] at h1
      dsimp only at h1
      obtain ⟨j, hj, h1⟩ := bind_eq_ok.mp h1
      obtain ⟨z1, hz1, hz1r⟩ := nearestIdx_inv hj
      exact absurd hz1r (hz z1 (List.mem_of_getElem? hz1))
    · have hsub : ∀ {j : ℕ}, ∀ x ∈ st.z.eraseIdx j, x.im ≠ 0 := fun x hx => hz x (List.mem_of_mem_eraseIdx hx)
      rw [if_neg hnl] at h1
      split_ifs at h1 with h2
      · unfold stepComplex at h1
        dsimp only at h1
        obtain ⟨j, hj, h1⟩ := bind_eq_ok.mp h1
        obtain ⟨z1, hz1, hz1r⟩ := nearestIdx_inv hj
        obtain ⟨hrz, hpermz⟩ := removeAt_ok hz1
        rw [hrz, ok_bind] at h1
        obtain ⟨s, hs, h1⟩ := bind_eq_ok.mp h1
        cases h1
        refine ih ?_ hsub h
        rw [wt, if_neg h2.2.1] at hw
        dsimp only
        omega
      · rw [hsp, ok_bind] at h1
        unfold stepZeros at h1
        dsimp only at h1
        split_ifs at h1 with hzn
        · obtain ⟨j, hj, h1⟩ := bind_eq_ok.mp h1
          obtain ⟨z1, hz1, -⟩ := nearestIdx_inv hj
          obtain ⟨hrz, hpermz⟩ := removeAt_ok hz1
          rw [hrz, ok_bind] at h1
          dsimp only at h1
          rw [if_pos (hz z1 (List.mem_of_getElem? hz1))] at h1
          obtain ⟨s, hs, h1⟩ := bind_eq_ok.mp h1
          cases h1
          exact ih (by dsimp only; omega) hsub h
        · obtain ⟨s, hs, h1⟩ := bind_eq_ok.mp h1
          cases h1
          exact ih (st := ⟨st.z, p', st.sos ++ [s]⟩) (by dsimp only; omega) hz h

end SciRs.Design

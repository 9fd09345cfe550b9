import Verif.Lemmas.IeeeLimitDesign
import Verif.Props.IeeeDesign

/-! # Lemmas: frequency transformations on IEEE numbers as precision and range grow -/

namespace SciRs.Rounded.Wide

open SciRs.Spec SciRs.Spec.Ieee SciRs.Design SciRs.IeeeDesign Filter Topology

/-! ### Pairs in either order -/

/-- From two lists, the element of the second where `cs` says so. -/
def sel {α : Type} : List Bool → List α → List α → List α
  | c :: cs, d :: ds, e :: es => (if c then e else d) :: sel cs ds es
  | _, _, _ => []

/-- The elements at `j` and `cs.length + j` exchanged where `cs` says so. -/
def swapPairs {α : Type} (cs : List Bool) (l : List α) : List α :=
  sel cs (l.take cs.length) ((l.drop cs.length).take cs.length) ++
    sel cs ((l.drop cs.length).take cs.length) (l.take cs.length) ++ (l.drop cs.length).drop cs.length

/-- Some pairs of zeros and poles exchanged. -/
def swapped (cz cp : List Bool) (g : Zpk) : Zpk := { g with z := swapPairs cz g.z, p := swapPairs cp g.p }

section swap

variable {α : Type} {R : (Setup → α) → α → Prop} {F G : Setup → List α} {L M : List α}

theorem along_take (h : Along R F L) (n : ℕ) : Along R (fun i => (F i).take n) (L.take n) := by
  induction h generalizing n with
  | nil => simp only [List.take_nil]; exact .nil
  | cons h _ ih =>
    cases n with
    | zero => simp only [List.take_zero]; exact .nil
    | succ n => simp only [List.take_succ_cons]; exact .cons h (ih n)

theorem along_drop (h : Along R F L) (n : ℕ) : Along R (fun i => (F i).drop n) (L.drop n) := by
  induction h generalizing n with
  | nil => simp only [List.drop_nil]; exact .nil
  | cons h h' ih =>
    cases n with
    | zero => simp only [List.drop_zero]; exact .cons h h'
    | succ n => simp only [List.drop_succ_cons]; exact ih n

theorem along_sel (cs : List Bool) (h : Along R F L) (h' : Along R G M) :
    Along R (fun i => sel cs (F i) (G i)) (sel cs L M) := by
  induction cs generalizing F G L M with
  | nil => simp only [sel]; exact .nil
  | cons c cs ih =>
    cases h with
    | nil => simp only [sel]; exact .nil
    | cons h1 h2 =>
      cases h' with
      | nil => simp only [sel]; exact .nil
      | cons h3 h4 =>
        simp only [sel]
        cases c with
        | false => exact .cons h1 (ih h2 h4)
        | true => exact .cons h3 (ih h2 h4)

theorem along_swap (cs : List Bool) (h : Along R F L) : Along R (fun i => swapPairs cs (F i)) (swapPairs cs L) := by
  unfold swapPairs
  have h1 := along_take h cs.length
  have h2 := along_drop h cs.length
  have h3 := along_take h2 cs.length
  exact ((along_sel cs h1 h3).append (along_sel cs h3 h1)).append (along_drop h2 cs.length)

theorem sel_perm (cs : List Bool) (d e : List α) (hd : d.length = cs.length) (he : e.length = cs.length) :
    (sel cs d e ++ sel cs e d).Perm (d ++ e) := by
  induction cs generalizing d e with
  | nil =>
    rw [List.length_nil, List.length_eq_zero_iff] at hd he
    subst hd he
    simp [sel]
  | cons c cs ih =>
    obtain ⟨x, d, rfl⟩ := List.exists_cons_of_length_eq_add_one hd
    obtain ⟨y, e, rfl⟩ := List.exists_cons_of_length_eq_add_one he
    have h := ih d e (by simpa using hd) (by simpa using he)
    have h1 : ∀ (a b : α) (u v : List α), (a :: u ++ b :: v).Perm (a :: b :: (u ++ v)) := fun a b u v => by
      rw [List.cons_append]
      exact List.Perm.cons a List.perm_middle
    cases c with
    | false => exact (h1 _ _ _ _).trans (((h.cons y).cons x).trans (h1 _ _ _ _).symm)
    | true => exact (h1 _ _ _ _).trans (((h.cons x).cons y).trans ((List.Perm.swap _ _ _).trans (h1 _ _ _ _).symm))

theorem swapPairs_perm (cs : List Bool) (l : List α) (h : 2 * cs.length ≤ l.length) : (swapPairs cs l).Perm l := by
  unfold swapPairs
  have h1 := sel_perm cs (l.take cs.length) ((l.drop cs.length).take cs.length) (by simp; omega) (by simp; omega)
  refine (h1.append_right _).trans ?_
  rw [List.append_assoc, List.take_append_drop, List.take_append_drop]

theorem swapPairs_append (cs : List Bool) (d e r : List α) (hd : d.length = cs.length) (he : e.length = cs.length) :
    swapPairs cs (d ++ e ++ r) = sel cs d e ++ sel cs e d ++ r := by
  unfold swapPairs
  rw [← hd, List.append_assoc d e r, List.take_left, List.drop_left, hd, ← he, List.take_left, List.drop_left]

theorem swapPairs_nil (l : List α) : swapPairs [] l = l := by simp [swapPairs, sel]

end swap

/-! ### Transformations -/

/-- Both designs return, and the one on IEEE numbers is finite and has the values of the other, apart from the order
of some pairs. -/
def FollowsUpTo {f : Format} (nz np : ℕ) (x : Res (ZpkI f)) (y : Res Zpk) : Prop :=
  ∃ q g cz cp, x = .ok q ∧ y = .ok g ∧ cz.length = nz ∧ cp.length = np ∧ ZpkIs q (swapped cz cp g)

theorem Follows.upTo {f : Format} {x : Res (ZpkI f)} {y : Res Zpk} (h : Follows x y) : FollowsUpTo 0 0 x y := by
  obtain ⟨q, g, h1, h2, h3⟩ := h
  refine ⟨q, g, [], [], h1, h2, rfl, rfl, ?_⟩
  unfold swapped
  rw [swapPairs_nil, swapPairs_nil]
  exact h3

theorem forall₂_append {α β : Type} {R : α → β → Prop} {a b : List α} {c d : List β} (h : List.Forall₂ R a c) (h' : List.Forall₂ R b d) :
    List.Forall₂ R (a ++ b) (c ++ d) := List.rel_append h h'

/-- The square roots of one list. -/
theorem splitPm_ev {R : (Setup → ℂ) → ℂ → Prop} {F : Setup → List ℂ} {l : List ℂ} (h : Along R F l)
    {w : Setup → ℝ} {w0 : ℝ} (hw : Tendsto w fine (𝓝 w0)) (hw0 : 0 < w0)
    (hR : ∀ a b, b ∈ l → R a b → Tendsto a fine (𝓝 b) ∧
      ∃ y, Tendsto (fun i => i.A.csqrt (i.A.csub (i.A.csq (a i)) (i.A.powi (w i) 2 : ℝ))) fine (𝓝 y)) :
    ∀ᶠ i in wide, ∀ (X : List (Cx (ISetup.f i))) (u : Ieee i.f), List.Forall₂ CIs X (F i.S) → Is u (w i.S) →
      ∃ cs : List Bool, cs.length = l.length ∧
        List.Forall₂ CIs (IeeeDesign.splitPm i.L X u) (swapPairs cs (splitPm i.S.A (F i.S) (w i.S))) := by
  have key : ∀ᶠ i in wide, ∀ (X : List (Cx (ISetup.f i))) (u : Ieee i.f), List.Forall₂ CIs X (F i.S) → Is u (w i.S) →
      ∃ cs : List Bool, cs.length = l.length ∧
        List.Forall₂ CIs (X.map fun z => z.add (i.L.csqrt ((z.mul z).sub (Cx.ofRe (i.L.powi u 2)))))
          (sel cs ((F i.S).map fun z => i.S.A.cadd z (i.S.A.csqrt (i.S.A.csub (i.S.A.csq z) (i.S.A.powi (w i.S) 2 : ℝ))))
            ((F i.S).map fun z => i.S.A.csub z (i.S.A.csqrt (i.S.A.csub (i.S.A.csq z) (i.S.A.powi (w i.S) 2 : ℝ))))) ∧
        List.Forall₂ CIs (X.map fun z => z.sub (i.L.csqrt ((z.mul z).sub (Cx.ofRe (i.L.powi u 2)))))
          (sel cs ((F i.S).map fun z => i.S.A.csub z (i.S.A.csqrt (i.S.A.csub (i.S.A.csq z) (i.S.A.powi (w i.S) 2 : ℝ))))
            ((F i.S).map fun z => i.S.A.cadd z (i.S.A.csqrt (i.S.A.csub (i.S.A.csq z) (i.S.A.powi (w i.S) 2 : ℝ))))) := by
    induction h with
    | nil =>
      refine Eventually.of_forall fun i X u hX hu => ⟨[], rfl, ?_⟩
      cases hX
      exact ⟨.nil, .nil⟩
    | @cons a b F L h _ ih =>
      obtain ⟨ha, y, hy⟩ := hR a b (by simp) h
      have hsq : Tendsto (fun i => i.A.cmul (a i) (a i)) fine (𝓝 (b * b)) := tendsto_cmul ha ha
      have hpw := tendsto_ofReal (tendsto_powi 2 hw hw0)
      have hD := tendsto_csub hsq hpw
      have hc : Tendsto (fun i => (starRingEnd ℂ) (i.A.csqrt (i.A.csub (i.A.cmul (a i) (a i)) (i.A.powi (w i) 2 : ℝ)))) fine
          (𝓝 ((starRingEnd ℂ) y)) := (Complex.continuous_conj.tendsto _).comp hy
      filter_upwards [ih fun a b hb => hR a b (List.mem_cons_of_mem _ hb), ev_cmul ha ha, ev_powi 2 hw hw0, ev_csub hsq hpw,
        ev_csqrt hD ⟨y, hy⟩, ev_cadd ha hy, ev_csub ha hy, ev_cadd ha hc, ev_csub ha hc]
        with i h0 e1 e2 e3 e4 e5 e6 e7 e8 X u hX hu
      cases hX with
      | @cons x _ X _ hx hX =>
        obtain ⟨cs, hcs, k1, k2⟩ := h0 X u hX hu
        have hd := e3 _ _ (e1 x x hx hx) (cis_ofRe (e2 u hu))
        rcases e4 _ hd with hs | ⟨him, hre, hs⟩
        · exact ⟨false :: cs, by simp [hcs], .cons (e5 _ _ hx hs) k1, .cons (e6 _ _ hx hs) k2⟩
        · have eroot : (i.S.A.csqrt (i.S.A.csub (i.S.A.cmul (a i.S) (a i.S)) (i.S.A.powi (w i.S) 2 : ℝ))).re = 0 := by
            change (flSqrt i.f.r i.m _).re = 0
            unfold flSqrt
            rw [if_pos him, if_neg (not_le.mpr hre)]
          obtain ⟨s, hsd⟩ : ∃ s, s = i.S.A.csqrt (i.S.A.csub (i.S.A.cmul (a i.S) (a i.S)) (i.S.A.powi (w i.S) 2 : ℝ)) := ⟨_, rfl⟩
          have q1 := e7 _ _ hx hs
          have q2 := e8 _ _ hx hs
          rw [← hsd] at q1 q2 eroot
          have f1 : i.S.A.cadd (a i.S) ((starRingEnd ℂ) s) = i.S.A.csub (a i.S) s := by
            change (⟨i.f.r.rnd ((a i.S).re + s.re), i.f.r.rnd ((a i.S).im + -s.im)⟩ : ℂ) = ⟨i.f.r.rnd ((a i.S).re - s.re), i.f.r.rnd ((a i.S).im - s.im)⟩
            rw [eroot, add_zero, sub_zero, ← sub_eq_add_neg]
          have f2 : i.S.A.csub (a i.S) ((starRingEnd ℂ) s) = i.S.A.cadd (a i.S) s := by
            change (⟨i.f.r.rnd ((a i.S).re - s.re), i.f.r.rnd ((a i.S).im - -s.im)⟩ : ℂ) = ⟨i.f.r.rnd ((a i.S).re + s.re), i.f.r.rnd ((a i.S).im + s.im)⟩
            rw [eroot, add_zero, sub_zero, sub_neg_eq_add]
          rw [f1] at q1
          rw [f2] at q2
          rw [hsd] at q1 q2
          exact ⟨true :: cs, by simp [hcs], .cons q1 k1, .cons q2 k2⟩
  filter_upwards [key] with i hi X u hX hu
  obtain ⟨cs, hcs, k1, k2⟩ := hi X u hX hu
  refine ⟨cs, hcs, ?_⟩
  have hl := h.length i.S
  rw [splitPm_eq]
  have e := swapPairs_append cs ((F i.S).map fun z => i.S.A.cadd z (i.S.A.csqrt (i.S.A.csub (i.S.A.csq z) (i.S.A.powi (w i.S) 2 : ℝ))))
    ((F i.S).map fun z => i.S.A.csub z (i.S.A.csqrt (i.S.A.csub (i.S.A.csq z) (i.S.A.powi (w i.S) 2 : ℝ)))) []
    (by rw [List.length_map, hl, hcs]) (by rw [List.length_map, hl, hcs])
  rw [List.append_nil, List.append_nil] at e
  rw [e]
  have e2 : IeeeDesign.splitPm i.L X u = (X.map fun z => z.add (i.L.csqrt ((z.mul z).sub (Cx.ofRe (i.L.powi u 2))))) ++
      (X.map fun z => z.sub (i.L.csqrt ((z.mul z).sub (Cx.ofRe (i.L.powi u 2))))) := by
    unfold IeeeDesign.splitPm
    simp [List.map_map, Function.comp_def]
  rw [e2]
  exact forall₂_append k1 k2

/-- A function with a parameter applied to every element. -/
theorem ev_mapP {R : (Setup → ℂ) → ℂ → Prop} {F : Setup → List ℂ} {l : List ℂ} (h : Along R F l) {T : ISetup → Type}
    (Q : ∀ i, T i → Prop) (g : ∀ i : ISetup, T i → Cx i.f → Cx i.f) (g0 : Setup → ℂ → ℂ)
    (hg : ∀ a b, b ∈ l → R a b → ∀ᶠ i in wide, ∀ t u, Q i t → CIs u (a i.S) → CIs (g i t u) (g0 i.S (a i.S))) :
    ∀ᶠ i in wide, ∀ (t : T i) (X : List (Cx (ISetup.f i))), Q i t → List.Forall₂ CIs X (F i.S) →
      List.Forall₂ CIs (X.map (g i t)) ((F i.S).map (g0 i.S)) := by
  induction h with
  | nil =>
    refine Eventually.of_forall fun i t X _ hX => ?_
    cases hX
    exact .nil
  | cons h _ ih =>
    filter_upwards [hg _ _ (by simp) h, ih fun a b hb => hg a b (List.mem_cons_of_mem _ hb)] with i h1 h2 t X ht hX
    cases hX with
    | cons h3 h4 => exact .cons (h1 t _ ht h3) (h2 t _ ht h4)

/-- Multiplication by a real number. -/
theorem ev_scale {R : (Setup → ℂ) → ℂ → Prop} {F : Setup → List ℂ} {l : List ℂ} (h : Along R F l)
    (hR : ∀ a b, R a b → Tends a b) {w : Setup → ℝ} {w0 : ℝ} (hw : Tendsto w fine (𝓝 w0)) :
    ∀ᶠ i in wide, ∀ (u : Ieee (ISetup.f i)) (X : List (Cx i.f)), Is u (w i.S) → List.Forall₂ CIs X (F i.S) →
      List.Forall₂ CIs (X.map fun z => z.mul (Cx.ofRe u)) ((F i.S).map fun z => i.S.A.cmul z (w i.S : ℂ)) := by
  refine ev_mapP (T := fun i => Ieee i.f) h (fun i u => Is u (w i.S)) (fun i u z => z.mul (Cx.ofRe u)) (fun s z => s.A.cmul z (w s : ℂ)) (fun a b _ hab => ?_)
  filter_upwards [ev_cmul (hR a b hab) (tendsto_ofReal hw)] with i hi t u ht hu
  exact hi _ _ hu (cis_ofRe ht)

theorem lp2lp_ev {f : Setup → Zpk} {g : Zpk} (h : ZpkLim Axis KeepsReal f g) (hl : g.z.length ≤ g.p.length)
    {w : Setup → ℝ} {w0 : ℝ} (hw : Tendsto w fine (𝓝 w0)) (hw0 : 0 < w0) :
    ∀ᶠ i in wide, ∀ (q : ZpkI (ISetup.f i)) (u : Ieee i.f), ZpkIs q (f i.S) → Is u (w i.S) →
      Follows (IeeeDesign.lp2lp i.L q (some u)) (lp2lp i.S.A (f i.S) (some (w i.S))) := by
  filter_upwards [ev_scale h.z (fun _ _ h => h.1) hw, ev_scale h.p (fun _ _ h => h.1) hw,
    ev_powi (g.p.length - g.z.length) hw hw0, ev_mul h.k (tendsto_powi (g.p.length - g.z.length) hw hw0)]
    with i e1 e2 e3 e4 q u hq hu
  have hd := relDeg_const h hl i.S
  have hd' := relDeg_is hq.1 hq.2.1 hd
  refine ⟨_, _, by simp only [IeeeDesign.lp2lp, hd', ok_bind]; rfl, by simp only [lp2lp, hd, ok_bind]; rfl, e1 u _ hu hq.1,
    e2 u _ hu hq.2.1, e4 _ _ hq.2.2 (e3 u hu)⟩

theorem cis_neg_one {f : Format} : CIs (Cx.ofRe (lit f (-1))) (-1) := by
  have := cis_ofRe (is_lit (f := f) (-1))
  push_cast at this
  exact this

theorem cis_neg_I {f : Format} : CIs (⟨0, lit f (-1)⟩ : Cx f) (-Complex.I) := by
  constructor
  · simpa using is_zero (f := f)
  · simpa using is_lit (f := f) (-1)

/-- The product of the negated poles. -/
theorem neg_prod_ev {f : Setup → Zpk} {g : Zpk} {Rz : (Setup → ℂ) → ℂ → Prop} (h : ZpkLim Rz KeepsReal f g) :
    ∀ᶠ i in wide, ∀ X : List (Cx (ISetup.f i)), List.Forall₂ CIs X (f i.S).p →
      CIs (IeeeDesign.foldMul (X.map fun pi => (Cx.ofRe (lit i.f (-1))).mul pi))
        (foldMul i.S.A ((f i.S).p.map (fun pi => i.S.A.cmul (-1 : ℂ) pi))) := by
  have hm := h.p.map (Q := Tends) (fun i pi => i.A.cmul (-1 : ℂ) pi) (fun pi => E.cmul (-1 : ℂ) pi)
    (fun _ _ _ hab => tendsto_cmul tendsto_const_nhds hab.1)
  filter_upwards [ev_foldMul hm, ev_map h.p (fun i pi => (Cx.ofRe (lit i.f (-1))).mul pi) (fun s pi => s.A.cmul (-1 : ℂ) pi)
    (fun a b _ hab => by
      filter_upwards [ev_cmul (a := fun _ => -1) (x := -1) tendsto_const_nhds hab.1] with i hi u hu
      exact hi _ _ cis_neg_one hu)] with i e1 e2 X hX
  exact e1 _ (e2 X hX)

theorem ne_zero_of_left {l : List ℂ} (hp : ∀ b ∈ l, b.re < 0) : ∀ b ∈ l, b ≠ 0 := by
  intro b hb h0
  have := hp b hb
  rw [h0] at this
  simp at this

theorem lp2hp_ev {f : Setup → Zpk} {g : Zpk} (h : ZpkLim Axis KeepsReal f g) (hz : g.z = []) (hp : ∀ b ∈ g.p, b.re < 0)
    {w : Setup → ℝ} {w0 : ℝ} (hw : Tendsto w fine (𝓝 w0)) :
    ∀ᶠ i in wide, ∀ (q : ZpkI (ISetup.f i)) (u : Ieee i.f), ZpkIs q (f i.S) → Is u (w i.S) →
      Follows (IeeeDesign.lp2hp q (some u)) (lp2hp i.S.A (f i.S) (some (w i.S))) := by
  have hl : g.z.length ≤ g.p.length := by rw [hz]; simp
  have hz' := h.z
  rw [hz] at hz'
  have hzf : ∀ i, (f i).z = [] := fun i => congrFun hz'.nil_of i
  have hphp : ∀ᶠ i in wide, ∀ (u : Ieee (ISetup.f i)) (X : List (Cx i.f)), Is u (w i.S) → List.Forall₂ CIs X (f i.S).p →
      List.Forall₂ CIs (X.map fun pi => (Cx.ofRe u).div pi) ((f i.S).p.map fun pi => i.S.A.cdiv (w i.S : ℂ) pi) := by
    refine ev_mapP (T := fun i => Ieee i.f) h.p (fun i u => Is u (w i.S)) (fun i u z => (Cx.ofRe u).div z) (fun s z => s.A.cdiv (w s : ℂ) z) (fun a b hb hab => ?_)
    filter_upwards [ev_cdiv (tendsto_ofReal hw) hab.1 (ne_zero_of_left hp b hb)] with i hi t u ht hu
    exact hi _ _ (cis_ofRe ht) hu
  filter_upwards [hphp, neg_prod_ev h, ev_cdiv (a := fun _ => 1) (x := 1) tendsto_const_nhds (neg_prod h) (neg_prod_ne hp),
    ev_mul h.k (tendsto_re (tendsto_cdiv (a := fun _ => 1) (x := 1) tendsto_const_nhds (neg_prod h) (neg_prod_ne hp)))]
    with i e1 e2 e3 e4 q u hq hu
  have hd := relDeg_const h hl i.S
  have hd' := relDeg_is hq.1 hq.2.1 hd
  have hqz := hq.1
  rw [hzf] at hqz
  have hqz : q.z = [] := List.forall₂_nil_right_iff.mp hqz
  refine ⟨_, _, by simp only [IeeeDesign.lp2hp, hd', ok_bind]; rfl, by simp only [lp2hp, hd, ok_bind]; rfl, ?_,
    e1 u _ hu hq.2.1, ?_⟩
  · simp only [hqz, hzf, List.map_nil, List.nil_append]
    exact forall₂_replicate ⟨is_zero, is_zero⟩ _
  · simp only [hqz, hzf, List.map_nil]
    exact e4 _ _ hq.2.2 (e3 _ _ ⟨is_one, is_zero⟩ (e2 _ hq.2.1)).1

theorem axis_root_lim {a : Setup → ℂ} {b : ℂ} (h : Axis a b) {w : Setup → ℝ} {w0 : ℝ}
    (hw : Tendsto w fine (𝓝 w0)) (hw0 : 0 < w0) : Tendsto a fine (𝓝 b) ∧
      ∃ y, Tendsto (fun i => i.A.csqrt (i.A.csub (i.A.csq (a i)) (i.A.powi (w i) 2 : ℝ))) fine (𝓝 y) := by
  obtain ⟨s, -, -, hT⟩ := axis_root h hw hw0
  exact ⟨h.1, _, hT⟩

theorem lp2bp_ev {f : Setup → Zpk} {g : Zpk} (h : ZpkLim Axis KeepsReal f g) (hl : g.z.length ≤ g.p.length)
    (hp : ∀ b ∈ g.p, b.re < 0)
    {w v : Setup → ℝ} {w0 v0 : ℝ} (hw : Tendsto w fine (𝓝 w0)) (hw0 : 0 < w0) (hv : Tendsto v fine (𝓝 v0)) (hv0 : 0 < v0) :
    ∀ᶠ i in wide, ∀ (q : ZpkI (ISetup.f i)) (u t : Ieee i.f), ZpkIs q (f i.S) → Is u (w i.S) → Is t (v i.S) →
      FollowsUpTo g.z.length g.p.length (IeeeDesign.lp2bp i.L q (some u) (some t))
        (lp2bp i.S.A (f i.S) (some (w i.S)) (some (v i.S))) := by
  have hh := tendsto_div hv (b := fun _ => 2) (y := 2) tendsto_const_nhds (by norm_num)
  have hh0 : v0 / 2 ≠ 0 := by positivity
  have hZ := h.z.map (Q := Axis) (fun i z => i.A.cmul z (i.A.div (v i) 2 : ℝ)) (fun z => z * ((v0 / 2 : ℝ) : ℂ))
    (fun a b _ hab => hab.scale hh hh0)
  have hP := h.p.map (Q := KeepsReal) (fun i z => i.A.cmul z (i.A.div (v i) 2 : ℝ)) (fun z => z * ((v0 / 2 : ℝ) : ℂ))
    (fun a b _ hab => hab.scale hh hh0)
  have hleft : ∀ b ∈ g.p.map (fun z => z * ((v0 / 2 : ℝ) : ℂ)), b.re < 0 := by
    intro b hb
    obtain ⟨q, hq, rfl⟩ := List.mem_map.mp hb
    exact mul_left_half (show 0 < v0 / 2 by positivity) (hp q hq)
  filter_upwards [ev_div hv (b := fun _ => 2) (y := 2) tendsto_const_nhds (by norm_num), ev_scale h.z (fun _ _ h => h.1) hh,
    ev_scale h.p (fun _ _ h => h.1) hh, splitPm_ev hZ hw hw0 (fun a b _ hab => axis_root_lim hab hw hw0),
    splitPm_ev hP hw hw0 (fun a b hb hab => ⟨hab.1, _, tendsto_root hab (hleft b hb) hw hw0⟩),
    ev_powi (g.p.length - g.z.length) hv hv0, ev_mul h.k (tendsto_powi (g.p.length - g.z.length) hv hv0)]
    with i e1 e2 e3 e4 e5 e6 e7 q u t hq hu ht
  have hd := relDeg_const h hl i.S
  have hd' := relDeg_is hq.1 hq.2.1 hd
  have hbw := e1 _ _ ht (is_lit 2)
  obtain ⟨cz, c1, c2⟩ := e4 _ u (e2 _ _ hbw hq.1) hu
  obtain ⟨cp, c3, c4⟩ := e5 _ u (e3 _ _ hbw hq.2.1) hu
  rw [List.length_map] at c1 c3
  refine ⟨_, _, cz, cp, by simp only [IeeeDesign.lp2bp, hd', ok_bind]; rfl, by simp only [lp2bp, hd, ok_bind]; rfl, c1, c3, ?_, c4,
    e7 _ _ hq.2.2 (e6 t ht)⟩
  have e : ∀ r : List ℂ, swapPairs cz (splitPm i.S.A ((f i.S).z.map fun zi => i.S.A.cmul zi (i.S.A.div (v i.S) 2 : ℝ)) (w i.S) ++ r) =
      swapPairs cz (splitPm i.S.A ((f i.S).z.map fun zi => i.S.A.cmul zi (i.S.A.div (v i.S) 2 : ℝ)) (w i.S)) ++ r := by
    intro r
    rw [splitPm_eq]
    have hlen := h.z.length i.S
    have k1 := swapPairs_append cz (((f i.S).z.map fun zi => i.S.A.cmul zi (i.S.A.div (v i.S) 2 : ℝ)).map fun z => i.S.A.cadd z (i.S.A.csqrt (i.S.A.csub (i.S.A.csq z) (i.S.A.powi (w i.S) 2 : ℝ))))
      (((f i.S).z.map fun zi => i.S.A.cmul zi (i.S.A.div (v i.S) 2 : ℝ)).map fun z => i.S.A.csub z (i.S.A.csqrt (i.S.A.csub (i.S.A.csq z) (i.S.A.powi (w i.S) 2 : ℝ))))
    have k2 := k1 r (by simp [hlen, c1]) (by simp [hlen, c1])
    have k3 := k1 [] (by simp [hlen, c1]) (by simp [hlen, c1])
    rw [List.append_nil, List.append_nil] at k3
    rw [k2, k3]
  change List.Forall₂ CIs _ (swapPairs cz (splitPm i.S.A ((f i.S).z.map fun zi => i.S.A.cmul zi (i.S.A.div (v i.S) 2 : ℝ)) (w i.S) ++
    List.replicate _ 0))
  rw [e]
  exact forall₂_append c2 (forall₂_replicate ⟨is_zero, is_zero⟩ _)

theorem bs_poles_lim {a : Setup → ℂ} {b : ℂ} (hab : KeepsReal a b) (hb : b ≠ 0) {h : Setup → ℝ} {h0 : ℝ}
    (hh : Tendsto h fine (𝓝 h0)) (hh0 : h0 ≠ 0) :
    KeepsReal (fun i => i.A.cmul (i.A.cdiv (⟨0, h i⟩ : ℂ) (a i)) (-Complex.I)) ((⟨0, h0⟩ : ℂ) / b * (-Complex.I)) := by
  have hT := tendsto_cmul (tendsto_cdiv (tendsto_mk (a := fun _ => 0) (x := 0) tendsto_const_nhds hh) hab.1 hb)
    (b := fun _ => -Complex.I) (y := -Complex.I) tendsto_const_nhds
  refine ⟨hT, fun h1 i => ?_⟩
  have hbi : b.im = 0 := by
    rw [mk_div_I, div_eq_mul_inv, Complex.im_ofReal_mul, Complex.inv_im] at h1
    rcases mul_eq_zero.mp h1 with h2 | h2
    · exact absurd h2 hh0
    · rcases div_eq_zero_iff.mp h2 with h3 | h3
      · linarith
      · exact absurd (Complex.normSq_eq_zero.mp h3) hb
  have ha := hab.2 hbi i
  have hre : (i.A.cdiv (⟨0, h i⟩ : ℂ) (a i)).re = 0 := by
    change i.r.rnd (i.r.rnd (i.r.rnd (0 * (a i).re) + i.r.rnd (_ * (a i).im)) / _) = 0
    simp [ha, i.r.zero]
  change i.r.rnd (i.r.rnd ((i.A.cdiv (⟨0, h i⟩ : ℂ) (a i)).re * (-Complex.I).im) + i.r.rnd (_ * (-Complex.I).re)) = 0
  rw [hre]
  simp [i.r.zero]

theorem neg_prod_re_ne {l : List ℂ} (hp : ∀ b ∈ l, b.re < 0) (hc : ConjClosed l) :
    (foldMul E (l.map (fun pi => E.cmul (-1 : ℂ) pi))).re ≠ 0 := by
  have h1 := neg_prod_ne hp
  have h2 : (foldMul E (l.map (fun pi => E.cmul (-1 : ℂ) pi))).im = 0 := by
    rw [foldMul_E]
    have h4 := congrArg Complex.im (conjClosed_prod_neg_real hc)
    rw [Complex.ofReal_im] at h4
    exact h4.symm
  intro h3
  exact h1 (Complex.ext h3 h2)

theorem lp2bs_ev {f : Setup → Zpk} {g : Zpk} (h : ZpkLim Axis KeepsReal f g) (hz : g.z = []) (hp : ∀ b ∈ g.p, b.re < 0)
    (hc : ConjClosed g.p)
    {w v : Setup → ℝ} {w0 v0 : ℝ} (hw : Tendsto w fine (𝓝 w0)) (hw0 : 0 < w0) (hv : Tendsto v fine (𝓝 v0)) (hv0 : 0 < v0) :
    ∀ᶠ i in wide, ∀ (q : ZpkI (ISetup.f i)) (u t : Ieee i.f), ZpkIs q (f i.S) → Is u (w i.S) → Is t (v i.S) →
      FollowsUpTo 0 g.p.length (IeeeDesign.lp2bs i.L q (some u) (some t))
        (lp2bs i.S.A (f i.S) (some (w i.S)) (some (v i.S))) := by
  have hl : g.z.length ≤ g.p.length := by rw [hz]; simp
  have hz' := h.z
  rw [hz] at hz'
  have hzf : ∀ i, (f i).z = [] := fun i => congrFun hz'.nil_of i
  have hh := tendsto_div hv (b := fun _ => 2) (y := 2) tendsto_const_nhds (by norm_num)
  have hh0 : v0 / 2 ≠ 0 := by positivity
  have hP := h.p.map (Q := KeepsReal) (fun i z => i.A.cmul (i.A.cdiv (⟨0, i.A.div (v i) 2⟩ : ℂ) z) (-Complex.I))
    (fun z => (⟨0, v0 / 2⟩ : ℂ) / z * (-Complex.I)) (fun a b hb hab => bs_poles_lim hab (ne_zero_of_left hp b hb) hh hh0)
  have hleft : ∀ b ∈ g.p.map (fun z => (⟨0, v0 / 2⟩ : ℂ) / z * (-Complex.I)), b.re < 0 := by
    intro b hb
    obtain ⟨q, hq, rfl⟩ := List.mem_map.mp hb
    rw [mk_div_I]
    exact inv_left (by positivity) (hp q hq)
  have hphp : ∀ᶠ i in wide, ∀ (u : Ieee (ISetup.f i)) (X : List (Cx i.f)), Is u (i.S.A.div (v i.S) 2) →
      List.Forall₂ CIs X (f i.S).p →
      List.Forall₂ CIs (X.map fun z => ((Cx.mk 0 u).div z).mul ⟨0, lit i.f (-1)⟩)
        ((f i.S).p.map fun z => i.S.A.cmul (i.S.A.cdiv (⟨0, i.S.A.div (v i.S) 2⟩ : ℂ) z) (-Complex.I)) := by
    refine ev_mapP (T := fun i => Ieee i.f) h.p (fun i u => Is u (i.S.A.div (v i.S) 2))
      (fun i u z => ((Cx.mk 0 u).div z).mul ⟨0, lit i.f (-1)⟩)
      (fun s z => s.A.cmul (s.A.cdiv (⟨0, s.A.div (v s) 2⟩ : ℂ) z) (-Complex.I)) (fun a b hb hab => ?_)
    have h1 := tendsto_mk (a := fun _ => 0) (x := 0) tendsto_const_nhds hh
    filter_upwards [ev_cdiv h1 hab.1 (ne_zero_of_left hp b hb),
      ev_cmul (tendsto_cdiv h1 hab.1 (ne_zero_of_left hp b hb)) (b := fun _ => -Complex.I) (y := -Complex.I) tendsto_const_nhds]
      with i h1 h2 t u ht hu
    exact h2 _ _ (h1 ⟨0, t⟩ _ ⟨is_zero, ht⟩ hu) cis_neg_I
  have hre := tendsto_re (neg_prod h)
  filter_upwards [ev_div hv (b := fun _ => 2) (y := 2) tendsto_const_nhds (by norm_num), hphp,
    splitPm_ev hP hw hw0 (fun a b hb hab => ⟨hab.1, _, tendsto_root hab (hleft b hb) hw hw0⟩), neg_prod_ev h,
    ev_div (a := fun _ => 1) (x := 1) tendsto_const_nhds hre (neg_prod_re_ne hp hc),
    ev_mul h.k (tendsto_div (a := fun _ => 1) (x := 1) tendsto_const_nhds hre (neg_prod_re_ne hp hc)),
    ev_mul (a := fun _ => 1) (x := 1) tendsto_const_nhds hw, ev_mul (a := fun _ => -1) (x := -1) tendsto_const_nhds hw]
    with i e1 e2 e3 e4 e5 e6 e7 e8 q u t hq hu ht
  have hd := relDeg_const h hl i.S
  have hd' := relDeg_is hq.1 hq.2.1 hd
  have hqz := hq.1
  rw [hzf] at hqz
  have hqz : q.z = [] := List.forall₂_nil_right_iff.mp hqz
  obtain ⟨cp, c3, c4⟩ := e3 _ u (e2 _ _ (e1 _ _ ht (is_lit 2)) hq.2.1) hu
  rw [List.length_map] at c3
  refine ⟨_, _, [], cp, by simp only [IeeeDesign.lp2bs, hd', ok_bind]; rfl, by simp only [lp2bs, hd, ok_bind]; rfl, rfl, c3, ?_, c4, ?_⟩
  · change List.Forall₂ CIs _ (swapPairs [] _)
    rw [swapPairs_nil]
    simp only [hqz, hzf, List.map_nil]
    refine forall₂_append (forall₂_append .nil (forall₂_replicate ⟨is_zero, e7 _ _ is_one hu⟩ _))
      (forall₂_replicate ⟨is_zero, e8 _ _ (is_lit (-1)) hu⟩ _)
  · simp only [hqz, hzf]
    exact e6 _ _ hq.2.2 (e5 _ _ is_one (e4 _ hq.2.1).1)

end SciRs.Rounded.Wide

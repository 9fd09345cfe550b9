import Verif.Lemmas.IeeeLimitFilter

/-! # Lemmas: the steps of the design, on any filter, on IEEE numbers as precision and range grow -/

namespace SciRs.Rounded.Wide

open SciRs.Spec SciRs.Spec.Ieee SciRs.Design SciRs.IeeeDesign Filter Topology

/-- Convergence; limits on one of the axes are limits of numbers that are exactly on it. -/
def Shape (a : Setup → ℂ) (b : ℂ) : Prop :=
  Tends a b ∧ (b.im = 0 → ∀ i, (a i).im = 0) ∧ (b.re = 0 → ∀ i, (a i).re = 0)

theorem shape_const (b : ℂ) : Shape (fun _ => b) b := ⟨tendsto_const_nhds, fun h _ => h, fun h _ => h⟩

theorem along_const (l : List ℂ) : Along Shape (fun _ => l) l := by
  have := Along.of_map (R := Shape) l (fun _ x => x) (fun x => x) (fun m _ => shape_const m)
  simpa using this

theorem const_lim (g : Zpk) : ZpkLim Shape Shape (fun _ => g) g := ⟨along_const _, along_const _, tendsto_const_nhds⟩

theorem Shape.scale {a : Setup → ℂ} {b : ℂ} (h : Shape a b) {w : Setup → ℝ} {w0 : ℝ} (hw : Tendsto w fine (𝓝 w0))
    (hw0 : w0 ≠ 0) : Shape (fun i => i.A.cmul (a i) (w i : ℂ)) (b * (w0 : ℂ)) := by
  obtain ⟨h1, h2, h3⟩ := h
  refine ⟨tendsto_cmul h1 (tendsto_ofReal hw), fun h i => flMul_im i (h2 ?_ i) rfl, fun h i => flMul_re i (h3 ?_ i) _⟩
  · rw [Complex.im_mul_ofReal] at h
    exact (mul_eq_zero.mp h).resolve_right hw0
  · rw [Complex.re_mul_ofReal] at h
    exact (mul_eq_zero.mp h).resolve_right hw0

/-- The square root in the band transformations, for any root. -/
theorem shape_root {a : Setup → ℂ} {b : ℂ} (h : Shape a b) {w : Setup → ℝ} {w0 : ℝ}
    (hw : Tendsto w fine (𝓝 w0)) (hw0 : 0 < w0) :
    Tendsto (fun i => i.A.csqrt (i.A.csub (i.A.csq (a i)) (i.A.powi (w i) 2 : ℝ))) fine
      (𝓝 (csqrt (b ^ 2 - ((w0 ^ 2 : ℝ) : ℂ)))) := by
  have hD := tendsto_csub (tendsto_csq h.1) (tendsto_ofReal (tendsto_powi 2 hw hw0))
  have real : (∀ i, (a i).re = 0 ∨ (a i).im = 0) → b.re * b.im = 0 → Tendsto (fun i => i.A.csqrt (i.A.csub (i.A.csq (a i)) (i.A.powi (w i) 2 : ℝ))) fine
      (𝓝 (csqrt (b ^ 2 - ((w0 ^ 2 : ℝ) : ℂ)))) := by
    intro ha hb
    refine tendsto_csqrt_real hD ?_ (fun i => flSub_im i (flSq_im i (ha i)) rfl)
    rw [Complex.sub_im, Complex.ofReal_im, sq, Complex.mul_im]
    linarith
  by_cases hb0 : b.im = 0
  · exact real (fun i => .inr (h.2.1 hb0 i)) (by rw [hb0, mul_zero])
  by_cases hb1 : b.re = 0
  · exact real (fun i => .inl (h.2.2 hb1 i)) (by rw [hb1, zero_mul])
  · refine tendsto_csqrt hD ?_
    rw [Complex.sub_im, Complex.ofReal_im, sq, Complex.mul_im]
    intro h0
    have : b.re * b.im = 0 := by linarith
    rcases mul_eq_zero.mp this with h1 | h1
    · exact hb1 h1
    · exact hb0 h1

theorem splitPm_shape {F : Setup → List ℂ} {L : List ℂ} (h : Along Shape F L)
    {w : Setup → ℝ} {w0 : ℝ} (hw : Tendsto w fine (𝓝 w0)) (hw0 : 0 < w0) :
    Along Tends (fun i => splitPm i.A (F i) (w i)) (splitPm E L w0) := by
  simp only [splitPm_eq]
  refine Along.append (h.map _ _ (fun a b hb hab => ?_)) (h.map _ _ (fun a b hb hab => ?_))
  · exact tendsto_cadd hab.1 (shape_root hab hw hw0)
  · exact tendsto_csub hab.1 (shape_root hab hw hw0)

theorem splitPm_shape_ev {F : Setup → List ℂ} {l : List ℂ} (h : Along Shape F l)
    {w : Setup → ℝ} {w0 : ℝ} (hw : Tendsto w fine (𝓝 w0)) (hw0 : 0 < w0) :
    ∀ᶠ i in wide, ∀ (X : List (Cx (ISetup.f i))) (u : Ieee i.f), List.Forall₂ CIs X (F i.S) → Is u (w i.S) →
      ∃ cs : List Bool, cs.length = l.length ∧
        List.Forall₂ CIs (IeeeDesign.splitPm i.L X u) (swapPairs cs (splitPm i.S.A (F i.S) (w i.S))) :=
  splitPm_ev h hw hw0 fun _ _ _ hab => ⟨hab.1, _, shape_root hab hw hw0⟩

/-! ### From a step that is followed to closeness -/

theorem forall₂_sel {α β : Type} {R : α → β → Prop} (cs : List Bool) {a b : List α} {c d : List β} (h : List.Forall₂ R a c)
    (h' : List.Forall₂ R b d) : List.Forall₂ R (sel cs a b) (sel cs c d) := by
  induction cs generalizing a b c d with
  | nil => simp only [sel]; exact .nil
  | cons x cs ih =>
    cases h with
    | nil => simp only [sel]; exact .nil
    | cons h1 h2 =>
      cases h' with
      | nil => simp only [sel]; exact .nil
      | cons h3 h4 =>
        simp only [sel]
        refine .cons ?_ (ih h2 h4)
        cases x
        · exact h1
        · exact h3

theorem forall₂_swapPairs {α β : Type} {R : α → β → Prop} (cs : List Bool) {a : List α} {c : List β} (h : List.Forall₂ R a c) :
    List.Forall₂ R (swapPairs cs a) (swapPairs cs c) := by
  unfold swapPairs
  have h1 := List.forall₂_take cs.length h
  have h2 := List.forall₂_drop cs.length h
  have h3 := List.forall₂_take cs.length h2
  exact forall₂_append (forall₂_append (forall₂_sel cs h1 h3) (forall₂_sel cs h3 h1)) (List.forall₂_drop cs.length h2)

/-- A step that follows a convergent one is eventually close to its limit, up to order. -/
theorem close_of_follows {nz np : ℕ} {P : ∀ i : ISetup, Res (ZpkI i.f) → Prop} {Y : Setup → Res Zpk} {f' : Setup → Zpk} {g' : Zpk}
    (hev : ∀ᶠ i in wide, ∀ x, P i x → FollowsUpTo nz np x (Y i.S)) (hY : ∀ s, Y s = .ok (f' s))
    (hlim : ZpkLim Tends Tends f' g') (hz : 2 * nz ≤ g'.z.length) (hp : 2 * np ≤ g'.p.length) {ε : ℝ} (hε : 0 < ε) :
    ∀ᶠ i in wide, ∀ x, P i x → ∃ q v, x = .ok q ∧ ZpkIs q v ∧
      (∃ l, l.Perm g'.z ∧ List.Forall₂ (fun a b => ‖a - b‖ ≤ ε) v.z l) ∧
      (∃ l, l.Perm g'.p ∧ List.Forall₂ (fun a b => ‖a - b‖ ≤ ε) v.p l) ∧ |v.k - g'.k| ≤ ε := by
  have near : ∀ {F : Setup → List ℂ} {l : List ℂ}, Along Tends F l →
      ∀ᶠ s in fine, List.Forall₂ (fun a b => ‖a - b‖ ≤ ε) (F s) l := by
    intro F l h
    refine h.eventually_forall₂ (fun a b _ hab => ?_)
    have hab : Tendsto a fine (𝓝 b) := hab
    filter_upwards [(tendsto_iff_norm_sub_tendsto_zero.mp hab).eventually (gt_mem_nhds hε)] with s hs using hs.le
  have neark : ∀ᶠ s in fine, |(f' s).k - g'.k| ≤ ε := by
    filter_upwards [(tendsto_iff_norm_sub_tendsto_zero.mp hlim.k).eventually (gt_mem_nhds hε)] with s hs using hs.le
  filter_upwards [hev, ev_of_fine (near hlim.z), ev_of_fine (near hlim.p), ev_of_fine neark] with i h1 h2 h3 h4 x hx
  obtain ⟨q, g, cz, cp, e1, e2, e3, e4, e5⟩ := h1 x hx
  rw [hY] at e2
  cases e2
  exact ⟨q, _, e1, e5, ⟨_, swapPairs_perm cz _ (by omega), forall₂_swapPairs cz h2⟩,
    ⟨_, swapPairs_perm cp _ (by omega), forall₂_swapPairs cp h3⟩, h4⟩

/-! ### Low-pass and high-pass -/

theorem neg_prod_ne' {l : List ℂ} (h : ∀ b ∈ l, b ≠ 0) : foldMul E (l.map (fun pi => E.cmul (-1 : ℂ) pi)) ≠ 0 := by
  rw [foldMul_E]
  refine prod_ne_zero_of (fun x hx => ?_)
  obtain ⟨y, hy, rfl⟩ := List.mem_map.mp hx
  change -1 * y ≠ 0
  simpa using h y hy

section steps

variable {g : Zpk} {w0 v0 : ℝ} {K : Set ISetup}

theorem prods_lim (g : Zpk) : Tendsto (fun i => foldMul i.A (g.p.map (fun pi => i.A.cmul (-1 : ℂ) pi))) fine
      (𝓝 (foldMul E (g.p.map (fun pi => E.cmul (-1 : ℂ) pi)))) :=
  tendsto_foldMul ((const_lim g).p.map (Q := Tends) _ _ (fun _ _ _ hab => tendsto_cmul tendsto_const_nhds hab.1))

theorem prods_ev (g : Zpk) :
    ∀ᶠ i in wide, ∀ X : List (Cx (ISetup.f i)), List.Forall₂ CIs X g.p →
      CIs (IeeeDesign.foldMul (X.map fun pi => (Cx.ofRe (lit i.f (-1))).mul pi))
        (foldMul i.S.A (g.p.map (fun pi => i.S.A.cmul (-1 : ℂ) pi))) := by
  have hm := (const_lim g).p.map (Q := Tends) (fun i pi => i.A.cmul (-1 : ℂ) pi) (fun pi => E.cmul (-1 : ℂ) pi)
    (fun _ _ _ hab => tendsto_cmul tendsto_const_nhds hab.1)
  filter_upwards [ev_foldMul hm, ev_map (const_lim g).p (fun i pi => (Cx.ofRe (lit i.f (-1))).mul pi) (fun s pi => s.A.cmul (-1 : ℂ) pi)
    (fun a b _ hab => by
      filter_upwards [ev_cmul (a := fun _ => -1) (x := -1) tendsto_const_nhds hab.1] with i hi u hu
      exact hi _ _ cis_neg_one hu)] with i e1 e2 X hX
  exact e1 _ (e2 X hX)

theorem nums_lim (g : Zpk) : Tendsto (fun i => foldMul i.A (g.z.map (fun zi => i.A.cadd (-1 : ℂ) zi))) fine
      (𝓝 (foldMul E (g.z.map (fun zi => E.cadd (-1 : ℂ) zi)))) :=
  tendsto_foldMul ((const_lim g).z.map (Q := Tends) _ _ (fun _ _ _ hab => tendsto_cadd tendsto_const_nhds hab.1))

theorem nums_ev (g : Zpk) :
    ∀ᶠ i in wide, ∀ X : List (Cx (ISetup.f i)), List.Forall₂ CIs X g.z →
      CIs (IeeeDesign.foldMul (X.map fun pi => (Cx.ofRe (lit i.f (-1))).add pi))
        (foldMul i.S.A (g.z.map (fun pi => i.S.A.cadd (-1 : ℂ) pi))) := by
  have hm := (const_lim g).z.map (Q := Tends) (fun i pi => i.A.cadd (-1 : ℂ) pi) (fun pi => E.cadd (-1 : ℂ) pi)
    (fun _ _ _ hab => tendsto_cadd tendsto_const_nhds hab.1)
  filter_upwards [ev_foldMul hm, ev_map (const_lim g).z (fun i pi => (Cx.ofRe (lit i.f (-1))).add pi) (fun s pi => s.A.cadd (-1 : ℂ) pi)
    (fun a b _ hab => by
      filter_upwards [ev_cadd (a := fun _ => -1) (x := -1) tendsto_const_nhds hab.1] with i hi u hu
      exact hi _ _ cis_neg_one hu)] with i e1 e2 X hX
  exact e1 _ (e2 X hX)

/-- The zeros of the high-pass and band-stop transformations before the square root: `c / z * (-i)`. -/
theorem turned_ev (hz : ∀ b ∈ g.z, b ≠ 0) {c : Setup → ℝ} {c0 : ℝ} (hc : Tendsto c fine (𝓝 c0)) :
    ∀ᶠ i in wide, ∀ (u : Ieee (ISetup.f i)) (X : List (Cx i.f)), Is u (c i.S) → List.Forall₂ CIs X g.z →
      List.Forall₂ CIs (X.map fun zi => ((Cx.ofRe u).div zi).mul ⟨0, lit i.f (-1)⟩)
        (g.z.map fun zi => i.S.A.cmul (i.S.A.cdiv (c i.S : ℝ) zi) (-Complex.I)) := by
  refine ev_mapP (T := fun i => Ieee i.f) (const_lim g).z (fun i u => Is u (c i.S))
    (fun i u zi => ((Cx.ofRe u).div zi).mul ⟨0, lit i.f (-1)⟩)
    (fun s zi => s.A.cmul (s.A.cdiv (c s : ℝ) zi) (-Complex.I)) (fun a b hb hab => ?_)
  filter_upwards [ev_cdiv (tendsto_ofReal hc) hab.1 (hz b hb),
    ev_cmul (tendsto_cdiv (tendsto_ofReal hc) hab.1 (hz b hb)) (b := fun _ => -Complex.I) (y := -Complex.I) tendsto_const_nhds]
    with i h1 h2 t u ht hu
  exact h2 _ _ (h1 _ _ (cis_ofRe ht) hu) cis_neg_I

theorem turned_lim (hz : ∀ b ∈ g.z, b ≠ 0) {c : Setup → ℝ} {c0 : ℝ} (hc : Tendsto c fine (𝓝 c0)) :
    Along Tends (fun i => g.z.map fun zi => i.A.cmul (i.A.cdiv (c i : ℝ) zi) (-Complex.I))
      (g.z.map fun zi => E.cmul (E.cdiv (c0 : ℝ) zi) (-Complex.I)) :=
  (const_lim g).z.map (Q := Tends) (fun i zi => i.A.cmul (i.A.cdiv (c i : ℝ) zi) (-Complex.I))
    (fun zi => E.cmul (E.cdiv (c0 : ℝ) zi) (-Complex.I)) (fun _ b hb hab =>
    tendsto_cmul (tendsto_cdiv (tendsto_ofReal hc) hab.1 (hz b hb)) tendsto_const_nhds)

theorem lp2lp_step_lim (hl : g.z.length ≤ g.p.length) (hw0 : 0 < w0) {g' : Zpk}
    (hg : lp2lp E g (some w0) = .ok g') :
    ∃ f' : Setup → Zpk, (∀ i, lp2lp i.A g (some w0) = .ok (f' i)) ∧ ZpkLim Tends Tends f' g' := by
  have hw : Tendsto (fun _ : Setup => w0) fine (𝓝 w0) := tendsto_const_nhds
  simp only [lp2lp, relativeDegree_ok hl, ok_bind] at hg
  cases hg
  refine ⟨_, fun i => by simp only [lp2lp, relativeDegree_ok hl, ok_bind]; rfl, ?_, ?_, ?_⟩
  · exact (const_lim g).z.map _ _ (fun a b _ hab => (hab.scale hw hw0.ne').1)
  · exact (const_lim g).p.map _ _ (fun a b _ hab => (hab.scale hw hw0.ne').1)
  · exact tendsto_mul tendsto_const_nhds (tendsto_powi _ hw hw0)

theorem lp2lp_step_ev (hl : g.z.length ≤ g.p.length) (hw0 : 0 < w0) :
    ∀ᶠ i in wide, ∀ (q : ZpkI (ISetup.f i)) (u : Ieee i.f), ZpkIs q g → Is u w0 →
      Follows (IeeeDesign.lp2lp i.L q (some u)) (lp2lp i.S.A g (some w0)) := by
  have hw : Tendsto (fun _ : Setup => w0) fine (𝓝 w0) := tendsto_const_nhds
  filter_upwards [ev_scale (const_lim g).z (fun _ _ h => h.1) hw, ev_scale (const_lim g).p (fun _ _ h => h.1) hw,
    ev_powi (g.p.length - g.z.length) hw hw0,
    ev_mul (const_lim g).k (tendsto_powi (g.p.length - g.z.length) hw hw0)] with i e1 e2 e3 e4 q u hq hu
  have hd := relDeg_const (const_lim g) hl i.S
  have hd' := relDeg_is hq.1 hq.2.1 hd
  exact ⟨_, _, by simp only [IeeeDesign.lp2lp, hd', ok_bind]; rfl, by simp only [lp2lp, hd, ok_bind]; rfl, e1 u _ hu hq.1,
    e2 u _ hu hq.2.1, e4 _ _ hq.2.2 (e3 u hu)⟩

theorem lp2hp_step_lim (hl : g.z.length ≤ g.p.length) (hz : ∀ b ∈ g.z, b ≠ 0) (hp : ∀ b ∈ g.p, b ≠ 0) {g' : Zpk}
    (hg : lp2hp E g (some w0) = .ok g') :
    ∃ f' : Setup → Zpk, (∀ i, lp2hp i.A g (some w0) = .ok (f' i)) ∧ ZpkLim Tends Tends f' g' := by
  have hw : Tendsto (fun _ : Setup => w0) fine (𝓝 w0) := tendsto_const_nhds
  simp only [lp2hp, relativeDegree_ok hl, ok_bind] at hg
  cases hg
  refine ⟨_, fun i => by simp only [lp2hp, relativeDegree_ok hl, ok_bind]; rfl, ?_, ?_, ?_⟩
  · exact Along.append (turned_lim hz (tendsto_mul hw tendsto_const_nhds)) (Along.replicate tendsto_const_nhds _)
  · exact (const_lim g).p.map _ _ (fun a b hb hab => tendsto_cdiv (tendsto_ofReal hw) hab.1 (hp b hb))
  · exact tendsto_mul tendsto_const_nhds (tendsto_re (tendsto_cdiv (nums_lim g) (prods_lim g) (neg_prod_ne' hp)))

theorem lp2hp_step_ev (hl : g.z.length ≤ g.p.length) (hz : ∀ b ∈ g.z, b ≠ 0) (hp : ∀ b ∈ g.p, b ≠ 0) :
    ∀ᶠ i in wide, ∀ (q : ZpkI (ISetup.f i)) (u : Ieee i.f), ZpkIs q g → Is u w0 →
      Follows (IeeeDesign.lp2hp q (some u)) (lp2hp i.S.A g (some w0)) := by
  have hw : Tendsto (fun _ : Setup => w0) fine (𝓝 w0) := tendsto_const_nhds
  have hm := tendsto_mul hw (b := fun _ => -2) (y := -2) tendsto_const_nhds
  have hphp : ∀ᶠ i in wide, ∀ (u : Ieee (ISetup.f i)) (X : List (Cx i.f)), Is u w0 → List.Forall₂ CIs X g.p →
      List.Forall₂ CIs (X.map fun pi => (Cx.ofRe u).div pi) (g.p.map fun pi => i.S.A.cdiv (w0 : ℂ) pi) := by
    refine ev_mapP (T := fun i => Ieee i.f) (const_lim g).p (fun i u => Is u w0) (fun i u z => (Cx.ofRe u).div z)
      (fun s z => s.A.cdiv (w0 : ℂ) z) (fun a b hb hab => ?_)
    filter_upwards [ev_cdiv (tendsto_ofReal hw) hab.1 (hp b hb)] with i hi t u ht hu
    exact hi _ _ (cis_ofRe ht) hu
  filter_upwards [ev_mul hw (b := fun _ => -2) (y := -2) tendsto_const_nhds, turned_ev hz hm, hphp, nums_ev g, prods_ev g,
    ev_cdiv (nums_lim g) (prods_lim g) (neg_prod_ne' hp),
    ev_mul (const_lim g).k (tendsto_re (tendsto_cdiv (nums_lim g) (prods_lim g) (neg_prod_ne' hp)))]
    with i e0 e1 e2 e3 e4 e5 e6 q u hq hu
  have hd := relDeg_const (const_lim g) hl i.S
  have hd' := relDeg_is hq.1 hq.2.1 hd
  exact ⟨_, _, by simp only [IeeeDesign.lp2hp, hd', ok_bind]; rfl, by simp only [lp2hp, hd, ok_bind]; rfl,
    forall₂_append (e1 _ _ (e0 _ _ hu (is_lit (-2))) hq.1) (forall₂_replicate ⟨is_zero, is_zero⟩ _),
    e2 u _ hu hq.2.1, e6 _ _ hq.2.2 (e5 _ _ (e3 _ hq.1) (e4 _ hq.2.1)).1⟩

/-! ### Band-pass -/

theorem lp2bp_step_lim (hl : g.z.length ≤ g.p.length) (hw0 : 0 < w0) (hv0 : 0 < v0) {g' : Zpk}
    (hg : lp2bp E g (some w0) (some v0) = .ok g') :
    ∃ f' : Setup → Zpk, (∀ i, lp2bp i.A g (some w0) (some v0) = .ok (f' i)) ∧ ZpkLim Tends Tends f' g' := by
  have hw : Tendsto (fun _ : Setup => w0) fine (𝓝 w0) := tendsto_const_nhds
  have hv : Tendsto (fun _ : Setup => v0) fine (𝓝 v0) := tendsto_const_nhds
  have hh := tendsto_div hv (b := fun _ => 2) (y := 2) tendsto_const_nhds (by norm_num)
  have hh0 : v0 / 2 ≠ 0 := by positivity
  simp only [lp2bp, relativeDegree_ok hl, ok_bind] at hg
  cases hg
  refine ⟨_, fun i => by simp only [lp2bp, relativeDegree_ok hl, ok_bind]; rfl, ?_, ?_, ?_⟩
  · exact Along.append (splitPm_shape ((const_lim g).z.map _ _ (fun a b _ hab => hab.scale hh hh0)) hw hw0)
      (Along.replicate tendsto_const_nhds _)
  · exact splitPm_shape ((const_lim g).p.map _ _ (fun a b _ hab => hab.scale hh hh0)) hw hw0
  · exact tendsto_mul tendsto_const_nhds (tendsto_powi _ hv hv0)

theorem swap_front (A : Arith) (l : List ℂ) (w : ℝ) (cz : List Bool) (h : cz.length = l.length) (r : List ℂ) :
    swapPairs cz (splitPm A l w ++ r) = swapPairs cz (splitPm A l w) ++ r := by
  rw [splitPm_eq]
  have k1 := swapPairs_append cz (l.map fun z => A.cadd z (A.csqrt (A.csub (A.csq z) (A.powi w 2 : ℝ))))
    (l.map fun z => A.csub z (A.csqrt (A.csub (A.csq z) (A.powi w 2 : ℝ))))
  have k2 := k1 r (by simp [h]) (by simp [h])
  have k3 := k1 [] (by simp [h]) (by simp [h])
  rw [List.append_nil, List.append_nil] at k3
  rw [k2, k3]

theorem lp2bp_step_ev (hl : g.z.length ≤ g.p.length) (hw0 : 0 < w0) (hv0 : 0 < v0) :
    ∀ᶠ i in wide, ∀ (q : ZpkI (ISetup.f i)) (u t : Ieee i.f), ZpkIs q g → Is u w0 → Is t v0 →
      FollowsUpTo g.z.length g.p.length (IeeeDesign.lp2bp i.L q (some u) (some t)) (lp2bp i.S.A g (some w0) (some v0)) := by
  have hw : Tendsto (fun _ : Setup => w0) fine (𝓝 w0) := tendsto_const_nhds
  have hv : Tendsto (fun _ : Setup => v0) fine (𝓝 v0) := tendsto_const_nhds
  have hh := tendsto_div hv (b := fun _ => 2) (y := 2) tendsto_const_nhds (by norm_num)
  have hh0 : v0 / 2 ≠ 0 := by positivity
  have hZ := (const_lim g).z.map (Q := Shape) (fun i z => i.A.cmul z (i.A.div v0 2 : ℝ)) (fun z => z * ((v0 / 2 : ℝ) : ℂ))
    (fun a b _ hab => hab.scale hh hh0)
  have hP := (const_lim g).p.map (Q := Shape) (fun i z => i.A.cmul z (i.A.div v0 2 : ℝ)) (fun z => z * ((v0 / 2 : ℝ) : ℂ))
    (fun a b _ hab => hab.scale hh hh0)
  filter_upwards [ev_div hv (b := fun _ => 2) (y := 2) tendsto_const_nhds (by norm_num),
    ev_scale (const_lim g).z (fun _ _ h => h.1) hh, ev_scale (const_lim g).p (fun _ _ h => h.1) hh,
    splitPm_shape_ev hZ hw hw0, splitPm_shape_ev hP hw hw0,
    ev_powi (g.p.length - g.z.length) hv hv0, ev_mul (const_lim g).k (tendsto_powi (g.p.length - g.z.length) hv hv0)]
    with i e1 e2 e3 e4 e5 e6 e7 q u t hq hu ht
  have hd := relDeg_const (const_lim g) hl i.S
  have hd' := relDeg_is hq.1 hq.2.1 hd
  have hbw := e1 _ _ ht (is_lit 2)
  obtain ⟨cz, c1, c2⟩ := e4 _ u (e2 _ _ hbw hq.1) hu
  obtain ⟨cp, c3, c4⟩ := e5 _ u (e3 _ _ hbw hq.2.1) hu
  rw [List.length_map] at c1 c3
  refine ⟨_, _, cz, cp, by simp only [IeeeDesign.lp2bp, hd', ok_bind]; rfl, by simp only [lp2bp, hd, ok_bind]; rfl, c1, c3, ?_, c4,
    e7 _ _ hq.2.2 (e6 t ht)⟩
  change List.Forall₂ CIs _ (swapPairs cz (splitPm i.S.A (g.z.map fun zi => i.S.A.cmul zi (i.S.A.div v0 2 : ℝ)) w0 ++
    List.replicate _ 0))
  rw [swap_front _ _ _ _ (by rw [List.length_map]; exact c1)]
  exact forall₂_append c2 (forall₂_replicate ⟨is_zero, is_zero⟩ _)

/-! ### The bilinear transformation -/

theorem bilinear_step_lim (hl : g.z.length ≤ g.p.length) (hz : ∀ b ∈ g.z, ((2 * w0 : ℝ) : ℂ) - b ≠ 0)
    (hp : ∀ b ∈ g.p, ((2 * w0 : ℝ) : ℂ) - b ≠ 0) {g' : Zpk} (hg : bilinear E g w0 = .ok g') :
    ∃ f' : Setup → Zpk, (∀ i, bilinear i.A g w0 = .ok (f' i)) ∧ ZpkLim Tends Tends f' g' := by
  have h4 : Tendsto (fun i : Setup => ((i.A.mul 2 w0 : ℝ) : ℂ)) fine (𝓝 ((2 * w0 : ℝ) : ℂ)) :=
    tendsto_ofReal (tendsto_mul tendsto_const_nhds tendsto_const_nhds)
  have cay : ∀ (a : Setup → ℂ) (b : ℂ), Tendsto a fine (𝓝 b) → ((2 * w0 : ℝ) : ℂ) - b ≠ 0 →
      Tendsto (fun i => i.A.cdiv (i.A.cadd ((i.A.mul 2 w0 : ℝ) : ℂ) (a i)) (i.A.csub ((i.A.mul 2 w0 : ℝ) : ℂ) (a i))) fine
        (𝓝 ((((2 * w0 : ℝ) : ℂ) + b) / (((2 * w0 : ℝ) : ℂ) - b))) :=
    fun a b hab hb => tendsto_cdiv (tendsto_cadd h4 hab) (tendsto_csub h4 hab) hb
  have sub : ∀ l : List ℂ, Tendsto (fun i => foldMul i.A (l.map fun z => i.A.csub ((i.A.mul 2 w0 : ℝ) : ℂ) z)) fine
      (𝓝 (foldMul E (l.map fun z => E.csub ((2 * w0 : ℝ) : ℂ) z))) := fun l =>
    tendsto_foldMul ((along_const l).map (Q := Tends) (fun i z => i.A.csub ((i.A.mul 2 w0 : ℝ) : ℂ) z) (fun z => E.csub ((2 * w0 : ℝ) : ℂ) z)
      (fun a b _ hab => tendsto_csub h4 hab.1))
  have hne : foldMul E (g.p.map fun z => E.csub ((2 * w0 : ℝ) : ℂ) z) ≠ 0 := by
    rw [foldMul_E]
    refine prod_ne_zero_of (fun x hx => ?_)
    obtain ⟨y, hy, rfl⟩ := List.mem_map.mp hx
    exact hp y hy
  simp only [bilinear, relativeDegree_ok hl, ok_bind] at hg
  cases hg
  refine ⟨_, fun i => by simp only [bilinear, relativeDegree_ok hl, ok_bind]; rfl, ?_, ?_, ?_⟩
  · exact Along.append ((const_lim g).z.map _ _ (fun a b hb hab => cay a b hab.1 (hz b hb))) (Along.replicate tendsto_const_nhds _)
  · exact (const_lim g).p.map _ _ (fun a b hb hab => cay a b hab.1 (hp b hb))
  · exact tendsto_mul tendsto_const_nhds (tendsto_re (tendsto_cdiv (sub g.z) (sub g.p) hne))

theorem bilinear_step_ev (hl : g.z.length ≤ g.p.length) (hz : ∀ b ∈ g.z, ((2 * w0 : ℝ) : ℂ) - b ≠ 0)
    (hp : ∀ b ∈ g.p, ((2 * w0 : ℝ) : ℂ) - b ≠ 0) :
    ∀ᶠ i in wide, ∀ (q : ZpkI (ISetup.f i)) (u : Ieee i.f), ZpkIs q g → Is u w0 →
      Follows (IeeeDesign.bilinear q u) (bilinear i.S.A g w0) := by
  have h2 : Tendsto (fun i : Setup => i.A.mul 2 w0) fine (𝓝 (2 * w0)) := tendsto_mul tendsto_const_nhds tendsto_const_nhds
  have h4 : Tendsto (fun i : Setup => ((i.A.mul 2 w0 : ℝ) : ℂ)) fine (𝓝 ((2 * w0 : ℝ) : ℂ)) := tendsto_ofReal h2
  have cay : ∀ (a : Setup → ℂ) (b : ℂ), Tendsto a fine (𝓝 b) → ((2 * w0 : ℝ) : ℂ) - b ≠ 0 → ∀ᶠ i in wide,
      ∀ (t : Ieee (ISetup.f i)) u, Is t (i.S.A.mul 2 w0) → CIs u (a i.S) →
        CIs (((Cx.ofRe t).add u).div ((Cx.ofRe t).sub u))
          (i.S.A.cdiv (i.S.A.cadd ((i.S.A.mul 2 w0 : ℝ) : ℂ) (a i.S)) (i.S.A.csub ((i.S.A.mul 2 w0 : ℝ) : ℂ) (a i.S))) := by
    intro a b hab hb
    filter_upwards [ev_cadd h4 hab, ev_csub h4 hab, ev_cdiv (tendsto_cadd h4 hab) (tendsto_csub h4 hab) hb]
      with i h1 h2 h3 t u ht hu
    exact h3 _ _ (h1 _ _ (cis_ofRe ht) hu) (h2 _ _ (cis_ofRe ht) hu)
  have subs : ∀ l : List ℂ, Along Tends (fun i => l.map fun z => i.A.csub ((i.A.mul 2 w0 : ℝ) : ℂ) z)
      (l.map fun z => E.csub ((2 * w0 : ℝ) : ℂ) z) := fun l =>
    (along_const l).map (Q := Tends) (fun i z => i.A.csub ((i.A.mul 2 w0 : ℝ) : ℂ) z) (fun z => E.csub ((2 * w0 : ℝ) : ℂ) z)
      (fun a b _ hab => tendsto_csub h4 hab.1)
  have hne : foldMul E (g.p.map fun z => E.csub ((2 * w0 : ℝ) : ℂ) z) ≠ 0 := by
    rw [foldMul_E]
    refine prod_ne_zero_of (fun x hx => ?_)
    obtain ⟨y, hy, rfl⟩ := List.mem_map.mp hx
    exact hp y hy
  have sub : ∀ l : List ℂ,
      ∀ᶠ i in wide, ∀ (t : Ieee (ISetup.f i)) (X : List (Cx i.f)), Is t (i.S.A.mul 2 w0) → List.Forall₂ CIs X l →
        List.Forall₂ CIs (X.map fun z => (Cx.ofRe t).sub z) (l.map fun z => i.S.A.csub ((i.S.A.mul 2 w0 : ℝ) : ℂ) z) := by
    intro l
    refine ev_mapP (T := fun i => Ieee i.f) (along_const l) (fun i t => Is t (i.S.A.mul 2 w0)) (fun i t z => (Cx.ofRe t).sub z)
      (fun s z => s.A.csub ((s.A.mul 2 w0 : ℝ) : ℂ) z) (fun a b _ hab => ?_)
    filter_upwards [ev_csub h4 hab.1] with i hi t u ht hu
    exact hi _ _ (cis_ofRe ht) hu
  filter_upwards [ev_mul (a := fun _ => 2) (b := fun _ => w0) (x := 2) (y := w0) tendsto_const_nhds tendsto_const_nhds,
    sub g.z, sub g.p, ev_foldMul (subs g.z), ev_foldMul (subs g.p),
    ev_cdiv (tendsto_foldMul (subs g.z)) (tendsto_foldMul (subs g.p)) hne,
    ev_mul (const_lim g).k (tendsto_re (tendsto_cdiv (tendsto_foldMul (subs g.z)) (tendsto_foldMul (subs g.p)) hne)),
    ev_mapP (T := fun i => Ieee i.f) (const_lim g).z (fun i t => Is t (i.S.A.mul 2 w0)) (fun i t u => ((Cx.ofRe t).add u).div ((Cx.ofRe t).sub u))
      (fun s z => s.A.cdiv (s.A.cadd ((s.A.mul 2 w0 : ℝ) : ℂ) z) (s.A.csub ((s.A.mul 2 w0 : ℝ) : ℂ) z))
      (fun a b hb hab => cay a b hab.1 (hz b hb)),
    ev_mapP (T := fun i => Ieee i.f) (const_lim g).p (fun i t => Is t (i.S.A.mul 2 w0)) (fun i t u => ((Cx.ofRe t).add u).div ((Cx.ofRe t).sub u))
      (fun s z => s.A.cdiv (s.A.cadd ((s.A.mul 2 w0 : ℝ) : ℂ) z) (s.A.csub ((s.A.mul 2 w0 : ℝ) : ℂ) z))
      (fun a b hb hab => cay a b hab.1 (hp b hb))] with i e1 e2 e3 e4 e5 e6 e7 e8 e9 q u hq hu
  have hd := relDeg_const (const_lim g) hl i.S
  have hd' := relDeg_is hq.1 hq.2.1 hd
  have ht := e1 _ _ (is_lit 2) hu
  exact ⟨_, _, by simp only [IeeeDesign.bilinear, hd', ok_bind]; rfl, by simp only [bilinear, hd, ok_bind]; rfl,
    forall₂_append (e8 _ _ ht hq.1) (forall₂_replicate cis_neg_one _),
    e9 _ _ ht hq.2.1, e7 _ _ hq.2.2 (e6 _ _ (e4 _ (e2 _ _ ht hq.1)) (e5 _ (e3 _ _ ht hq.2.1))).1⟩

/-! ### Band-stop -/

theorem shape_turned {a : Setup → ℂ} {b : ℂ} (hab : Shape a b) (hb : b ≠ 0) {h : Setup → ℝ} {h0 : ℝ}
    (hh : Tendsto h fine (𝓝 h0)) (hh0 : h0 ≠ 0) :
    Shape (fun i => i.A.cmul (i.A.cdiv (⟨0, h i⟩ : ℂ) (a i)) (-Complex.I)) ((⟨0, h0⟩ : ℂ) / b * (-Complex.I)) := by
  have hT := tendsto_cmul (tendsto_cdiv (tendsto_mk (a := fun _ => 0) (x := 0) tendsto_const_nhds hh) hab.1 hb)
    (b := fun _ => -Complex.I) (y := -Complex.I) tendsto_const_nhds
  have hn : Complex.normSq b ≠ 0 := fun h => hb (Complex.normSq_eq_zero.mp h)
  refine ⟨hT, fun h1 i => ?_, fun h1 i => ?_⟩
  · have hbi : b.im = 0 := by
      rw [mk_div_I, div_eq_mul_inv, Complex.im_ofReal_mul, Complex.inv_im] at h1
      rcases div_eq_zero_iff.mp ((mul_eq_zero.mp h1).resolve_left hh0) with h3 | h3
      · linarith
      · exact absurd h3 hn
    have ha := hab.2.1 hbi i
    have hre : (i.A.cdiv (⟨0, h i⟩ : ℂ) (a i)).re = 0 := by
      change i.r.rnd (i.r.rnd (i.r.rnd (0 * (a i).re) + i.r.rnd (_ * (a i).im)) / _) = 0
      simp [ha, i.r.zero]
    change i.r.rnd (i.r.rnd ((i.A.cdiv (⟨0, h i⟩ : ℂ) (a i)).re * (-Complex.I).im) + i.r.rnd (_ * (-Complex.I).re)) = 0
    rw [hre]
    simp [i.r.zero]
  · have hbr : b.re = 0 := by
      rw [mk_div_I, div_eq_mul_inv, Complex.re_ofReal_mul, Complex.inv_re] at h1
      exact (div_eq_zero_iff.mp ((mul_eq_zero.mp h1).resolve_left hh0)).resolve_right hn
    have ha := hab.2.2 hbr i
    have him : (i.A.cdiv (⟨0, h i⟩ : ℂ) (a i)).im = 0 := by
      change i.r.rnd (i.r.rnd (i.r.rnd (h i * (a i).re) - i.r.rnd (0 * (a i).im)) / _) = 0
      simp [ha, i.r.zero]
    change i.r.rnd (i.r.rnd (_ * (-Complex.I).re) - i.r.rnd ((i.A.cdiv (⟨0, h i⟩ : ℂ) (a i)).im * (-Complex.I).im)) = 0
    rw [him]
    simp [i.r.zero]

/-- The root of a band-stop zero, whose imaginary part has been removed. -/
noncomputable def bsRoot (A : Arith) (z : ℂ) (w : ℝ) : ℂ := A.csqrt (A.csub (A.csq (A.csub z (⟨0, z.im⟩ : ℂ))) (A.powi w 2 : ℝ))

theorem bsZeros_eq (A : Arith) (l : List ℂ) (w : ℝ) : bsZeros A l w =
    (l.map fun z => (⟨z.re, (bsRoot A z w).im⟩ : ℂ)) ++ l.map fun z => (⟨z.re, A.mul (bsRoot A z w).im (-1)⟩ : ℂ) := by
  unfold bsZeros bsRoot
  simp [List.map_map, Function.comp_def]

theorem removed_im (i : Setup) (z : ℂ) : (i.A.csub z (⟨0, z.im⟩ : ℂ)).im = 0 := by
  change i.r.rnd (z.im - z.im) = 0
  rw [sub_self, i.r.zero]

theorem bsRoot_lim {a : Setup → ℂ} {b : ℂ} (h : Tendsto a fine (𝓝 b)) {w : Setup → ℝ} {w0 : ℝ}
    (hw : Tendsto w fine (𝓝 w0)) (hw0 : 0 < w0) :
    Tendsto (fun i => bsRoot i.A (a i) (w i)) fine (𝓝 (bsRoot E b w0)) := by
  have h1 := tendsto_csub h (tendsto_mk (a := fun _ => 0) (x := 0) tendsto_const_nhds (tendsto_im h))
  have hD := tendsto_csub (tendsto_csq h1) (tendsto_ofReal (tendsto_powi 2 hw hw0))
  refine tendsto_csqrt_real hD ?_ (fun i => flSub_im i (flSq_im i (.inr (removed_im i _))) rfl)
  change ((b - (⟨0, b.im⟩ : ℂ)) ^ 2 - ((w0 ^ 2 : ℝ) : ℂ)).im = 0
  rw [Complex.sub_im, Complex.ofReal_im, sq, Complex.mul_im, Complex.sub_im]
  simp

theorem bsZeros_lim {F : Setup → List ℂ} {l : List ℂ} (h : Along Tends F l) {w : Setup → ℝ} {w0 : ℝ}
    (hw : Tendsto w fine (𝓝 w0)) (hw0 : 0 < w0) :
    Along Tends (fun i => bsZeros i.A (F i) (w i)) (bsZeros E l w0) := by
  simp only [bsZeros_eq]
  refine Along.append (h.map _ _ (fun a b hb hab => ?_)) (h.map _ _ (fun a b hb hab => ?_))
  · exact tendsto_mk (tendsto_re hab) (tendsto_im (bsRoot_lim hab hw hw0))
  · exact tendsto_mk (tendsto_re hab) (tendsto_mul (tendsto_im (bsRoot_lim hab hw hw0)) tendsto_const_nhds)

theorem bsZeros_ev (hsq : ∀ (i : ISetup), i ∈ K → ∀ a, i.L.cpowi2 a = a.mul a) {F : Setup → List ℂ} {l : List ℂ}
    (h : Along Tends F l) {w : Setup → ℝ} {w0 : ℝ} (hw : Tendsto w fine (𝓝 w0)) (hw0 : 0 < w0) :
    ∀ᶠ i in wide, i ∈ K → ∀ (X : List (Cx (ISetup.f i))) (u : Ieee i.f), List.Forall₂ CIs X (F i.S) → Is u (w i.S) →
      ∃ cs : List Bool, cs.length = l.length ∧
        List.Forall₂ CIs (IeeeDesign.bsZeros i.L X u) (swapPairs cs (bsZeros i.S.A (F i.S) (w i.S))) := by
  have key : ∀ᶠ i in wide, i ∈ K → ∀ (X : List (Cx (ISetup.f i))) (u : Ieee i.f), List.Forall₂ CIs X (F i.S) → Is u (w i.S) →
      ∃ cs : List Bool, cs.length = l.length ∧
        List.Forall₂ CIs (X.map fun z => Cx.mk z.re (i.L.csqrt ((i.L.cpowi2 (z.sub ⟨0, z.im⟩)).sub (Cx.ofRe (i.L.powi u 2)))).im)
          (sel cs ((F i.S).map fun z => (⟨z.re, (bsRoot i.S.A z (w i.S)).im⟩ : ℂ))
            ((F i.S).map fun z => (⟨z.re, i.S.A.mul (bsRoot i.S.A z (w i.S)).im (-1)⟩ : ℂ))) ∧
        List.Forall₂ CIs (X.map fun z => Cx.mk z.re ((i.L.csqrt ((i.L.cpowi2 (z.sub ⟨0, z.im⟩)).sub (Cx.ofRe (i.L.powi u 2)))).im * lit i.f (-1)))
          (sel cs ((F i.S).map fun z => (⟨z.re, i.S.A.mul (bsRoot i.S.A z (w i.S)).im (-1)⟩ : ℂ))
            ((F i.S).map fun z => (⟨z.re, (bsRoot i.S.A z (w i.S)).im⟩ : ℂ))) := by
    induction h with
    | nil =>
      refine Eventually.of_forall fun i _ X u hX hu => ⟨[], rfl, ?_⟩
      cases hX
      exact ⟨.nil, .nil⟩
    | @cons a b F L ha _ ih =>
      have ha : Tendsto a fine (𝓝 b) := ha
      have hm := tendsto_mk (a := fun _ => 0) (x := 0) tendsto_const_nhds (tendsto_im ha)
      have h1 := tendsto_csub ha hm
      have hsq1 : Tendsto (fun i => i.A.cmul (i.A.csub (a i) ⟨0, (a i).im⟩) (i.A.csub (a i) ⟨0, (a i).im⟩)) fine
          (𝓝 ((b - ⟨0, b.im⟩) * (b - ⟨0, b.im⟩))) := tendsto_cmul h1 h1
      have hpw := tendsto_ofReal (tendsto_powi 2 hw hw0)
      have hy := bsRoot_lim ha hw hw0
      filter_upwards [ih, ev_csub ha hm, ev_cmul h1 h1, ev_powi 2 hw hw0, ev_csub hsq1 hpw,
        ev_csqrt (tendsto_csub hsq1 hpw) ⟨_, hy⟩, ev_mul (tendsto_im hy) (b := fun _ => -1) (y := -1) tendsto_const_nhds,
        ev_mul (tendsto_im hy).neg (b := fun _ => -1) (y := -1) tendsto_const_nhds]
        with i h0 e1 e2 e3 e4 e5 e6 e7 hK X u hX hu
      cases hX with
      | @cons x _ X _ hx hX =>
        obtain ⟨cs, hcs, k1, k2⟩ := h0 hK X u hX hu
        have q1 := e1 x ⟨0, x.im⟩ hx ⟨is_zero, hx.2⟩
        have hd := e4 _ _ (e2 _ _ q1 q1) (cis_ofRe (e3 u hu))
        rw [← hsq i hK] at hd
        rcases e5 _ hd with hs | ⟨him, hre, hs⟩
        · have hs : CIs _ (bsRoot i.S.A (a i.S) (w i.S)) := hs
          exact ⟨false :: cs, by simp [hcs], .cons ⟨hx.1, hs.2⟩ k1, .cons ⟨hx.1, e6 _ _ hs.2 (is_lit (-1))⟩ k2⟩
        · have hs : CIs _ ((starRingEnd ℂ) (bsRoot i.S.A (a i.S) (w i.S))) := hs
          have eroot : i.f.r.rnd (bsRoot i.S.A (a i.S) (w i.S)).im = (bsRoot i.S.A (a i.S) (w i.S)).im := by
            change i.f.r.rnd (flSqrt i.f.r i.m (i.S.A.csub (i.S.A.cmul (i.S.A.csub (a i.S) ⟨0, (a i.S).im⟩)
              (i.S.A.csub (a i.S) ⟨0, (a i.S).im⟩)) (i.S.A.powi (w i.S) 2 : ℝ))).im = (flSqrt i.f.r i.m (i.S.A.csub (i.S.A.cmul
              (i.S.A.csub (a i.S) ⟨0, (a i.S).im⟩) (i.S.A.csub (a i.S) ⟨0, (a i.S).im⟩)) (i.S.A.powi (w i.S) 2 : ℝ))).im
            unfold flSqrt
            rw [if_pos him, if_neg (not_le.mpr hre)]
            exact i.acc.nearest.idem _
          have s2 := hs.2
          rw [Complex.conj_im] at s2
          have f1 : i.S.A.mul (bsRoot i.S.A (a i.S) (w i.S)).im (-1) = -(bsRoot i.S.A (a i.S) (w i.S)).im := by
            change i.f.r.rnd (_ * -1) = _
            rw [mul_neg_one, i.acc.nearest.odd, eroot]
          have f2 : i.S.A.mul (-(bsRoot i.S.A (a i.S) (w i.S)).im) (-1) = (bsRoot i.S.A (a i.S) (w i.S)).im := by
            change i.f.r.rnd (_ * -1) = _
            rw [mul_neg_one, neg_neg, eroot]
          have q2 := e7 _ _ s2 (is_lit (-1))
          rw [f2] at q2
          refine ⟨true :: cs, by simp [hcs], .cons ⟨hx.1, ?_⟩ k1, .cons ⟨hx.1, q2⟩ k2⟩
          change Is _ (i.S.A.mul (bsRoot i.S.A (a i.S) (w i.S)).im (-1))
          rw [f1]
          exact s2
  filter_upwards [key] with i hi hK X u hX hu
  obtain ⟨cs, hcs, k1, k2⟩ := hi hK X u hX hu
  refine ⟨cs, hcs, ?_⟩
  have hl := h.length i.S
  rw [bsZeros_eq]
  have e := swapPairs_append cs ((F i.S).map fun z => (⟨z.re, (bsRoot i.S.A z (w i.S)).im⟩ : ℂ))
    ((F i.S).map fun z => (⟨z.re, i.S.A.mul (bsRoot i.S.A z (w i.S)).im (-1)⟩ : ℂ)) []
    (by rw [List.length_map, hl, hcs]) (by rw [List.length_map, hl, hcs])
  rw [List.append_nil, List.append_nil] at e
  rw [e]
  have e2 : IeeeDesign.bsZeros i.L X u =
      (X.map fun z => Cx.mk z.re (i.L.csqrt ((i.L.cpowi2 (z.sub ⟨0, z.im⟩)).sub (Cx.ofRe (i.L.powi u 2)))).im) ++
      (X.map fun z => Cx.mk z.re ((i.L.csqrt ((i.L.cpowi2 (z.sub ⟨0, z.im⟩)).sub (Cx.ofRe (i.L.powi u 2)))).im * lit i.f (-1))) := by
    unfold IeeeDesign.bsZeros
    simp [List.map_map, Function.comp_def]
  rw [e2]
  exact forall₂_append k1 k2

theorem reals_lim (l : List ℂ) : Tendsto (fun i => l.foldl (fun acc zi => i.A.mul acc zi.re) 1) fine
    (𝓝 (l.foldl (fun acc zi => E.mul acc zi.re) 1)) := by
  have key : ∀ (a : Setup → ℝ) (b : ℝ), Tendsto a fine (𝓝 b) →
      Tendsto (fun i => l.foldl (fun acc zi => i.A.mul acc zi.re) (a i)) fine (𝓝 (l.foldl (fun acc zi => E.mul acc zi.re) b)) := by
    induction l with
    | nil => exact fun a b h => h
    | cons x l ih => exact fun a b h => ih _ _ (tendsto_mul h tendsto_const_nhds)
  exact key _ _ tendsto_const_nhds

theorem reals_ev (l : List ℂ) : ∀ᶠ i in wide, ∀ X : List (Cx (ISetup.f i)), List.Forall₂ CIs X l →
    Is (X.foldl (fun acc zi => acc * zi.re) 1) (l.foldl (fun acc zi => i.S.A.mul acc zi.re) 1) := by
  have key : ∀ (a : Setup → ℝ) (b : ℝ), Tendsto a fine (𝓝 b) → ∀ᶠ i in wide, ∀ (u : Ieee (ISetup.f i)) (X : List (Cx i.f)),
      Is u (a i.S) → List.Forall₂ CIs X l →
      Is (X.foldl (fun acc zi => acc * zi.re) u) (l.foldl (fun acc zi => i.S.A.mul acc zi.re) (a i.S)) := by
    induction l with
    | nil =>
      refine fun a b h => Eventually.of_forall fun i u X hu hX => ?_
      cases hX
      exact hu
    | cons x l ih =>
      intro a b h
      filter_upwards [ih _ _ (tendsto_mul h (b := fun _ => x.re) (y := x.re) tendsto_const_nhds),
        ev_mul h (b := fun _ => x.re) (y := x.re) tendsto_const_nhds] with i h1 h2 u X hu hX
      cases hX with
      | @cons y _ Y _ hx hX =>
        rw [List.foldl_cons, List.foldl_cons]
        exact h1 _ _ (h2 _ _ hu hx.1) hX
  filter_upwards [key (fun _ => 1) 1 tendsto_const_nhds] with i hi X hX
  exact hi _ _ is_one hX

theorem lp2bs_step_lim (hl : g.z.length ≤ g.p.length) (hz : ∀ b ∈ g.z, b ≠ 0) (hp : ∀ b ∈ g.p, b ≠ 0)
    (hd : (foldMul E (g.p.map (fun pi => E.cmul (-1 : ℂ) pi))).re ≠ 0) (hw0 : 0 < w0) (hv0 : 0 < v0) {g' : Zpk}
    (hg : lp2bs E g (some w0) (some v0) = .ok g') :
    ∃ f' : Setup → Zpk, (∀ i, lp2bs i.A g (some w0) (some v0) = .ok (f' i)) ∧ ZpkLim Tends Tends f' g' := by
  have hw : Tendsto (fun _ : Setup => w0) fine (𝓝 w0) := tendsto_const_nhds
  have hv : Tendsto (fun _ : Setup => v0) fine (𝓝 v0) := tendsto_const_nhds
  have hh := tendsto_div hv (b := fun _ => 2) (y := 2) tendsto_const_nhds (by norm_num)
  have hh0 : v0 / 2 ≠ 0 := by positivity
  simp only [lp2bs, relativeDegree_ok hl, ok_bind] at hg
  cases hg
  refine ⟨_, fun i => by simp only [lp2bs, relativeDegree_ok hl, ok_bind]; rfl, ?_, ?_, ?_⟩
  · refine Along.append (Along.append ?_ (Along.replicate ?_ _)) (Along.replicate ?_ _)
    · exact bsZeros_lim (turned_lim hz (tendsto_mul hv tendsto_const_nhds)) hw hw0
    · exact tendsto_mk tendsto_const_nhds (tendsto_mul tendsto_const_nhds hw)
    · exact tendsto_mk tendsto_const_nhds (tendsto_mul tendsto_const_nhds hw)
  · exact splitPm_shape ((const_lim g).p.map _ _ (fun a b hb hab => shape_turned hab (hp b hb) hh hh0)) hw hw0
  · exact tendsto_mul tendsto_const_nhds (tendsto_div (reals_lim g.z) (tendsto_re (prods_lim g)) hd)

theorem swap_front_bs (A : Arith) (l : List ℂ) (w : ℝ) (cz : List Bool) (h : cz.length = l.length) (r : List ℂ) :
    swapPairs cz (bsZeros A l w ++ r) = swapPairs cz (bsZeros A l w) ++ r := by
  rw [bsZeros_eq]
  have k1 := swapPairs_append cz (l.map fun z => (⟨z.re, (bsRoot A z w).im⟩ : ℂ))
    (l.map fun z => (⟨z.re, A.mul (bsRoot A z w).im (-1)⟩ : ℂ))
  have k2 := k1 r (by simp [h]) (by simp [h])
  have k3 := k1 [] (by simp [h]) (by simp [h])
  rw [List.append_nil, List.append_nil] at k3
  rw [k2, k3]

theorem lp2bs_step_ev (hl : g.z.length ≤ g.p.length) (hz : ∀ b ∈ g.z, b ≠ 0) (hp : ∀ b ∈ g.p, b ≠ 0)
    (hd : (foldMul E (g.p.map (fun pi => E.cmul (-1 : ℂ) pi))).re ≠ 0) (hw0 : 0 < w0) (hv0 : 0 < v0) :
    ∀ᶠ i in wide, (∀ a, (ISetup.L i).cpowi2 a = a.mul a) →
      ∀ (q : ZpkI (ISetup.f i)) (u t : Ieee i.f), ZpkIs q g → Is u w0 → Is t v0 →
      FollowsUpTo g.z.length g.p.length (IeeeDesign.lp2bs i.L q (some u) (some t)) (lp2bs i.S.A g (some w0) (some v0)) := by
  have hw : Tendsto (fun _ : Setup => w0) fine (𝓝 w0) := tendsto_const_nhds
  have hv : Tendsto (fun _ : Setup => v0) fine (𝓝 v0) := tendsto_const_nhds
  have hh := tendsto_div hv (b := fun _ => 2) (y := 2) tendsto_const_nhds (by norm_num)
  have hh0 : v0 / 2 ≠ 0 := by positivity
  have hm := tendsto_mul hv (b := fun _ => -1) (y := -1) tendsto_const_nhds
  have hP := (const_lim g).p.map (Q := Shape) (fun i z => i.A.cmul (i.A.cdiv (⟨0, i.A.div v0 2⟩ : ℂ) z) (-Complex.I))
    (fun z => (⟨0, v0 / 2⟩ : ℂ) / z * (-Complex.I)) (fun a b hb hab => shape_turned hab (hp b hb) hh hh0)
  have hphp : ∀ᶠ i in wide, ∀ (u : Ieee (ISetup.f i)) (X : List (Cx i.f)), Is u (i.S.A.div v0 2) →
      List.Forall₂ CIs X g.p →
      List.Forall₂ CIs (X.map fun z => ((Cx.mk 0 u).div z).mul ⟨0, lit i.f (-1)⟩)
        (g.p.map fun z => i.S.A.cmul (i.S.A.cdiv (⟨0, i.S.A.div v0 2⟩ : ℂ) z) (-Complex.I)) := by
    refine ev_mapP (T := fun i => Ieee i.f) (const_lim g).p (fun i u => Is u (i.S.A.div v0 2))
      (fun i u z => ((Cx.mk 0 u).div z).mul ⟨0, lit i.f (-1)⟩)
      (fun s z => s.A.cmul (s.A.cdiv (⟨0, s.A.div v0 2⟩ : ℂ) z) (-Complex.I)) (fun a b hb hab => ?_)
    have h1 := tendsto_mk (a := fun _ => 0) (x := 0) tendsto_const_nhds hh
    filter_upwards [ev_cdiv h1 hab.1 (hp b hb),
      ev_cmul (tendsto_cdiv h1 hab.1 (hp b hb)) (b := fun _ => -Complex.I) (y := -Complex.I) tendsto_const_nhds]
      with i h1 h2 t u ht hu
    exact h2 _ _ (h1 ⟨0, t⟩ _ ⟨is_zero, ht⟩ hu) cis_neg_I
  have hre := tendsto_re (prods_lim g)
  filter_upwards [ev_mul hv (b := fun _ => -1) (y := -1) tendsto_const_nhds, turned_ev hz hm,
    bsZeros_ev (K := {i | ∀ a, (ISetup.L i).cpowi2 a = a.mul a}) (fun i h => h) (turned_lim hz hm) hw hw0,
    ev_div hv (b := fun _ => 2) (y := 2) tendsto_const_nhds (by norm_num), hphp, splitPm_shape_ev hP hw hw0, prods_ev g,
    reals_ev g.z, ev_div (reals_lim g.z) hre hd, ev_mul (const_lim g).k (tendsto_div (reals_lim g.z) hre hd),
    ev_mul (a := fun _ => 1) (x := 1) tendsto_const_nhds hw, ev_mul (a := fun _ => -1) (x := -1) tendsto_const_nhds hw]
    with i e1 e2 e3 e4 e5 e6 e7 e8 e9 e10 e11 e12 hK q u t hq hu ht
  have hd := relDeg_const (const_lim g) hl i.S
  have hd' := relDeg_is hq.1 hq.2.1 hd
  obtain ⟨cz, c1, c2⟩ := e3 hK _ u (e2 _ _ (e1 _ _ ht (is_lit (-1))) hq.1) hu
  obtain ⟨cp, c3, c4⟩ := e6 _ u (e5 _ _ (e4 _ _ ht (is_lit 2)) hq.2.1) hu
  rw [List.length_map] at c1 c3
  refine ⟨_, _, cz, cp, by simp only [IeeeDesign.lp2bs, hd', ok_bind]; rfl, by simp only [lp2bs, hd, ok_bind]; rfl, c1, c3, ?_, c4,
    e10 _ _ hq.2.2 (e9 _ _ (e8 _ hq.1) (e7 _ hq.2.1).1)⟩
  change List.Forall₂ CIs _ (swapPairs cz (bsZeros i.S.A (g.z.map fun zi => i.S.A.cmul (i.S.A.cdiv (i.S.A.mul v0 (-1) : ℝ) zi) (-Complex.I)) w0 ++
    List.replicate _ _ ++ List.replicate _ _))
  rw [List.append_assoc (bsZeros _ _ _), swap_front_bs _ _ _ _ (by rw [List.length_map]; exact c1), ← List.append_assoc (swapPairs _ _)]
  exact forall₂_append (forall₂_append c2 (forall₂_replicate ⟨is_zero, e11 _ _ is_one hu⟩ _))
    (forall₂_replicate ⟨is_zero, e12 _ _ (is_lit (-1)) hu⟩ _)

end steps

end SciRs.Rounded.Wide

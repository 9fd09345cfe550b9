import Verif.Lemmas.IeeeLimitBand
import Mathlib.Data.Set.Finite.List

/-! # Lemmas: whole designs on IEEE numbers as precision and range grow -/

namespace SciRs.Rounded.Wide

open SciRs.Spec SciRs.Spec.Ieee SciRs.Design SciRs.IeeeDesign Filter Topology

/-- How many pairs of zeros may be exchanged. -/
def swapsZ (band : Band) (g : Zpk) : ℕ := if band = .bandpass then g.z.length else 0

/-- How many pairs of poles may be exchanged. -/
def swapsP (band : Band) (g : Zpk) : ℕ := if band = .bandpass ∨ band = .bandstop then g.p.length else 0

theorem bandTransform_ev {f : Setup → Zpk} {g : Zpk} (h : ZpkLim Axis KeepsReal f g) (hl : g.z.length ≤ g.p.length)
    (hp : ∀ b ∈ g.p, b.re < 0) (hc : ConjClosed g.p) {band : Band} (hz : band = .highpass ∨ band = .bandstop → g.z = [])
    {e : Setup → List ℝ} {e0 : List ℝ} (he : Along Tends e e0) (hE : EdgesOk band e0) :
    ∀ᶠ i in wide, ∀ (q : ZpkI (ISetup.f i)) (U : List (Ieee i.f)), ZpkIs q (f i.S) → List.Forall₂ Is U (e i.S) →
      FollowsUpTo (swapsZ band g) (swapsP band g) (IeeeDesign.bandTransform i.L band q U)
        (bandTransform i.S.A band (f i.S) (e i.S)) := by
  match band, e0, hE with
  | .lowpass, [a], hE =>
    obtain ⟨w, rfl, hw⟩ := he.one
    filter_upwards [lp2lp_ev h hl hw hE] with i hi q U hq hU
    obtain ⟨u, U', h1, h2, rfl⟩ := List.forall₂_cons_right_iff.mp hU
    rw [List.forall₂_nil_right_iff] at h2
    subst h2
    exact (hi q u hq h1).upTo
  | .highpass, [a], hE =>
    obtain ⟨w, rfl, hw⟩ := he.one
    filter_upwards [lp2hp_ev h (hz (.inl rfl)) hp hw] with i hi q U hq hU
    obtain ⟨u, U', h1, h2, rfl⟩ := List.forall₂_cons_right_iff.mp hU
    rw [List.forall₂_nil_right_iff] at h2
    subst h2
    exact (hi q u hq h1).upTo
  | .bandpass, [a, b], hE =>
    obtain ⟨ha, hab⟩ : (0 : ℝ) < a ∧ a < b := hE
    obtain ⟨w, v, rfl, hw, hv⟩ := he.two
    have hpos : 0 < a * b := mul_pos ha (by linarith)
    filter_upwards [ev_mul hw hv, ev_sqrt (tendsto_mul hw hv) hpos, ev_sub hv hw, lp2bp_ev h hl hp (tendsto_sqrt (tendsto_mul hw hv))
      (Real.sqrt_pos.mpr hpos) (tendsto_sub hv hw) (sub_pos.mpr hab)] with i e1 e2 e3 hi q U hq hU
    obtain ⟨u, U', h1, h2, rfl⟩ := List.forall₂_cons_right_iff.mp hU
    obtain ⟨t, U', h3, h4, rfl⟩ := List.forall₂_cons_right_iff.mp h2
    rw [List.forall₂_nil_right_iff] at h4
    subst h4
    exact hi q _ _ hq (e2 _ (e1 u t h1 h3)) (e3 t u h3 h1)
  | .bandstop, [a, b], hE =>
    obtain ⟨ha, hab⟩ : (0 : ℝ) < a ∧ a < b := hE
    obtain ⟨w, v, rfl, hw, hv⟩ := he.two
    have hpos : 0 < a * b := mul_pos ha (by linarith)
    filter_upwards [ev_mul hw hv, ev_sqrt (tendsto_mul hw hv) hpos, ev_sub hv hw, lp2bs_ev h (hz (.inr rfl)) hp hc
      (tendsto_sqrt (tendsto_mul hw hv)) (Real.sqrt_pos.mpr hpos) (tendsto_sub hv hw) (sub_pos.mpr hab)] with i e1 e2 e3 hi q U hq hU
    obtain ⟨u, U', h1, h2, rfl⟩ := List.forall₂_cons_right_iff.mp hU
    obtain ⟨t, U', h3, h4, rfl⟩ := List.forall₂_cons_right_iff.mp h2
    rw [List.forall₂_nil_right_iff] at h4
    subst h4
    exact hi q _ _ hq (e2 _ (e1 u t h1 h3)) (e3 t u h3 h1)

theorem bandTransform_pairs (A : Arith) {band : Band} {g g' : Zpk} {e : List ℝ} (h : bandTransform A band g e = .ok g') :
    2 * swapsZ band g ≤ g'.z.length ∧ 2 * swapsP band g ≤ g'.p.length := by
  have key : ∀ {α β : Type} {m : Res α} {k : α → Res β} {b : β}, (m >>= k) = .ok b → ∃ a, m = .ok a ∧ k a = .ok b := by
    intro α β m k b h
    cases m with
    | error e => cases h
    | ok a => exact ⟨a, rfl, h⟩
  unfold bandTransform at h
  split at h
  · simp [swapsZ, swapsP]
  · simp [swapsZ, swapsP]
  · obtain ⟨n, -, h2⟩ := key h
    cases h2
    simp [swapsZ, swapsP, splitPm]
    omega
  · obtain ⟨n, -, h2⟩ := key h
    cases h2
    simp [swapsZ, swapsP, splitPm]
    omega
  · cases h

theorem bilinear_ev {f : Setup → Zpk} {g : Zpk} (h : ZpkLim OnAxis Tends f g) (hl : g.z.length ≤ g.p.length)
    (hp : ∀ b ∈ g.p, b.re < 0) :
    ∀ᶠ i in wide, ∀ q : ZpkI (ISetup.f i), ZpkIs q (f i.S) →
      Follows (IeeeDesign.bilinear q (lit i.f 2)) (bilinear i.S.A (f i.S) 2) := by
  have h22 : Tendsto (fun i : Setup => i.A.mul 2 2) fine (𝓝 (2 * 2)) := tendsto_mul tendsto_const_nhds tendsto_const_nhds
  have h4 : Tendsto (fun i : Setup => ((i.A.mul 2 2 : ℝ) : ℂ)) fine (𝓝 ((2 * 2 : ℝ) : ℂ)) := tendsto_ofReal h22
  have hp0 : ∀ b ∈ g.p, ((2 * 2 : ℝ) : ℂ) - b ≠ 0 := by
    intro b hb h0
    have := congrArg Complex.re h0
    rw [Complex.sub_re, Complex.ofReal_re, Complex.zero_re] at this
    linarith [hp b hb]
  have hz0 : ∀ b : ℂ, b.re = 0 → ((2 * 2 : ℝ) : ℂ) - b ≠ 0 := by
    intro b hb h0
    have := congrArg Complex.re h0
    rw [Complex.sub_re, Complex.ofReal_re, Complex.zero_re, hb] at this
    linarith
  have cay : ∀ (a : Setup → ℂ) (b : ℂ), Tendsto a fine (𝓝 b) → ((2 * 2 : ℝ) : ℂ) - b ≠ 0 → ∀ᶠ i in wide,
      ∀ (t : Ieee (ISetup.f i)) u, Is t (i.S.A.mul 2 2) → CIs u (a i.S) →
        CIs (((Cx.ofRe t).add u).div ((Cx.ofRe t).sub u))
          (i.S.A.cdiv (i.S.A.cadd ((i.S.A.mul 2 2 : ℝ) : ℂ) (a i.S)) (i.S.A.csub ((i.S.A.mul 2 2 : ℝ) : ℂ) (a i.S))) := by
    intro a b hab hb
    filter_upwards [ev_cadd h4 hab, ev_csub h4 hab, ev_cdiv (tendsto_cadd h4 hab) (tendsto_csub h4 hab) hb]
      with i h1 h2 h3 t u ht hu
    exact h3 _ _ (h1 _ _ (cis_ofRe ht) hu) (h2 _ _ (cis_ofRe ht) hu)
  have hsz := h.z.map (Q := Tends) (fun i z => i.A.csub ((i.A.mul 2 2 : ℝ) : ℂ) z) (fun z => E.csub ((2 * 2 : ℝ) : ℂ) z)
    (fun a b _ hab => tendsto_csub h4 hab.1.1)
  have hsp := h.p.map (Q := Tends) (fun i z => i.A.csub ((i.A.mul 2 2 : ℝ) : ℂ) z) (fun z => E.csub ((2 * 2 : ℝ) : ℂ) z)
    (fun a b _ hab => tendsto_csub h4 hab)
  have hne : foldMul E (g.p.map fun z => E.csub ((2 * 2 : ℝ) : ℂ) z) ≠ 0 := by
    rw [foldMul_E]
    refine prod_ne_zero_of (fun x hx => ?_)
    obtain ⟨y, hy, rfl⟩ := List.mem_map.mp hx
    exact hp0 y hy
  have sub : ∀ {R : (Setup → ℂ) → ℂ → Prop} {F : Setup → List ℂ} {l : List ℂ}, Along R F l → (∀ a b, R a b → Tends a b) →
      ∀ᶠ i in wide, ∀ (t : Ieee (ISetup.f i)) (X : List (Cx i.f)), Is t (i.S.A.mul 2 2) → List.Forall₂ CIs X (F i.S) →
        List.Forall₂ CIs (X.map fun z => (Cx.ofRe t).sub z) ((F i.S).map fun z => i.S.A.csub ((i.S.A.mul 2 2 : ℝ) : ℂ) z) := by
    intro R F l hF hR
    refine ev_mapP (T := fun i => Ieee i.f) hF (fun i t => Is t (i.S.A.mul 2 2)) (fun i t z => (Cx.ofRe t).sub z)
      (fun s z => s.A.csub ((s.A.mul 2 2 : ℝ) : ℂ) z) (fun a b _ hab => ?_)
    filter_upwards [ev_csub h4 (hR a b hab)] with i hi t u ht hu
    exact hi _ _ (cis_ofRe ht) hu
  filter_upwards [ev_mul (a := fun _ => 2) (b := fun _ => 2) (x := 2) (y := 2) tendsto_const_nhds tendsto_const_nhds,
    sub h.z (fun _ _ h => h.1.1), sub h.p (fun _ _ h => h), ev_foldMul hsz, ev_foldMul hsp,
    ev_cdiv (tendsto_foldMul hsz) (tendsto_foldMul hsp) hne,
    ev_mul h.k (tendsto_re (tendsto_cdiv (tendsto_foldMul hsz) (tendsto_foldMul hsp) hne)),
    ev_mapP (T := fun i => Ieee i.f) h.z (fun i t => Is t (i.S.A.mul 2 2)) (fun i t u => ((Cx.ofRe t).add u).div ((Cx.ofRe t).sub u))
      (fun s z => s.A.cdiv (s.A.cadd ((s.A.mul 2 2 : ℝ) : ℂ) z) (s.A.csub ((s.A.mul 2 2 : ℝ) : ℂ) z))
      (fun a b _ hab => cay a b hab.1.1 (hz0 b hab.2)),
    ev_mapP (T := fun i => Ieee i.f) h.p (fun i t => Is t (i.S.A.mul 2 2)) (fun i t u => ((Cx.ofRe t).add u).div ((Cx.ofRe t).sub u))
      (fun s z => s.A.cdiv (s.A.cadd ((s.A.mul 2 2 : ℝ) : ℂ) z) (s.A.csub ((s.A.mul 2 2 : ℝ) : ℂ) z))
      (fun a b hb hab => cay a b hab (hp0 b hb))] with i e1 e2 e3 e4 e5 e6 e7 e8 e9 q hq
  have hd := relDeg_const h hl i.S
  have hd' := relDeg_is hq.1 hq.2.1 hd
  have ht := e1 _ _ (is_lit 2) (is_lit 2)
  refine ⟨_, _, by simp only [IeeeDesign.bilinear, hd', ok_bind]; rfl, by simp only [bilinear, hd, ok_bind]; rfl, ?_,
    e9 _ _ ht hq.2.1, e7 _ _ hq.2.2 (e6 _ _ (e4 _ (e2 _ _ ht hq.1)) (e5 _ (e3 _ _ ht hq.2.1))).1⟩
  exact forall₂_append (e8 _ _ ht hq.1) (forall₂_replicate cis_neg_one _)

/-! ### The checks -/

theorem edges_ev {wn : List ℝ} {fs : Option ℝ} (h : ∀ w ∈ Spec.edges wn fs, 0 < w) :
    ∀ᶠ i in wide, List.Forall₂ Is (Props.scaled (wn.map (ofReal (ISetup.f i))) (fs.map (ofReal i.f))) (edges i.S.A wn fs) := by
  cases fs with
  | none =>
    refine Eventually.of_forall fun i => ?_
    change List.Forall₂ Is (wn.map (ofReal i.f)) wn
    induction wn with
    | nil => exact .nil
    | cons w wn ih => exact .cons (is_lit w) (ih fun x hx => h x (by simp [Spec.edges] at hx ⊢; exact .inr hx))
  | some fs =>
    simp only [Props.scaled, edges, Option.map_some]
    induction wn with
    | nil => exact Eventually.of_forall fun i => .nil
    | cons w wn ih =>
      have h0 : fs ≠ 0 := by
        rintro rfl
        have := h (2 * w / 0) (by simp [Spec.edges])
        simp at this
      filter_upwards [ih fun x hx => h x (by simp only [Spec.edges, List.map_cons] at hx ⊢; exact List.mem_cons_of_mem _ hx),
        ev_mul (a := fun _ => 2) (b := fun _ => w) (x := 2) (y := w) tendsto_const_nhds tendsto_const_nhds,
        ev_div (tendsto_mul (a := fun _ => 2) (b := fun _ => w) (x := 2) (y := w) tendsto_const_nhds tendsto_const_nhds)
          (b := fun _ => fs) (y := fs) tendsto_const_nhds h0] with i h1 h2 h3
      exact .cons (h3 _ _ (h2 _ _ (is_lit 2) (is_lit w)) (is_lit fs)) h1

theorem is_le {f : Format} {a b : Ieee f} {x y : ℝ} (ha : Is a x) (hb : Is b y) : a ≤ b ↔ x ≤ y := by
  obtain ⟨s, rfl⟩ := ha
  obtain ⟨t, rfl⟩ := hb
  constructor
  · rintro ⟨u, v, h1, h2, h3⟩
    cases h1
    cases h2
    exact_mod_cast h3
  · intro h
    exact ⟨_, _, rfl, rfl, by exact_mod_cast h⟩

theorem is_lt {f : Format} {a b : Ieee f} {x y : ℝ} (ha : Is a x) (hb : Is b y) : a < b ↔ x < y := by
  obtain ⟨s, rfl⟩ := ha
  obtain ⟨t, rfl⟩ := hb
  constructor
  · rintro ⟨u, v, h1, h2, h3⟩
    cases h1
    cases h2
    exact_mod_cast h3
  · intro h
    exact ⟨_, _, rfl, rfl, by exact_mod_cast h⟩

theorem not_negative {f : Format} {r : Option ℝ} (h : ∀ x, r = some x → 0 ≤ x) :
    ¬ ∃ a, r.map (ofReal f) = some a ∧ a < 0 := by
  rintro ⟨a, h1, h2⟩
  cases r with
  | none => cases h1
  | some x =>
    cases h1
    have := (is_lt (is_lit x) is_zero).mp h2
    exact absurd (h x rfl) (not_le.mpr this)

theorem not_decreasing {f : Format} {U : List (Ieee f)} {e : List ℝ} (hU : List.Forall₂ Is U e) (hle : e.length ≤ 2)
    (hpw : e.Pairwise (· < ·)) : ¬ (U.length > 1 ∧ U.getD 0 0 ≥ U.getD 1 0) := by
  rintro ⟨h1, h2⟩
  match U, e, hU with
  | [], _, _ => simp at h1
  | [_], _, _ => simp at h1
  | _ :: _ :: _ :: _, _ :: _ :: _ :: _, _ => simp at hle
  | [a, b], [x, y], .cons ha (.cons hb .nil) =>
    have h3 := (is_le hb ha).mp h2
    have : x < y := by simpa using hpw
    linarith

theorem checked_of {f : Format} {wn : List (Ieee f)} {rp rs : Option ℝ} {fs : Option (Ieee f)} {e : List ℝ}
    (hU : List.Forall₂ Is (Props.scaled wn fs) e) (hle : e.length ≤ 2) (hin : ∀ x ∈ e, 0 < x ∧ x < 1)
    (hpw : e.Pairwise (· < ·)) (h1 : ∀ r, rp = some r → 0 ≤ r) (h2 : ∀ r, rs = some r → 0 ≤ r) :
    Props.Checked wn (rp.map (ofReal f)) (rs.map (ofReal f)) fs := by
  refine ⟨by rw [hU.length_eq]; exact hle, fun w hw => ?_, not_decreasing hU hle hpw, not_negative h1, not_negative h2⟩
  obtain ⟨k, hk, rfl⟩ := List.getElem_of_mem hw
  obtain ⟨s, hs⟩ := (List.forall₂_iff_get.mp hU).2 k hk (by rw [← hU.length_eq]; exact hk)
  have hs : (Props.scaled wn fs)[k] = fin _ s := hs
  have := hin _ (List.get_mem e ⟨k, by rw [← hU.length_eq]; exact hk⟩)
  exact .inr ⟨_, s, hs, this.1, this.2⟩

theorem warp_ev {e : Setup → List ℝ} {e0 : List ℝ} (he : Along Tends e e0) (h0 : ∀ x ∈ e0, 0 < x ∧ x < 1) :
    ∀ᶠ i in wide, ∀ U : List (Ieee (ISetup.f i)), List.Forall₂ Is U (e i.S) →
      List.Forall₂ Is (U.map fun w => lit i.f 2 * lit i.f 2 * i.L.tan (i.L.pi * w / lit i.f 2))
        ((e i.S).map fun w => i.S.A.mul (i.S.A.mul 2 2) (i.S.A.tan (i.S.A.div (i.S.A.mul i.S.A.pi w) 2))) := by
  induction he with
  | nil =>
    refine Eventually.of_forall fun i U hU => ?_
    cases hU
    exact .nil
  | @cons a b F L h _ ih =>
    obtain ⟨h1, h2⟩ := h0 b (by simp)
    have hm := tendsto_mul tendsto_pi h
    have hd := tendsto_div hm (b := fun _ => 2) (y := 2) tendsto_const_nhds (by norm_num)
    have p1 : 0 < Real.pi * b / 2 := by have := Real.pi_pos; positivity
    have p2 : Real.pi * b / 2 < Real.pi / 2 := by nlinarith [Real.pi_pos]
    have h4 := tendsto_mul (a := fun _ => 2) (b := fun _ => 2) (x := 2) (y := 2) tendsto_const_nhds tendsto_const_nhds
    filter_upwards [ih fun x hx => h0 x (by simp [hx]), ev_pi, ev_mul tendsto_pi h,
      ev_div hm (b := fun _ => 2) (y := 2) tendsto_const_nhds (by norm_num), ev_tan hd p1 p2,
      ev_mul (a := fun _ => 2) (b := fun _ => 2) (x := 2) (y := 2) tendsto_const_nhds tendsto_const_nhds,
      ev_mul h4 (tendsto_tan hd p1 p2)] with i e0 e1 e2 e3 e4 e5 e6 U hU
    cases hU with
    | cons h3 h4 =>
      exact .cons (e6 _ _ (e5 _ _ (is_lit 2) (is_lit 2)) (e4 _ (e3 _ _ (e2 _ _ e1 h3) (is_lit 2)))) (e0 _ h4)

/-! ### The whole design -/

theorem swapped_perm {cz cp : List Bool} {g : Zpk} (h1 : 2 * cz.length ≤ g.z.length) (h2 : 2 * cp.length ≤ g.p.length) :
    (swapped cz cp g).z.Perm g.z ∧ (swapped cz cp g).p.Perm g.p :=
  ⟨swapPairs_perm cz _ h1, swapPairs_perm cp _ h2⟩

theorem swapped_lim {Rz Rp : (Setup → ℂ) → ℂ → Prop} {f : Setup → Zpk} {g : Zpk} (h : ZpkLim Rz Rp f g) (cz cp : List Bool) :
    ZpkLim Rz Rp (fun s => swapped cz cp (f s)) (swapped cz cp g) :=
  ⟨along_swap cz h.z, along_swap cp h.p, h.k⟩

/-- The bilinear transformation treats zeros and poles one by one. -/
theorem bilinear_perm (A : Arith) {f f' : Zpk} (hz : f'.z.Perm f.z) (hp : f'.p.Perm f.p) {x : ℝ} {d d' : Zpk}
    (h : bilinear A f x = .ok d) (h' : bilinear A f' x = .ok d') : d'.z.Perm d.z ∧ d'.p.Perm d.p := by
  unfold bilinear at h h'
  have e : Design.relativeDegree f'.z f'.p = Design.relativeDegree f.z f.p := by
    unfold Design.relativeDegree
    rw [hz.length_eq, hp.length_eq]
  rw [e] at h'
  cases hr : Design.relativeDegree f.z f.p with
  | error e => rw [hr] at h; cases h
  | ok n =>
    rw [hr] at h h'
    cases h
    cases h'
    exact ⟨(hz.map _).append_right _, hp.map _⟩

theorem bilinear_perm_exact {f f' : Zpk} (hz : f'.z.Perm f.z) (hp : f'.p.Perm f.p) (hk : f'.k = f.k) {x : ℝ} {d : Zpk}
    (h : bilinear E f x = .ok d) : ∃ d', bilinear E f' x = .ok d' ∧ d'.z.Perm d.z ∧ d'.p.Perm d.p ∧ d'.k = d.k := by
  have e : Design.relativeDegree f'.z f'.p = Design.relativeDegree f.z f.p := by
    unfold Design.relativeDegree
    rw [hz.length_eq, hp.length_eq]
  have h0 := h
  unfold bilinear at h
  cases hr : Design.relativeDegree f.z f.p with
  | error e => rw [hr] at h; cases h
  | ok n =>
    rw [hr] at h
    obtain ⟨d', hd'⟩ : ∃ d', bilinear E f' x = .ok d' := by
      unfold bilinear
      rw [e, hr]
      exact ⟨_, rfl⟩
    obtain ⟨a1, a2⟩ := bilinear_perm E hz hp h0 hd'
    refine ⟨d', hd', a1, a2, ?_⟩
    unfold bilinear at hd'
    rw [e, hr] at hd'
    cases h
    cases hd'
    simp only [foldMul_E]
    rw [(hz.map _).prod_eq, (hp.map _).prod_eq, hk]

theorem bilinear_gain (s : Setup) {f d : Zpk} {x : ℝ} (h : bilinear s.A f x = .ok d) : s.r.rnd d.k = d.k := by
  unfold bilinear at h
  cases hr : Design.relativeDegree f.z f.p with
  | error e => rw [hr] at h; cases h
  | ok n =>
    rw [hr] at h
    cases h
    exact s.acc.nearest.idem _

/-- The same filter, its zeros and poles perhaps in another order. -/
structure SameUpToOrder (g g' : Zpk) : Prop where
  z : g.z.Perm g'.z
  p : g.p.Perm g'.p
  k : g.k = g'.k

/-- Finitely many arithmetic designs, each with its limit, such that the design on IEEE numbers is eventually one of
them. -/
structure Candidates (C : Set (List Bool × List Bool)) (Rz Rp : (Setup → ℂ) → ℂ → Prop)
    (d : List Bool × List Bool → Setup → Zpk) (g : Zpk) (gc : List Bool × List Bool → Zpk)
    (d0 : Setup → Zpk) : Prop where
  finite : C.Finite
  same : ∀ c ∈ C, SameUpToOrder (gc c) g
  lim : ∀ c ∈ C, ZpkLim Rz Rp (d c) (gc c)
  perm : ∀ c ∈ C, ∀ s, (d c s).z.Perm (d0 s).z ∧ (d c s).p.Perm (d0 s).p

/-- Lists of given lengths. -/
def pairs (nz np : ℕ) : Set (List Bool × List Bool) := {c | c.1.length = nz ∧ c.2.length = np}

theorem pairs_finite (nz np : ℕ) : (pairs nz np).Finite :=
  ((List.finite_length_eq Bool nz).prod (List.finite_length_eq Bool np)).subset fun _ h => ⟨h.1, h.2⟩

set_option maxHeartbeats 800000 in
theorem design_ev {n : ℕ} (hn : n ≠ 0) {wn : List ℝ} {rp rs : Option ℝ} {band : Band} {ftype : FType} {fs : Option ℝ}
    (hv : ValidRequest wn rp rs band ftype false fs) (hr : PositiveRipple ftype rp rs) (hk : KeepsPairs band ftype) :
    ∃ (g : Zpk) (C : Set (List Bool × List Bool)) (d : List Bool × List Bool → Setup → Zpk)
      (gc : List Bool × List Bool → Zpk) (d0 : Setup → Zpk),
      Design.design n wn rp rs band ftype false fs = .ok g ∧ Candidates C OnCircle Tends d g gc d0 ∧
      (∀ᶠ s in fine, design (Setup.A s) n wn rp rs band ftype false fs = .ok (d0 s)) ∧
      (∀ p ∈ g.p, ‖p‖ < 1) ∧
      (band = .lowpass ∨ band = .highpass → ∀ c ∈ C, Along KeepsReal (fun s => (d c s).p) (gc c).p) ∧
      (∀ c ∈ C, ∀ s : Setup, s.r.rnd (d c s).k = (d c s).k) ∧
      ∀ᶠ i in wide, ∃ c ∈ C, ∃ q, IeeeDesign.iirfilter (ISetup.L i) n (wn.map (ofReal i.f)) (rp.map (ofReal i.f))
        (rs.map (ofReal i.f)) (some band) (some ftype) none (fs.map (ofReal i.f)) = .ok q ∧ ZpkIs q (d c i.S) := by
  obtain ⟨f, hf⟩ := (Design.prototype_ok (order := n)).mpr hv.family
  obtain ⟨h1, h2, h3, h4, h5, h6, h7⟩ := Design.prototype_good hf hr
  have hny := hv.nyquist rfl
  have hin : ∀ x ∈ Spec.edges wn fs, 0 < x ∧ x < 1 := fun x hx => ⟨hv.positive x hx, hny x hx⟩
  have hEd := edgesOk_warped (edgesOk_of_valid hv) hny
  obtain ⟨g, hg, hleft, hlen, -⟩ := bandTransform_left h1 h5 hEd
  obtain ⟨dg, hd, hst, -⟩ := design_stable (N := n) hv hr
  have hd' := hd
  unfold Design.design at hd'
  rw [validate_valid hv, ok_bind, hf, ok_bind, Design.warp_digital hin, ok_bind, hg, ok_bind] at hd'
  obtain ⟨pf, hpf, hpl⟩ := prototype_lim hn hr hf
  have hE := edges_lim hv.positive
  have hW := warp_lim hE hin
  have hz7 : band = .highpass ∨ band = .bandstop → f.z = [] := fun hb => h7 (fun hII => by
    rcases hk hII with h | h <;> rw [h] at hb <;> simp at hb)
  obtain ⟨bf, hbf, hbl, hbr⟩ := bandTransform_lim hpl h1 h5 h3 hz7 hW hEd hg
  have hd'' : bilinear E g 2 = .ok dg := by rw [bilinear_exact]; exact hd'
  have hpairs := bandTransform_pairs E (band := band) (g := f) (e := _) (by rw [bandTransform_exact 0]; exact hg)
  have each : ∀ c ∈ pairs (swapsZ band f) (swapsP band f), ∃ (gc : Zpk) (df : Setup → Zpk), SameUpToOrder gc dg ∧
      ZpkLim OnCircle Tends df gc ∧ (∀ s : Setup, bilinear s.A (swapped c.1 c.2 (bf s)) 2 = .ok (df s)) ∧
      (Along KeepsReal (fun s => (swapped c.1 c.2 (bf s)).p) (swapped c.1 c.2 g).p → Along KeepsReal (fun s => (df s).p) gc.p) ∧
      ∀ᶠ i in wide, ∀ q : ZpkI (ISetup.f i), ZpkIs q (swapped c.1 c.2 (bf i.S)) →
        Follows (IeeeDesign.bilinear q (lit i.f 2)) (bilinear i.S.A (swapped c.1 c.2 (bf i.S)) 2) := by
    rintro c ⟨c1, c2⟩
    obtain ⟨q1, q2⟩ := swapped_perm (cz := c.1) (cp := c.2) (g := g) (by rw [c1]; exact hpairs.1) (by rw [c2]; exact hpairs.2)
    obtain ⟨gc, b1, b2, b3, b4⟩ := bilinear_perm_exact (f' := swapped c.1 c.2 g) q1 q2 rfl hd''
    have hlen' : (swapped c.1 c.2 g).z.length ≤ (swapped c.1 c.2 g).p.length := by
      rw [q1.length_eq, q2.length_eq]; exact hlen
    have hleft' : ∀ b ∈ (swapped c.1 c.2 g).p, b.re < 0 := fun b hb => hleft b (q2.mem_iff.mp hb)
    obtain ⟨df, hdf, hdl, hdr⟩ := bilinear_lim (swapped_lim hbl c.1 c.2) hlen' hleft' b1
    exact ⟨gc, df, ⟨b2, b3, b4⟩, hdl, hdf, hdr, bilinear_ev (swapped_lim hbl c.1 c.2) hlen' hleft'⟩
  obtain ⟨df, hdf, hdl, hdr⟩ := bilinear_lim hbl hlen hleft hd''
  classical
  let gc : List Bool × List Bool → Zpk := fun c => if h : c ∈ pairs (swapsZ band f) (swapsP band f) then (each c h).choose else dg
  let dc : List Bool × List Bool → Setup → Zpk := fun c => if h : c ∈ pairs (swapsZ band f) (swapsP band f) then
    (each c h).choose_spec.choose else df
  have spec : ∀ c ∈ pairs (swapsZ band f) (swapsP band f), SameUpToOrder (gc c) dg ∧
      ZpkLim OnCircle Tends (dc c) (gc c) ∧ (∀ s : Setup, bilinear s.A (swapped c.1 c.2 (bf s)) 2 = .ok (dc c s)) ∧
      (Along KeepsReal (fun s => (swapped c.1 c.2 (bf s)).p) (swapped c.1 c.2 g).p → Along KeepsReal (fun s => (dc c s).p) (gc c).p) ∧
      ∀ᶠ i in wide, ∀ q : ZpkI (ISetup.f i), ZpkIs q (swapped c.1 c.2 (bf i.S)) →
        Follows (IeeeDesign.bilinear q (lit i.f 2)) (bilinear i.S.A (swapped c.1 c.2 (bf i.S)) 2) := by
    intro c hc
    have := (each c hc).choose_spec.choose_spec
    simp only [gc, dc, dif_pos hc]
    exact this
  refine ⟨dg, pairs (swapsZ band f) (swapsP band f), dc, gc, df, hd, ⟨pairs_finite _ _, fun c hc => (spec c hc).1,
    fun c hc => (spec c hc).2.1, fun c hc s => ?_⟩, ?_, hst rfl, fun hb c hc => ?_,
    fun c hc s => bilinear_gain s ((spec c hc).2.2.1 s), ?_⟩
  · have hb := bandTransform_pairs s.A (hbf s)
    have hz : swapsZ band (pf s) = swapsZ band f := by
      unfold swapsZ; rw [hpl.z.length]
    have hp : swapsP band (pf s) = swapsP band f := by
      unfold swapsP; rw [hpl.p.length]
    rw [hz, hp] at hb
    obtain ⟨q1, q2⟩ := swapped_perm (cz := c.1) (cp := c.2) (g := bf s) (by rw [hc.1]; exact hb.1) (by rw [hc.2]; exact hb.2)
    exact bilinear_perm s.A q1 q2 (hdf s) ((spec c hc).2.2.1 s)
  · filter_upwards [eventually_valid hv] with i hi
    obtain ⟨hi, hfs⟩ := hi
    have hle : wn.length ≤ 2 := by
      rw [← edges_length (A := i.A) wn fs, hi.count]; split <;> omega
    unfold design
    rw [validate_eq_ok.mpr ⟨rfl, hle, hfs, hi.positive, hi.increasing, hi.ripple, hi.attenuation⟩, ok_bind, hpf i, ok_bind]
    have hwarp : warp i.A (edges i.A wn fs) false = .ok ((edges i.A wn fs).map
        (fun w => i.A.mul (i.A.mul 2 2) (i.A.tan (i.A.div (i.A.mul i.A.pi w) 2)))) := by
      unfold warp
      rw [if_pos rfl, check_true]
      · rfl
      · rintro ⟨x, hx, h1 | h1⟩
        · exact absurd (hi.positive x hx) (not_lt.mpr h1)
        · exact absurd (hi.nyquist rfl x hx) (not_lt.mpr h1)
    rw [hwarp, ok_bind, hbf i, ok_bind]
    exact hdf i
  · exact (spec c hc).2.2.2.1 (along_swap c.2 (hbr hb))
  · have hall := (Filter.eventually_all_finite (pairs_finite (swapsZ band f) (swapsP band f))).mpr
      (fun c hc => (spec c hc).2.2.2.2)
    filter_upwards [hall, prototype_ev hn hr hf, edges_ev hv.positive, ev_of_fine (eventually_valid hv), warp_ev hE hin,
      bandTransform_ev hpl h1 h5 h3 hz7 hW hEd] with i e1 e2 e3 e4 e5 e6
    obtain ⟨e4, -⟩ := e4
    have hle : (edges i.S.A wn fs).length ≤ 2 := by rw [e4.count]; split <;> omega
    have hc := checked_of (rp := rp) (rs := rs) e3 hle (fun x hx => ⟨e4.positive x hx, e4.nyquist rfl x hx⟩) e4.increasing
      e4.ripple e4.attenuation
    obtain ⟨q0, g0, a1, a2, a3⟩ := e2
    rw [hpf i.S] at a2
    cases a2
    obtain ⟨q1, g1, cz, cp, b1, b2, b3, b4, b5⟩ := e6 q0 _ a3 (e5 _ e3)
    rw [hbf i.S] at b2
    cases b2
    obtain ⟨q2, g2, d1, d2, d3⟩ := e1 (cz, cp) ⟨b3, b4⟩ q1 b5
    rw [(spec (cz, cp) ⟨b3, b4⟩).2.2.1 i.S] at d2
    cases d2
    refine ⟨(cz, cp), ⟨b3, b4⟩, q2, ?_, d3⟩
    rw [Props.iirfilter_checked hc, Props.staged, a1, ok_bind, b1, ok_bind, d1]

/-! Analog designs stop after the transformation. -/

theorem iirfilter_analog {f : Format} {L : Lib f} {n : ℕ} {wn : List (Ieee f)} {rp rs : Option (Ieee f)} {b : Band} {ft : FType}
    (h1 : wn.length ≤ 2) (h2 : ∀ w ∈ wn, ¬ w ≤ 0) (h3 : ¬ (wn.length > 1 ∧ wn.getD 0 0 ≥ wn.getD 1 0))
    (h4 : ¬ ∃ r, rp = some r ∧ r < 0) (h5 : ¬ ∃ r, rs = some r ∧ r < 0) :
    IeeeDesign.iirfilter L n wn rp rs (some b) (some ft) (some true) none =
      (IeeeDesign.prototype L n ft rp rs >>= fun q => IeeeDesign.bandTransform L b q wn) := by
  have h6 : ¬ ∃ wi ∈ wn, wi ≤ 0 := fun ⟨w, hw, h⟩ => h2 w hw h
  unfold IeeeDesign.iirfilter IeeeDesign.validate IeeeDesign.warp IeeeDesign.scaleEdges
  simp only [Option.getD_some, ok_bind, check, if_pos h6, if_pos h3, if_pos h4,
    if_pos h5, if_pos (show ¬ wn.length > 2 by omega), pure, Except.pure]
  cases IeeeDesign.prototype L n ft rp rs with
  | error e => rfl
  | ok q =>
    rw [if_neg (by simp), ok_bind, ok_bind, ok_bind]
    cases IeeeDesign.bandTransform L b q wn <;> rfl

theorem design_ev_analog {n : ℕ} (hn : n ≠ 0) {wn : List ℝ} {rp rs : Option ℝ} {band : Band} {ftype : FType} {fs : Option ℝ}
    (hv : ValidRequest wn rp rs band ftype true fs) (hr : PositiveRipple ftype rp rs) (hk : KeepsPairs band ftype) :
    ∃ (g : Zpk) (C : Set (List Bool × List Bool)) (d : List Bool × List Bool → Setup → Zpk)
      (gc : List Bool × List Bool → Zpk) (d0 : Setup → Zpk),
      Design.design n wn rp rs band ftype true fs = .ok g ∧ Candidates C OnAxis Tends d g gc d0 ∧
      ∀ᶠ i in wide, ∃ c ∈ C, ∃ q, IeeeDesign.iirfilter (ISetup.L i) n (wn.map (ofReal i.f)) (rp.map (ofReal i.f))
        (rs.map (ofReal i.f)) (some band) (some ftype) (some true) (fs.map (ofReal i.f)) = .ok q ∧ ZpkIs q (d c i.S) := by
  obtain rfl : fs = none := by
    cases fs with
    | none => rfl
    | some x => exact absurd (hv.fs_digital rfl) (by simp)
  obtain ⟨f, hf⟩ := (Design.prototype_ok (order := n)).mpr hv.family
  obtain ⟨h1, h2, h3, h4, h5, h6, h7⟩ := Design.prototype_good hf hr
  have hEd := edgesOk_of_valid hv
  obtain ⟨g, hg, -, -, -⟩ := bandTransform_left h1 h5 hEd
  obtain ⟨pf, hpf, hpl⟩ := prototype_lim hn hr hf
  have hz7 : band = .highpass ∨ band = .bandstop → f.z = [] := fun hb => h7 (fun hII => by
    rcases hk hII with h | h <;> rw [h] at hb <;> simp at hb)
  have hE := edges_lim hv.positive
  obtain ⟨bf, hbf, hbl, -⟩ := bandTransform_lim hpl h1 h5 h3 hz7 hE hEd hg
  have hpairs := bandTransform_pairs E (band := band) (g := f) (e := _) (by rw [bandTransform_exact 0]; exact hg)
  refine ⟨g, pairs (swapsZ band f) (swapsP band f), fun c s => swapped c.1 c.2 (bf s), fun c => swapped c.1 c.2 g, bf, ?_,
    ⟨pairs_finite _ _, fun c hc => ?_, fun c _ => swapped_lim hbl c.1 c.2, fun c hc s => ?_⟩, ?_⟩
  · unfold Design.design
    rw [validate_valid hv, ok_bind, hf, ok_bind]
    change (Design.bandTransform band f (Spec.edges wn none) >>= fun f => Design.discretise true f) = _
    rw [hg]
    rfl
  · obtain ⟨q1, q2⟩ := swapped_perm (cz := c.1) (cp := c.2) (g := g) (by rw [hc.1]; exact hpairs.1) (by rw [hc.2]; exact hpairs.2)
    exact ⟨q1, q2, rfl⟩
  · have hb := bandTransform_pairs s.A (hbf s)
    have hz : swapsZ band (pf s) = swapsZ band f := by
      unfold swapsZ; rw [hpl.z.length]
    have hp : swapsP band (pf s) = swapsP band f := by
      unfold swapsP; rw [hpl.p.length]
    rw [hz, hp] at hb
    exact swapped_perm (cz := c.1) (cp := c.2) (g := bf s) (by rw [hc.1]; exact hb.1) (by rw [hc.2]; exact hb.2)
  · filter_upwards [prototype_ev hn hr hf, edges_ev hv.positive, bandTransform_ev hpl h1 h5 h3 hz7 hE hEd] with i e2 e3 e6
    have e3' : List.Forall₂ Is (wn.map (ofReal i.f)) wn := e3
    have hle : wn.length ≤ 2 := by rw [hv.count]; split <;> omega
    obtain ⟨q0, g0, a1, a2, a3⟩ := e2
    rw [hpf i.S] at a2
    cases a2
    obtain ⟨q1, g1, cz, cp, b1, b2, b3, b4, b5⟩ := e6 q0 _ a3 e3
    rw [hbf i.S] at b2
    cases b2
    refine ⟨(cz, cp), ⟨b3, b4⟩, q1, ?_, b5⟩
    rw [show (none : Option ℝ).map (ofReal i.f) = none from rfl, iirfilter_analog (by simpa using hle) (fun w hw => ?_)
      (not_decreasing e3' hle (by simpa [Spec.edges] using hv.increasing)) (not_negative hv.ripple) (not_negative hv.attenuation),
      a1, ok_bind]
    · exact b1
    · obtain ⟨x, hx, rfl⟩ := List.mem_map.mp hw
      intro h
      have := (is_le (is_lit x) is_zero).mp h
      exact absurd (hv.positive x (by simpa [Spec.edges] using hx)) (not_lt.mpr this)

end SciRs.Rounded.Wide

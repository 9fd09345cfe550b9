import Verif.Lemmas.IeeeNan
import Verif.Spec.IeeeSections
import Verif.Props.IeeeButter

/-!
# C105: second-order sections and transfer-function coefficients with infinities and NaN

The conversions of zeros, poles and gain to sections and to coefficients sort the roots with
`partial_cmp(..).unwrap()`.  So a request that C100 shows to be answered with NaN poles is answered with a panic when
sections are asked for.  With finite zeros, poles and gain of moderate size nothing overflows in the conversions, and
the theorems about the model without infinities (C90, C91) hold for the sections.
-/

namespace SciRs.Props

open SciRs SciRs.Spec SciRs.Spec.Ieee SciRs.IeeeDesign SciRs.Rounded

variable {f : Format} {L : Lib f} {S : CxSorts f} {m : Libm} {h : ℝ}

/-- **C105** The assumption about sorting can be met. -/
theorem C105_sorts_exist (f : Format) : ∃ S : CxSorts f, S.Correct := ⟨_, anySorts_correct f⟩

/-! ### NaN -/

/-- **C105** Sections: a zero or a pole whose real part is NaN makes the conversion panic. -/
theorem C105_nan_root_panics (hS : S.Correct) (order : ℕ) (q : ZpkI f) (a : Cx f) (ha : a ∈ q.z ∨ a ∈ q.p)
    (hn : a.re = nan) : Panics (IeeeDesign.zpk2sos L S order q none (some false)) :=
  zpk2sos_nan hS ha hn order

theorem as_zpk {order : ℕ} {wn : List (Ieee f)} {rp rs : Option (Ieee f)} {b : Design.Band} {ft : Design.FType}
    {fs : Option (Ieee f)}
    (h : Returns (iirfilterAs L S order wn rp rs (some b) (some ft) none (some .zpk) fs)) :
    ∃ q, iirfilter L order wn rp rs (some b) (some ft) none fs = .ok q := by
  obtain ⟨v, hv⟩ := h
  unfold iirfilterAs at hv
  cases hq : iirfilter L order wn rp rs (some b) (some ft) none fs with
  | error e => rw [hq] at hv; cases hv
  | ok q => exact ⟨q, rfl⟩

theorem as_sos {order : ℕ} {wn : List (Ieee f)} {rp rs : Option (Ieee f)} {b : Design.Band} {ft : Design.FType}
    {fs : Option (Ieee f)} {q : ZpkI f} (h : iirfilter L order wn rp rs (some b) (some ft) none fs = .ok q) :
    iirfilterAs L S order wn rp rs (some b) (some ft) none (some .sos) fs =
      (IeeeDesign.zpk2sos L S order q none (some false) >>= fun l => pure (.sos l)) := by
  unfold iirfilterAs
  rw [h]
  rfl

theorem as_ba {order : ℕ} {wn : List (Ieee f)} {rp rs : Option (Ieee f)} {b : Design.Band} {ft : Design.FType}
    {fs : Option (Ieee f)} {q : ZpkI f} (h : iirfilter L order wn rp rs (some b) (some ft) none fs = .ok q) :
    iirfilterAs L S order wn rp rs (some b) (some ft) none (some .ba) fs =
      (IeeeDesign.zpk2tf S (2 * order) q.z q.p q.k >>= fun t => pure (.ba t)) := by
  unfold iirfilterAs
  rw [h]
  rfl

theorem panics_of_nan_poles (hS : S.Correct) {order : ℕ} (ho : order ≠ 0) {wn : List (Ieee f)}
    {rp rs : Option (Ieee f)} {b : Design.Band} {ft : Design.FType} {fs : Option (Ieee f)} {q : ZpkI f}
    (h : iirfilter L order wn rp rs (some b) (some ft) none fs = .ok q)
    (hp : q.p = List.replicate (poleCount order b) ⟨nan, nan⟩) :
    Panics (iirfilterAs L S order wn rp rs (some b) (some ft) none (some .sos) fs) ∧
    (2 ≤ poleCount order b → Panics (iirfilterAs L S order wn rp rs (some b) (some ft) none (some .ba) fs)) := by
  have h1 : poleCount order b ≠ 0 := by cases b <;> simp [poleCount, ho]
  have hm : (⟨nan, nan⟩ : Cx f) ∈ q.p := by rw [hp, List.mem_replicate]; exact ⟨h1, rfl⟩
  refine ⟨?_, fun h2 => ?_⟩
  · rw [as_sos h]
    exact panics_bind_left (zpk2sos_nan hS (.inr hm) rfl order)
  · rw [as_ba h]
    exact panics_bind_left (zpk2tf_nan hS (.inr ⟨hm, by rw [hp, List.length_replicate]; exact h2⟩) rfl _ _)

/-- **C105** Every accepted request with NaN among its edges, whatever the family and the band, panics when sections
are asked for, and when coefficients are asked for and the filter has two or more poles. -/
theorem C105_nan_edge_panics (hL : L.tan nan = nan) (hS : S.Correct) (order : ℕ) (ho : order ≠ 0) (wn : List (Ieee f))
    (rp rs : Option (Ieee f)) (b : Design.Band) (ft : Design.FType) (fs : Option (Ieee f)) (hn : nan ∈ scaled wn fs)
    (h : Returns (iirfilterAs L S order wn rp rs (some b) (some ft) none (some .zpk) fs)) :
    Panics (iirfilterAs L S order wn rp rs (some b) (some ft) none (some .sos) fs) ∧
    (2 ≤ poleCount order b → Panics (iirfilterAs L S order wn rp rs (some b) (some ft) none (some .ba) fs)) := by
  obtain ⟨q, hq⟩ := as_zpk h
  exact panics_of_nan_poles hS ho hq (C100_nan_edge hL order ho wn rp rs b ft fs q hq hn).1

/-- **C105** The same for Chebyshev I requests whose ripple is zero or NaN. -/
theorem C105_ripple_panics (hL : Special L) (htop : 0 ≤ f.top) (hS : S.Correct) (order : ℕ) (ho : order ≠ 0)
    (hcast : ∃ v, 0 < v ∧ L.ofInt order = fin v false) (wn : List (Ieee f)) (b : Design.Band) (fs : Option (Ieee f))
    (rp : Ieee f) (hrp : rp = nan ∨ ∃ s, rp = fin 0 s)
    (h : Returns (iirfilterAs L S order wn (some rp) none (some b) (some .chebyshevI) none (some .zpk) fs)) :
    Panics (iirfilterAs L S order wn (some rp) none (some b) (some .chebyshevI) none (some .sos) fs) ∧
    (2 ≤ poleCount order b →
      Panics (iirfilterAs L S order wn (some rp) none (some b) (some .chebyshevI) none (some .ba) fs)) := by
  obtain ⟨q, hq⟩ := as_zpk h
  exact panics_of_nan_poles hS ho hq ((C100_ripple hL htop order ho hcast wn b fs rp hrp).2 q hq).1

/-- **C105** One pole is not sorted: coefficients of a first-order filter with a NaN edge are returned, all of them
NaN except those that do not depend on the edge. -/
theorem C105_first_order_nan (hL : L.tan nan = nan) (hS : S.Correct) (wn : List (Ieee f)) (b : Design.Band)
    (hb : b = .lowpass ∨ b = .highpass) (fs : Option (Ieee f)) (hs : scaled wn fs = [nan]) :
    ∃ t, iirfilterAs L S 1 wn none none (some b) (some .butterworth) none (some .ba) fs = .ok (.ba t) ∧
      t.b = [nan, nan, 0] ∧ t.a.length = 3 ∧ t.a[1]? = some nan := by
  obtain ⟨q, hq⟩ := (C100_accepts L 1 wn b fs).mpr (by
    rcases hb with rfl | rfl <;> exact ⟨nan, hs, .inl rfl⟩)
  obtain ⟨hp, hk⟩ := C100_nan_edge hL 1 (by simp) wn none none b .butterworth fs q hq (by simp [hs])
  have hz : ∃ z, q.z = [z] := by
    have := hq
    rw [iirfilter_checked (iirfilter_inv hq), staged_butter 1 hs hb] at this
    simp only [Except.ok.injEq] at this
    rw [← this]
    rcases hb with rfl | rfl <;> exact ⟨_, rfl⟩
  obtain ⟨z, hz⟩ := hz
  have hp1 : q.p = [⟨nan, nan⟩] := by
    rw [hp]
    rcases hb with rfl | rfl <;> rfl
  rw [as_ba hq, hz, hp1, hk]
  have key : ∀ x : Cx f, ∃ u v : Cx f, poly S [x] = .ok [u, v] ∧ v.re = 0 + (1 * (-x.re) - 0 * (-x.im)) := by
    intro x
    unfold IeeeDesign.poly
    have h1 : [x].foldlM polyStep [Cx.ofRe 1] =
        .ok [(Cx.ofRe 0).add ((Cx.ofRe 1).mul (Cx.ofRe 1)), (Cx.ofRe 0).add ((Cx.ofRe 1).mul x.neg)] := by
      rfl
    rw [h1, ok_bind, hS.cplx.short [x] (by simp), ok_bind, List.map_singleton, hS.cplx.short [x.conj] (by simp), ok_bind]
    split
    · exact ⟨_, _, rfl, rfl⟩
    · exact ⟨_, _, rfl, rfl⟩
  have key2 : ∀ (x : Cx f) (u v : Cx f), ∃ u' v', poly2ba S [u, v] [x] = .ok [u', v'] ∧ u'.re = u.re ∧ v'.re = v.re := by
    intro x u v
    unfold IeeeDesign.poly2ba
    dsimp only
    split
    · rw [hS.cplx.short _ (by simpa using List.length_filter_le _ [x]), ok_bind,
        hS.cplx.short _ (by simpa using List.length_filter_le _ [x]), ok_bind]
      split
      · exact ⟨_, _, rfl, rfl, rfl⟩
      · exact ⟨_, _, rfl, rfl, rfl⟩
    · exact ⟨_, _, rfl, rfl, rfl⟩
  obtain ⟨u, v, h1, -⟩ := key z
  obtain ⟨u', v', h2, hv'⟩ := key ⟨nan, nan⟩
  obtain ⟨u1, v1, h3, h3u, h3v⟩ := key2 z ((Cx.ofRe nan).mul u) ((Cx.ofRe nan).mul v)
  obtain ⟨u2, v2, h4, h4u, h4v⟩ := key2 ⟨nan, nan⟩ u' v'
  unfold IeeeDesign.zpk2tf
  rw [h1, ok_bind, h2, ok_bind]
  dsimp only [List.map]
  rw [h3, ok_bind, h4, ok_bind]
  refine ⟨_, rfl, ?_, ?_, ?_⟩
  · simp [fillReal, h3u, h3v, Cx.mul, Cx.ofRe]
  · simp [fillReal]
  · have hn : -(nan : Ieee f) = nan := rfl
    simp [fillReal, h4v, hv', hn]

/-! ### Overflow -/

theorem sub_zero_or_nan (ht : 0 ≤ f.top) {a b : Ieee f} (ha : a = nan ∨ ∃ s, a = fin 0 s)
    (hb : b = nan ∨ ∃ s, b = fin 0 s) : a - b = nan ∨ ∃ s, a - b = fin 0 s := by
  rcases ha with rfl | ⟨s, rfl⟩
  · left; simp
  · rcases hb with rfl | ⟨t, rfl⟩
    · left; simp
    · right
      change ∃ u, pack f _ _ = _
      rw [pack]
      simp [f.r.zero, not_lt.mpr ht]

theorem zero_mul_or_nan (ht : 0 ≤ f.top) {a b : Ieee f} (h : a = nan ∨ ∃ s, a = fin 0 s) :
    a * b = nan ∨ ∃ s, a * b = fin 0 s := by
  rcases h with rfl | ⟨s, rfl⟩
  · left; simp
  · cases b with
    | nan => left; simp
    | inf t => left; rw [mul_def, Ieee.mul, if_pos rfl]
    | fin v t =>
      right
      rw [mul_def, Ieee.mul, zero_mul, pack, f.r.zero, abs_zero, if_neg (not_lt.mpr ht)]
      exact ⟨_, rfl⟩

/-- **C105** A filter whose gain has been lost to overflow (C102) becomes sections the first of which has only zeros
and NaN in its numerator. -/
theorem C105_lost_gain_sections (htop : 0 ≤ f.top) (order : ℕ) (q : ZpkI f) (hk : q.k = nan ∨ Is q.k 0)
    (l : List (Sos (Ieee f))) (h : IeeeDesign.zpk2sos L S order q none (some false) = .ok l) :
    ∃ s0 rest, l = s0 :: rest ∧ (s0.b0 = nan ∨ Is s0.b0 0) ∧ (s0.b1 = nan ∨ Is s0.b1 0) ∧
      (s0.b2 = nan ∨ Is s0.b2 0) := by
  have hp : ∀ pr an z p n, IeeeDesign.pairUp L S pr an z p q.k n = .ok l →
      ∃ s0 rest, l = s0 :: rest ∧ (s0.b0 = nan ∨ Is s0.b0 0) ∧ (s0.b1 = nan ∨ Is s0.b1 0) ∧
      (s0.b2 = nan ∨ Is s0.b2 0) := by
    intro pr an z p n hl
    unfold IeeeDesign.pairUp at hl
    cases ha : pairAll L S pr an z p n with
    | error e => rw [ha] at hl; cases hl
    | ok l' =>
      rw [ha, ok_bind] at hl
      cases l' with
      | nil => cases hl
      | cons s0 rest =>
        simp only [putGain, Except.ok.injEq] at hl
        exact ⟨_, _, hl.symm, mul_zero_or_nan htop hk, mul_zero_or_nan htop hk, mul_zero_or_nan htop hk⟩
  unfold IeeeDesign.zpk2sos at h
  dsimp only [Option.getD] at h
  rw [if_neg (by simp)] at h
  split at h
  · rw [if_pos rfl] at h
    simp only [pure, Except.pure, Except.ok.injEq] at h
    exact ⟨_, _, h.symm, hk, .inr is_zero, .inr is_zero⟩
  · rw [if_pos (by simp)] at h
    obtain ⟨u, -, h2⟩ := Design.bind_eq_ok.mp h
    exact hp _ _ _ _ _ h2

/-- **C105** and coefficients whose numerator has only zeros and NaN. -/
theorem C105_lost_gain_coefficients (htop : 0 ≤ f.top) (order : ℕ) (q : ZpkI f) (hk : q.k = nan ∨ Is q.k 0)
    (t : BaI f) (h : IeeeDesign.zpk2tf S order q.z q.p q.k = .ok t) : ∀ b ∈ t.b, b = nan ∨ Is b 0 := by
  unfold IeeeDesign.zpk2tf at h
  obtain ⟨pz, -, h⟩ := Design.bind_eq_ok.mp h
  obtain ⟨a, -, h⟩ := Design.bind_eq_ok.mp h
  obtain ⟨bv, hb, h⟩ := Design.bind_eq_ok.mp h
  obtain ⟨av, -, h⟩ := Design.bind_eq_ok.mp h
  simp only [pure, Except.pure, Except.ok.injEq] at h
  have h1 : ∀ c ∈ pz.map (fun bi => (Cx.ofRe q.k).mul bi), c.re = nan ∨ Is c.re 0 := by
    intro c hc
    obtain ⟨bi, -, rfl⟩ := List.mem_map.mp hc
    exact sub_zero_or_nan htop (zero_mul_or_nan htop hk) (zero_mul_or_nan htop (.inr ⟨_, rfl⟩))
  have h2 : ∀ c ∈ bv, c.re = nan ∨ Is c.re 0 := by
    have : bv = (pz.map (fun bi => (Cx.ofRe q.k).mul bi)).map dropIm ∨ bv = pz.map (fun bi => (Cx.ofRe q.k).mul bi) := by
      unfold IeeeDesign.poly2ba at hb
      dsimp only at hb
      split at hb
      · obtain ⟨x, -, hb⟩ := Design.bind_eq_ok.mp hb
        obtain ⟨y, -, hb⟩ := Design.bind_eq_ok.mp hb
        split at hb
        · left; cases hb; rfl
        · right; cases hb; rfl
      · right; cases hb; rfl
    rcases this with rfl | rfl
    · intro c hc
      obtain ⟨d, hd, rfl⟩ := List.mem_map.mp hc
      exact h1 d hd
    · exact h1
  rw [← h]
  intro b hb
  simp only [fillReal, List.mem_append, List.mem_map, List.mem_replicate] at hb
  rcases hb with ⟨c, hc, rfl⟩ | ⟨-, rfl⟩
  · exact h2 c (List.mem_of_mem_take hc)
  · exact .inr is_zero

/-- **C105** in `f32`: a Butterworth low-pass or high-pass request of an order between 33 and 2048, with its edge in
the lower half of the frequencies, that is answered with sections is answered with a first section whose numerator
has only zeros and NaN. -/
theorem C105_f32_order_33_wrong {L : Lib f32} {S : CxSorts f32} (hm : m.Accurate binary32 (1 / 2 ^ 22))
    (hL : Lib.Agrees L m) (n : ℕ) (hn : 33 ≤ n) (hn2 : n ≤ 2048) (w : ℝ) (hW : binary32.rnd w = w)
    (band : Design.Band) (hb : band = .lowpass ∨ band = .highpass) (fs : Option ℝ) (hfs : ∀ x ∈ fs, |x| ≤ f32.top)
    (e : ℝ) (he : Spec.edges [w] fs = [e]) (h0 : 1 / 2 ^ 18 ≤ e) (h1 : e ≤ 1 / 2) (l : List (Sos (Ieee f32)))
    (h : iirfilterAs L S n [ofReal f32 w] none none (some band) (some .butterworth) none (some .sos)
      (fs.map (ofReal f32)) = .ok (.sos l)) :
    ∃ s0 rest, l = s0 :: rest ∧ (s0.b0 = nan ∨ Is s0.b0 0) ∧ (s0.b1 = nan ∨ Is s0.b1 0) ∧
      (s0.b2 = nan ∨ Is s0.b2 0) := by
  obtain ⟨q, hq, hk⟩ := C102_f32_order_33_wrong hm hL n hn hn2 w hW band hb fs hfs e he h0 h1
  rw [as_sos hq] at h
  obtain ⟨l', h1, h2⟩ := Design.bind_eq_ok.mp h
  simp only [pure, Except.pure, Except.ok.injEq, FilterI.sos.injEq] at h2
  subst h2
  have := f32_top.1
  exact C105_lost_gain_sections (le_trans (by positivity) this) n q hk l' h1

/-! ### Finite numbers -/

theorem rr_split {α β : Type} {R : α → β → Prop} {x : Res α} {y : Res β} (h : RR R x y) :
    (∀ e, x = .error e ↔ y = .error e) ∧ ∀ b, y = .ok b → ∃ a, x = .ok a ∧ R a b := by
  cases x with
  | error e =>
    cases y with
    | error e' => cases h; simp
    | ok b => exact h.elim
  | ok a =>
    cases y with
    | error e' => exact h.elim
    | ok b =>
      refine ⟨by simp, fun b' hb => ⟨a, rfl, ?_⟩⟩
      cases hb
      exact h

/-- **C105** The conversions do not overflow: if the zeros and poles are finite and of absolute value at most `B`, and
the gain at most `K`, then sections computed on IEEE numbers are finite and are those of the model without infinities
and NaN, for sorts which are correct; a request that panics in one panics in the other.  The same is true of
coefficients, if the degree is not too large for the range of the type. -/
theorem C105_conversion (hm : m.Accurate f.r h) (hh : h ≤ 1 / 1024) (ht : f.r.t ≤ 1) (hL : Lib.AgreesSos L m)
    (hS : S.Correct) : ∃ s : Design.Sorts, s.Correct ∧
    ∀ (q : ZpkI f) (g : Design.Zpk) (B K : ℝ), ZpkIs q g → (∀ z ∈ g.z, ‖z‖ ≤ B) → (∀ p ∈ g.p, ‖p‖ ≤ B) → |g.k| ≤ K →
      1 ≤ B → 1 ≤ K → ∀ order : ℕ,
      (100 * (12000 * B) ^ 2 * K ≤ f.top → ∀ pairing analog,
        (∀ e, IeeeDesign.zpk2sos L S order q pairing analog = .error e ↔
          Rounded.zpk2sos (.ofRounding f.r m) s order g pairing analog = .error e) ∧
        ∀ l', Rounded.zpk2sos (.ofRounding f.r m) s order g pairing analog = .ok l' →
          ∃ l, IeeeDesign.zpk2sos L S order q pairing analog = .ok l ∧ List.Forall₂ SosIs l l') ∧
      (100 * K * (1000 * B) ^ max g.z.length g.p.length ≤ f.top →
        (∀ e, IeeeDesign.zpk2tf S order q.z q.p q.k = .error e ↔
          Rounded.zpk2tf (.ofRounding f.r m) order g.z g.p g.k = .error e) ∧
        ∀ t', Rounded.zpk2tf (.ofRounding f.r m) order g.z g.p g.k = .ok t' →
          ∃ t, IeeeDesign.zpk2tf S order q.z q.p q.k = .ok t ∧ BaIs t t') := by
  obtain ⟨s, hs, h1, h2⟩ := exists_lift hS
  refine ⟨s, hs, fun q g B K hq hz hp hk hB hK order => ⟨fun hT pairing analog => ?_, fun hT => ?_⟩⟩
  · have hB2 : (1 : ℝ) ≤ B ^ 2 := one_le_pow₀ hB
    have r1 : Roomy L m B := .of_accurate hm hh ht hL hB (by nlinarith)
    have r2 : Roomy L m (12 * B) := .of_accurate hm hh ht hL (by linarith) (by nlinarith)
    exact rr_split (zpk2sos_is hS r1 r2 (forall_CB.mpr ⟨hq.1, hz⟩) (forall_CB.mpr ⟨hq.2.1, hp⟩) hq.2.2 hk hK
      (by rw [show 1000 * (12 * B) = 12000 * B by ring]; exact hT) ⟨hs, h1, h2⟩ order pairing analog)
  · have hu1 : f.r.u ≤ 1 := (hm.u_le.trans hh).trans (by norm_num)
    have a1 : (1000 * B) ^ g.z.length ≤ (1000 * B) ^ max g.z.length g.p.length :=
      pow_le_pow_right₀ (by linarith) (le_max_left _ _)
    have a2 : (1000 * B) ^ g.p.length ≤ (1000 * B) ^ max g.z.length g.p.length :=
      pow_le_pow_right₀ (by linarith) (le_max_right _ _)
    have a3 : 1 ≤ (1000 * B) ^ max g.z.length g.p.length := one_le_pow₀ (by linarith)
    have := zpk2tf_is m hu1 ht hB hS order (forall_CB.mpr ⟨hq.1, hz⟩) (forall_CB.mpr ⟨hq.2.1, hp⟩) hq.2.2 hk hK
      (by nlinarith) (by nlinarith)
    exact rr_split (this.mono fun a b hab => ⟨hab.1.imp fun _ _ h => h.1, hab.2⟩)

/-- The gain of a filter with `n` zeros at `-x` and `n` poles in the disc is at most one, if the response at `x` is. -/
theorem gain_le_one {d : Design.Zpk} {n : ℕ} {x : ℂ} (hx : ‖x‖ = 1) (hz : d.z = List.replicate n (-x))
    (hl : d.p.length = n) (hp : ∀ p ∈ d.p, ‖p‖ ≤ 1) (he : d.eval x = 1) : |d.k| ≤ 1 := by
  have h1 : d.num x = d.den x := by
    have h0 : d.den x ≠ 0 := by
      intro h0
      rw [Design.Zpk.eval, h0, div_zero] at he
      exact zero_ne_one he
    rw [Design.Zpk.eval, div_eq_one_iff_eq h0] at he
    exact he
  have h2 : ‖d.den x‖ ≤ 2 ^ n := by
    rw [Design.Zpk.den, ← hl]
    clear h1 he hz hl
    revert hp
    generalize d.p = l
    intro hp
    induction l with
    | nil => simp
    | cons a l ih =>
      rw [List.map_cons, List.prod_cons, norm_mul, List.length_cons, pow_succ, mul_comm]
      have ha : ‖x - a‖ ≤ 2 := by
        have := norm_sub_le x a
        have := hp a List.mem_cons_self
        linarith
      exact mul_le_mul (ih fun p hp' => hp p (List.mem_cons_of_mem _ hp')) ha (norm_nonneg _) (by positivity)
  have h3 : ‖d.num x‖ = |d.k| * 2 ^ n := by
    rw [Design.Zpk.num, hz, List.map_replicate, List.prod_replicate, norm_mul, norm_pow, sub_neg_eq_add, ← two_mul,
      norm_mul, hx]
    simp
  rw [← h1, h3] at h2
  have : (0 : ℝ) < 2 ^ n := by positivity
  nlinarith

/-- **C105** Butterworth low-pass and high-pass sections: with the hypotheses under which nothing overflows in the
zeros, poles and gain (C102) and under which the sections without overflow are accurate (C91), the sections computed
on IEEE numbers are returned, and they are finite and those without overflow, for sorts which are correct. -/
theorem C105_butterworth (hr : f.r.Nearest) (hm : m.Accurate f.r h) (hL : Lib.Agrees L m) (hL' : Lib.AgreesSos L m)
    (hS : S.Correct) : ∃ s : Design.Sorts, s.Correct ∧ ∀ (n : ℕ) (_ : n ≠ 0) (w : ℝ) (_ : f.r.rnd w = w)
    (band : Design.Band) (_ : band = .lowpass ∨ band = .highpass) (fs : Option ℝ) (_ : ∀ x ∈ fs, |x| ≤ f.top) (e : ℝ)
    (_ : Spec.edges [w] fs = [e]) (_ : 0 < e) (_ : e < 1) (_ : Small f.r h ((e * (1 - e) / 20) ^ n))
    (_ : 3000 * (n ^ 3 * h) ≤ (e * (1 - e)) ^ 2) (_ : 64 * (8 / (1 - e)) ^ (2 * n) ≤ f.top) (_ : 2 ^ 40 ≤ f.top),
    ∃ l l', iirfilterAs L S n [ofReal f w] none none (some band) (some .butterworth) none (some .sos)
        (fs.map (ofReal f)) = .ok (.sos l) ∧
      Rounded.butter (.ofRounding f.r m) s n [w] (some band) none (some .sos) fs = .ok (.sos l') ∧
      List.Forall₂ SosIs l l' := by
  by_cases hh2 : h ≤ 1 / 1024 ∧ f.r.t ≤ 1
  swap
  · obtain ⟨s, hs⟩ := Design.exists_sorts
    refine ⟨s, hs, fun n hn w hW band hb fs hfs e he h0 h1 Sm hh hT hT2 => absurd ?_ hh2⟩
    have hn1 : (1 : ℝ) ≤ n := by exact_mod_cast Nat.one_le_iff_ne_zero.mpr hn
    have hh0 := Sm.h_nonneg
    have hn3 : (1 : ℝ) ≤ n ^ 3 := one_le_pow₀ hn1
    have k1 : h ≤ n ^ 3 * h := le_mul_of_one_le_left hh0 hn3
    have k2 : e * (1 - e) ≤ 1 := by nlinarith
    have k3 : (e * (1 - e)) ^ 2 ≤ 1 := pow_le_one₀ (by nlinarith) k2
    refine ⟨by linarith, ?_⟩
    have k4 : (e * (1 - e) / 20) ^ n ≤ 1 := pow_le_one₀ (by nlinarith) (by linarith)
    have k5 := Sm.t_le
    have k6 := f.r.u_nonneg
    have k7 := Sm.u_le
    have k8 := Sm.pos
    nlinarith
  · obtain ⟨s, hs, H⟩ := C105_conversion (S := S) hm hh2.1 hh2.2 hL' hS
    refine ⟨s, hs, fun n hn w hW band hb fs hfs e he h0 h1 Sm hh hT hT2 => ?_⟩
    have hn1 : (1 : ℝ) ≤ n := by exact_mod_cast Nat.one_le_iff_ne_zero.mpr hn
    have hn0 : (0 : ℝ) < n := by linarith
    have hh0 := Sm.h_nonneg
    have h1e : 0 < 1 - e := by linarith
    have b0 : 0 < e * (1 - e) / 20 := by positivity
    have b1 : e * (1 - e) / 20 ≤ 1 := by nlinarith
    have b2 : (e * (1 - e) / 20) ^ n ≤ e * (1 - e) / 20 := pow_le_of_le_one b0.le b1 hn
    have Se : Small f.r h (e / 4) := Sm.mono (b2.trans (by nlinarith))
    have n2 : (n : ℝ) ≤ n ^ 3 := le_self_pow₀ hn1 (by norm_num)
    have n3 : (n : ℝ) ^ 2 ≤ n ^ 3 := pow_le_pow_right₀ hn1 (by norm_num)
    have k1 : n * h ≤ n ^ 3 * h := mul_le_mul_of_nonneg_right n2 hh0
    have k2 : n ^ 2 * h ≤ n ^ 3 * h := mul_le_mul_of_nonneg_right n3 hh0
    have k3 : (e * (1 - e)) ^ 2 ≤ e * (1 - e) ^ 2 := by
      rw [mul_pow]
      exact mul_le_mul_of_nonneg_right (by nlinarith) (by positivity)
    have k4 : e * (1 - e) ^ 2 ≤ 1 - e := by nlinarith [mul_pos h0 h1e]
    have hhn : 1024 * (n * h) ≤ 1 - e := by linarith [mul_nonneg hn0.le hh0]
    have hX : 2000 * (n * (h / (1 - e))) ≤ e * (1 - e) / n := by
      rw [le_div_iff₀ hn0, show 2000 * (n * (h / (1 - e))) * n = 2000 * (n ^ 2 * h) / (1 - e) by field_simp,
        div_le_iff₀ h1e]
      have : 0 ≤ (n : ℝ) ^ 2 * h := by positivity
      nlinarith
    obtain ⟨q, g, hq, hg, hqg⟩ := C102_no_overflow hr hm hL s n hn w hW band hb fs hfs e he h1 Se hhn hT
    obtain ⟨l', f0, hl', hf0, -, -⟩ := C91_sections_response hr hm 0 hs n hn [w] (by simpa using hW) band hb fs e he h0
      h1 Sm hh
    obtain ⟨g1, f1, hg1, hf1, hz1, hp1, hin, -⟩ := butter_close hr hm 0 s hn (wn := [w]) (by simpa using hW) hb he h0 h1
      Sm rfl hX
    obtain ⟨g2, f2, hg2, hf2, hz2, -, hk⟩ := C91_gain hr hm 0 s n hn [w] (by simpa using hW) band hb fs e he h0 h1 Sm hhn
    obtain ⟨g3, f3, hg3, hf3, hpp⟩ := C90_poles hr hm 0 s n hn [w] (by simpa using hW) band hb fs e he h1
      (Se.mono (by linarith)) (by nlinarith)
    rw [hg] at hg1 hg2 hg3
    rw [hf0] at hf1 hf2 hf3
    simp only [Except.ok.injEq, Design.Filter.zpk.injEq] at hg1 hg2 hg3 hf1 hf2 hf3
    subst hg1 hg2 hg3 hf1 hf2 hf3
    have hX0 := (margin_sizes h0 h1 hn).1
    have hlen : f0.p.length = n := by rw [← hpp.length_eq, hp1]
    have disc : ∀ {d : Design.Zpk}, (∀ x : ℂ, 1 ≤ ‖x‖ → d.Regular x) → ∀ p ∈ d.p, ‖p‖ ≤ 1 := by
      intro d hd p hp
      by_contra hc
      refine hd p (by linarith) ?_
      rw [Design.Zpk.den]
      exact List.prod_eq_zero (List.mem_map.mpr ⟨p, hp, sub_self p⟩)
    have hk0 : |f0.k| ≤ 1 := by
      rcases hb with rfl | rfl
      · obtain ⟨d, hd, hreg, -, hev, -⟩ := C56_response 0 s n hn w e fs (some .lowpass) (.inr rfl) none (.inl rfl) he h0 h1
        rw [hf0] at hd
        simp only [Except.ok.injEq, Design.Filter.zpk.injEq] at hd
        subst hd
        exact gain_le_one (x := 1) (by simp) (by rw [← hz2, hz1]; simp) hlen (disc hreg) hev
      · obtain ⟨d, hd, hreg, -, -, hev, -⟩ := C57_response 0 s n hn w e fs none (.inl rfl) he h0 h1
        rw [hf0] at hd
        simp only [Except.ok.injEq, Design.Filter.zpk.injEq] at hd
        subst hd
        exact gain_le_one (x := -1) (by simp) (by rw [← hz2, hz1]; simp) hlen (disc hreg) hev
    have hgk : |g.k| ≤ 2 := by
      have i1 := abs_sub_abs_le_abs_sub g.k f0.k
      have i2 : 125 * n * h / (1 - e) ≤ 1 := by
        rw [div_le_one h1e]
        linarith [mul_nonneg hn0.le hh0]
      have i3 : 125 * n * h / (1 - e) * |f0.k| ≤ 1 * 1 := mul_le_mul i2 hk0 (abs_nonneg _) (by norm_num)
      linarith
    obtain ⟨hsos, -⟩ := H q g 1 2 hqg (by
        rw [hz1]
        intro z hz
        rw [List.eq_of_mem_replicate hz]
        split <;> simp)
      (fun p hp => (hin p hp).trans (by nlinarith)) hgk le_rfl (by norm_num) n
    obtain ⟨-, hsos⟩ := hsos (by norm_num at hT2 ⊢; linarith) none (some false)
    have hconv : Rounded.zpk2sos (.ofRounding f.r m) s n g none (some false) = .ok l' := by
      have h1 := hl'
      rw [Rounded.butter, Rounded.iirfilter_eq] at h1 hg
      change (Rounded.design (.ofRounding f.r m) n [w] none none band .butterworth false fs >>= _) = _ at h1
      change (Rounded.design (.ofRounding f.r m) n [w] none none band .butterworth false fs >>= _) = _ at hg
      obtain ⟨d, hd, hd2⟩ := Design.bind_eq_ok.mp hg
      rw [hd, ok_bind] at h1
      simp only [Rounded.convert, Except.ok.injEq, Design.Filter.zpk.injEq, Option.getD] at hd2
      subst hd2
      obtain ⟨l2, h2, h3⟩ := Design.bind_eq_ok.mp (show (Rounded.zpk2sos (.ofRounding f.r m) s n d none (some false) >>=
        fun l => pure (Design.Filter.sos l)) = _ from h1)
      simp only [pure, Except.pure, Except.ok.injEq, Design.Filter.sos.injEq] at h3
      rw [h2, h3]
    obtain ⟨l, hl, hll⟩ := hsos l' hconv
    exact ⟨l, l', by rw [as_sos hq, hl]; rfl, hl', hll⟩

theorem f64_side {n : ℕ} (hn : n ≠ 0) (hn46 : n ≤ 46) {e : ℝ} (h0 : 1 / 256 ≤ e) (h1 : e ≤ 1 - 1 / 256) :
    Small binary64 (1 / 2 ^ 50) ((e * (1 - e) / 20) ^ n) ∧ 3000 * ((n : ℝ) ^ 3 * (1 / 2 ^ 50)) ≤ (e * (1 - e)) ^ 2 ∧
      64 * (8 / (1 - e)) ^ (2 * n) ≤ f64.top ∧ (2 : ℝ) ^ 40 ≤ f64.top := by
  have a0 : 1 / 512 ≤ e * (1 - e) := by
    norm_num at h0 h1
    nlinarith
  have a1 : e * (1 - e) ≤ 1 := by nlinarith
  have hn' : (n : ℝ) ≤ 46 := by exact_mod_cast hn46
  refine ⟨binary64_small_pow ?_, ?_, ?_, (pow_le_pow_right₀ (by norm_num) (by norm_num)).trans f64_top_large⟩
  · have b1 : (2 : ℝ) ^ (-14 : ℤ) ≤ e * (1 - e) / 20 := by
      rw [zpow_neg]
      norm_num
      linarith
    have b2 : ((2 : ℝ) ^ (-14 : ℤ)) ^ n ≤ (e * (1 - e) / 20) ^ n := pow_le_pow_left₀ (by positivity) b1 n
    have b3 : ((2 : ℝ) ^ (-14 : ℤ)) ^ 46 ≤ ((2 : ℝ) ^ (-14 : ℤ)) ^ n :=
      pow_le_pow_of_le_one (by positivity) (by rw [zpow_neg]; norm_num) hn46
    refine le_trans ?_ (b3.trans b2)
    rw [← zpow_natCast, ← zpow_mul]
    exact zpow_le_zpow_right₀ (by norm_num) (by norm_num)
  · have b1 : (1 / 512 : ℝ) ^ 2 ≤ (e * (1 - e)) ^ 2 := pow_le_pow_left₀ (by norm_num) a0 2
    have b2 : (n : ℝ) ^ 3 ≤ 46 ^ 3 := pow_le_pow_left₀ (by positivity) hn' 3
    refine le_trans ?_ b1
    norm_num at b2 ⊢
    linarith
  · have a1 : 8 / (1 - e) ≤ 2 ^ 11 := by
      rw [div_le_iff₀ (by norm_num at h1; linarith)]
      norm_num at h1 ⊢
      linarith
    have a2 : (8 / (1 - e)) ^ (2 * n) ≤ (2 ^ 11) ^ (2 * n) :=
      pow_le_pow_left₀ (div_nonneg (by norm_num) (by norm_num at h1; linarith)) a1 _
    have a3 : ((2 : ℝ) ^ 11) ^ (2 * n) ≤ (2 ^ 11) ^ 92 := pow_le_pow_right₀ (by norm_num) (by omega)
    have a4 : (64 : ℝ) * (2 ^ 11) ^ 92 ≤ 2 ^ 1023 := by
      rw [← pow_mul, show (64 : ℝ) = 2 ^ 6 by norm_num, ← pow_add]
      exact pow_le_pow_right₀ (by norm_num) (by norm_num)
    exact (mul_le_mul_of_nonneg_left (a2.trans a3) (by norm_num)).trans (a4.trans f64_top.1)

/-- **C105** Low-pass sections in `f64`, infinities and NaN included: up to order 46 and for edges between `1/256` and
`255/256` of the Nyquist frequency, the sections are returned, all their numbers are finite, every section is stable,
and at every frequency below the Nyquist frequency the gain is that of the Butterworth filter up to the relative error
`250 n³ 2⁻⁵⁰ / (e (1 - e))²`. -/
theorem C105_f64_lowpass {L : Lib f64} {S : CxSorts f64} (hm : m.Accurate binary64 (1 / 2 ^ 50))
    (hL : Lib.Agrees L m) (hL' : Lib.AgreesSos L m) (hS : S.Correct) (n : ℕ) (hn : n ≠ 0) (hn46 : n ≤ 46) (w : ℝ)
    (hW : binary64.rnd w = w) (fs : Option ℝ) (hfs : ∀ x ∈ fs, |x| ≤ f64.top) (e : ℝ) (he : Spec.edges [w] fs = [e])
    (h0 : 1 / 256 ≤ e) (h1 : e ≤ 1 - 1 / 256) :
    ∃ l l', iirfilterAs L S n [ofReal f64 w] none none (some .lowpass) (some .butterworth) none (some .sos)
        (fs.map (ofReal f64)) = .ok (.sos l) ∧ List.Forall₂ SosIs l l' ∧ (∀ x ∈ l', Stable x) ∧
      ∀ ω : ℝ, |ω| < Real.pi →
        |‖freqResponse l' ω‖ - √(1 / (1 + (Real.tan (ω / 2) / Real.tan (Real.pi * e / 2)) ^ (2 * n)))| ≤
          250 * (n ^ 3 * (1 / 2 ^ 50) / (e * (1 - e)) ^ 2) *
            √(1 / (1 + (Real.tan (ω / 2) / Real.tan (Real.pi * e / 2)) ^ (2 * n))) := by
  obtain ⟨c1, c2, c3, c4⟩ := f64_side hn hn46 h0 h1
  obtain ⟨s, hs, H⟩ := C105_butterworth (L := L) (S := S) binary64_nearest hm hL hL' hS
  have e0 : 0 < e := lt_of_lt_of_le (by norm_num) h0
  have e1 : e < 1 := lt_of_le_of_lt h1 (by norm_num)
  obtain ⟨l, l', hl, hl', hll⟩ := H n hn w hW .lowpass (.inl rfl) fs hfs e he e0 e1 c1 c2 c3 c4
  obtain ⟨l2, hl2, hst, hresp⟩ := C91_lowpass binary64_nearest hm hs n hn w hW fs e he e0 e1 c1 c2
  obtain rfl : l2 = l' := by
    have := hl2.symm.trans hl'
    simpa using this
  exact ⟨l, l2, hl, hll, hst, hresp⟩

/-- **C105** The same for high-pass sections. -/
theorem C105_f64_highpass {L : Lib f64} {S : CxSorts f64} (hm : m.Accurate binary64 (1 / 2 ^ 50))
    (hL : Lib.Agrees L m) (hL' : Lib.AgreesSos L m) (hS : S.Correct) (n : ℕ) (hn : n ≠ 0) (hn46 : n ≤ 46) (w : ℝ)
    (hW : binary64.rnd w = w) (fs : Option ℝ) (hfs : ∀ x ∈ fs, |x| ≤ f64.top) (e : ℝ) (he : Spec.edges [w] fs = [e])
    (h0 : 1 / 256 ≤ e) (h1 : e ≤ 1 - 1 / 256) :
    ∃ l l', iirfilterAs L S n [ofReal f64 w] none none (some .highpass) (some .butterworth) none (some .sos)
        (fs.map (ofReal f64)) = .ok (.sos l) ∧ List.Forall₂ SosIs l l' ∧ (∀ x ∈ l', Stable x) ∧
      ∀ ω : ℝ, 0 < |ω| → |ω| < Real.pi →
        |‖freqResponse l' ω‖ - √(1 / (1 + (Real.tan (Real.pi * e / 2) / Real.tan (ω / 2)) ^ (2 * n)))| ≤
          250 * (n ^ 3 * (1 / 2 ^ 50) / (e * (1 - e)) ^ 2) *
            √(1 / (1 + (Real.tan (Real.pi * e / 2) / Real.tan (ω / 2)) ^ (2 * n))) := by
  obtain ⟨c1, c2, c3, c4⟩ := f64_side hn hn46 h0 h1
  obtain ⟨s, hs, H⟩ := C105_butterworth (L := L) (S := S) binary64_nearest hm hL hL' hS
  have e0 : 0 < e := lt_of_lt_of_le (by norm_num) h0
  have e1 : e < 1 := lt_of_le_of_lt h1 (by norm_num)
  obtain ⟨l, l', hl, hl', hll⟩ := H n hn w hW .highpass (.inr rfl) fs hfs e he e0 e1 c1 c2 c3 c4
  obtain ⟨l2, hl2, hst, hresp⟩ := C91_highpass binary64_nearest hm hs n hn w hW fs e he e0 e1 c1 c2
  obtain rfl : l2 = l' := by
    have := hl2.symm.trans hl'
    simpa using this
  exact ⟨l, l2, hl, hll, hst, hresp⟩

/-! ### The hypotheses can be met -/

theorem libOf_agreesSos : Lib.AgreesSos (libOf f m) m where
  eps := ⟨_, rfl⟩
  cabs a z ha h := by
    obtain ⟨are, aim⟩ := a
    obtain ⟨⟨s, hs⟩, ⟨t, ht⟩⟩ := ha
    simp only at hs ht
    subst hs ht
    exact capped_is (by rw [abs_of_nonneg (m.hypot_nonneg _ _)]; exact h)
  csqrt a z ha h1 h2 := by
    obtain ⟨are, aim⟩ := a
    obtain ⟨⟨s, hs⟩, ⟨t, ht⟩⟩ := ha
    simp only at hs ht
    subst hs ht
    exact capped_is h2

/-- An eighth-order low-pass filter with its edge at 40 Hz for signals sampled at 1 kHz, in `f64`. -/
example : ∃ l l', iirfilterAs (libOf f64 libm64) (anySorts f64) 8 [ofReal f64 40] none none (some .lowpass)
    (some .butterworth) none (some .sos) (some (ofReal f64 1000)) = .ok (.sos l) ∧ List.Forall₂ SosIs l l' ∧
    ∀ x ∈ l', Stable x := by
  obtain ⟨l, l', h1, h2, h3, -⟩ := C105_f64_lowpass libm64_accurate libOf_agrees libOf_agreesSos (anySorts_correct f64) 8
    (by norm_num) (by norm_num) 40 (by
      have := Binary.rnd_int 53 (-1074) (by norm_num) 40 (by norm_num)
      exact_mod_cast this) (some 1000) (by
      intro x hx
      obtain rfl : 1000 = x := by simpa using hx
      rw [abs_of_pos (by norm_num)]
      exact le_trans (by norm_num) f64_top_large) (2 / 25) (by simp [Spec.edges]; norm_num) (by norm_num) (by norm_num)
  exact ⟨l, l', h1, h2, h3⟩

/-- A fourth-order low-pass request at a NaN frequency panics when sections are asked for. -/
example : Panics (iirfilterAs (sampleLib f64) (anySorts f64) 4 [nan] none none (some .lowpass) (some .butterworth) none
    (some .sos) none) := by
  obtain ⟨q, hq, -⟩ := C100_nan_accepted (sampleLib f64) rfl 4 (by simp) .lowpass (.inl rfl)
  refine (C105_nan_edge_panics (L := sampleLib f64) rfl (anySorts_correct f64) 4 (by simp) [nan] none none .lowpass
    .butterworth none (by simp [scaled]) ⟨.zpk q, ?_⟩).1
  unfold iirfilterAs
  rw [hq]
  rfl

end SciRs.Props

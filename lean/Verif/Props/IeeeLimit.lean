import Verif.Lemmas.IeeeLimitFilter
import Verif.Props.Rounded.Limit
import Verif.Props.IeeeSections

/-!
# C108: with enough precision and range, designs on IEEE numbers are finite and close to the exact designs

C104 is about numbers without overflow.  Here the numbers have a largest finite one, infinities, NaN and signed zeros.
For every request of C104 there are an accuracy and a range from which on nothing in the design overflows or becomes
NaN, and the zeros, poles and gain, the coefficients, and the frequency responses of the sections tend to those of the
exact design.  The order of zeros and poles is left open: the sign of a zero imaginary part decides which of the two
square roots of a negative number is taken, so that some pairs may come in the other order.
-/

namespace SciRs.Props

open SciRs SciRs.Design SciRs.Spec SciRs.Spec.Ieee SciRs.IeeeDesign SciRs.Rounded Filter Topology

/-- Each list element is within `ε` of its partner in some reordering of the other list. -/
def CloseUpToOrder (ε : ℝ) (l l' : List ℂ) : Prop :=
  ∃ l'', l''.Perm l' ∧ List.Forall₂ (fun a b => ‖a - b‖ ≤ ε) l l''

theorem candidates_exist {n : ℕ} (hn : n ≠ 0) {wn : List ℝ} {rp rs : Option ℝ} {band : Band}
    {ftype : FType} {analog : Bool} {fs : Option ℝ} (hv : ValidRequest wn rp rs band ftype analog fs)
    (hr : PositiveRipple ftype rp rs) (hk : KeepsPairs band ftype) :
    ∃ (g : Zpk) (C : Set (List Bool × List Bool)) (d : List Bool × List Bool → Setup → Zpk)
      (gc : List Bool × List Bool → Zpk), Design.design n wn rp rs band ftype analog fs = .ok g ∧ C.Finite ∧
      (∀ c ∈ C, Wide.SameUpToOrder (gc c) g ∧ ZpkLim Tends Tends (d c) (gc c)) ∧
      ∀ᶠ i in wide, ∃ c ∈ C, ∃ q, IeeeDesign.iirfilter (ISetup.L i) n (wn.map (ofReal i.f)) (rp.map (ofReal i.f))
        (rs.map (ofReal i.f)) (some band) (some ftype) (some analog) (fs.map (ofReal i.f)) = .ok q ∧ ZpkIs q (d c i.S) := by
  cases analog with
  | false =>
    obtain ⟨g, C, d, gc, d0, h1, h2, -, -, -, -, h3⟩ := Wide.design_ev hn hv hr hk
    refine ⟨g, C, d, gc, h1, h2.finite, fun c hc => ⟨h2.same c hc, ?_⟩, h3⟩
    exact ⟨(h2.lim c hc).z.imp fun _ _ _ h => h.1.1, (h2.lim c hc).p, (h2.lim c hc).k⟩
  | true =>
    obtain ⟨g, C, d, gc, d0, h1, h2, h3⟩ := Wide.design_ev_analog hn hv hr hk
    refine ⟨g, C, d, gc, h1, h2.finite, fun c hc => ⟨h2.same c hc, ?_⟩, h3⟩
    exact ⟨(h2.lim c hc).z.imp fun _ _ _ h => h.1.1, (h2.lim c hc).p, (h2.lim c hc).k⟩

/-- **C108** For every `ε` there are an accuracy and a range from which on the design on IEEE numbers returns finite
zeros, poles and gain within `ε` of those of the exact design. -/
theorem C108_zpk (eps : ℝ) (s : Sorts) (n : ℕ) (hn : n ≠ 0) (wn : List ℝ) (rp rs : Option ℝ) (band : Band)
    (ftype : FType) (analog : Bool) (fs : Option ℝ) (hv : ValidRequest wn rp rs band ftype analog fs)
    (hr : PositiveRipple ftype rp rs) (hk : KeepsPairs band ftype) :
    ∃ g : Zpk, Design.iirfilter eps s n wn rp rs (some band) (some ftype) (some analog) (some .zpk) fs = .ok (.zpk g) ∧
      ∀ ε : ℝ, 0 < ε → ∃ h0 T : ℝ, 0 < h0 ∧ ∀ (f : Format) (m : Libm) (h : ℝ) (L : Lib f), AccurateTo f.r m h →
        Lib.AgreesDesign L m → h ≤ h0 → T ≤ f.top →
        ∃ (q : ZpkI f) (v : Zpk), IeeeDesign.iirfilter L n (wn.map (ofReal f)) (rp.map (ofReal f)) (rs.map (ofReal f))
            (some band) (some ftype) (some analog) (fs.map (ofReal f)) = .ok q ∧
          ZpkIs q v ∧ CloseUpToOrder ε v.z g.z ∧ CloseUpToOrder ε v.p g.p ∧ |v.k - g.k| ≤ ε := by
  obtain ⟨g, C, d, gc, hg, hfin, hc, hev⟩ := candidates_exist hn hv hr hk
  refine ⟨g, ?_, fun ε hε => ?_⟩
  · rw [Design.iirfilter_eq]
    change (Design.design n wn rp rs band ftype analog fs >>= _) = _
    rw [hg]; rfl
  · have near : ∀ᶠ i in fine, ∀ c ∈ C, List.Forall₂ (fun a b => ‖a - b‖ ≤ ε) (d c i).z (gc c).z ∧
        List.Forall₂ (fun a b => ‖a - b‖ ≤ ε) (d c i).p (gc c).p ∧ |(d c i).k - (gc c).k| ≤ ε := by
      refine (Filter.eventually_all_finite hfin).mpr fun c hcC => ?_
      have hl := (hc c hcC).2
      have hkk : ∀ᶠ i in fine, |(d c i).k - (gc c).k| ≤ ε := by
        have := (hl.k.sub_const (gc c).k).abs
        rw [sub_self, abs_zero] at this
        filter_upwards [this.eventually (gt_mem_nhds hε)] with i hi using hi.le
      filter_upwards [eventually_near hl.z hε, eventually_near hl.p hε, hkk] with i a b c using ⟨a, b, c⟩
    obtain ⟨h0, T, p0, H⟩ := exists_of_wide (hev.and (ev_of_fine near))
    refine ⟨h0, T, p0, fun f m h L acc agr hh hT => ?_⟩
    obtain ⟨⟨c, hcC, q, hq, hz⟩, hnear⟩ := H ⟨f, m, h, acc, L, agr⟩ hh hT
    obtain ⟨a1, a2, a3⟩ := hnear c hcC
    have hs := (hc c hcC).1
    exact ⟨q, _, hq, hz, ⟨_, hs.z, a1⟩, ⟨_, hs.p, a2⟩, by rw [← hs.k]; exact a3⟩

/-- **C108**, stability: from some accuracy and range on, all poles of a digital design are finite and inside the unit
circle. -/
theorem C108_stable (n : ℕ) (hn : n ≠ 0) (wn : List ℝ) (rp rs : Option ℝ) (band : Band)
    (ftype : FType) (fs : Option ℝ) (hv : ValidRequest wn rp rs band ftype false fs)
    (hr : PositiveRipple ftype rp rs) (hk : KeepsPairs band ftype) :
    ∃ h0 T : ℝ, 0 < h0 ∧ ∀ (f : Format) (m : Libm) (h : ℝ) (L : Lib f), AccurateTo f.r m h →
      Lib.AgreesDesign L m → h ≤ h0 → T ≤ f.top →
      ∃ (q : ZpkI f) (v : Zpk), IeeeDesign.iirfilter L n (wn.map (ofReal f)) (rp.map (ofReal f)) (rs.map (ofReal f))
          (some band) (some ftype) none (fs.map (ofReal f)) = .ok q ∧ ZpkIs q v ∧ ∀ p ∈ v.p, ‖p‖ < 1 := by
  obtain ⟨g, C, d, gc, d0, hg, hC, -, hst, -, -, hev⟩ := Wide.design_ev hn hv hr hk
  have hin : ∀ᶠ i in fine, ∀ c ∈ C, ∀ p ∈ (d c i).p, ‖p‖ < 1 := by
    refine (Filter.eventually_all_finite hC.finite).mpr fun c hc => ?_
    refine (hC.lim c hc).p.eventually_forall (fun a b hb hab => ?_)
    have hab : Tendsto a fine (𝓝 b) := hab
    exact hab.norm.eventually (gt_mem_nhds (hst b ((hC.same c hc).p.mem_iff.mp hb)))
  obtain ⟨h0, T, p0, H⟩ := exists_of_wide (hev.and (ev_of_fine hin))
  refine ⟨h0, T, p0, fun f m h L acc agr hh hT => ?_⟩
  obtain ⟨⟨c, hcC, q, hq, hz⟩, hin⟩ := H ⟨f, m, h, acc, L, agr⟩ hh hT
  exact ⟨q, _, hq, hz, hin c hcC⟩

/-! ### Coefficients and sections -/

theorem zpk2tf_perm {z z' p p' : List ℂ} (hz : z'.Perm z) (hp : p'.Perm p) (k : ℝ) (order : ℕ) :
    Design.zpk2tf order z' p' k = Design.zpk2tf order z p k := by
  have one : IsCoeffList [(1 : ℂ)] 0 1 := ⟨rfl, by simp, fun i hi => by
    obtain rfl : i = 0 := by omega
    simp⟩
  have uniq : ∀ {c c' : List ℂ} {n : ℕ} {P : Polynomial ℂ}, IsCoeffList c n P → IsCoeffList c' n P → c = c' := by
    intro c c' n P h h'
    refine List.ext_getElem? fun i => ?_
    by_cases hi : i ≤ n
    · rw [h.2.2 i hi, h'.2.2 i hi]
    · rw [List.getElem?_eq_none (by rw [h.1]; omega), List.getElem?_eq_none (by rw [h'.1]; omega)]
  have same : ∀ {x x' : List ℂ}, x'.Perm x → x'.foldlM (Rounded.polyStep E) [1] = x.foldlM (Rounded.polyStep E) [1] := by
    intro x x' hx
    obtain ⟨c, h1, h2⟩ := polyFold_coeff x one
    obtain ⟨c', h3, h4⟩ := polyFold_coeff x' one
    have e : rootPoly x' = rootPoly x := (hx.map _).prod_eq
    rw [e, hx.length_eq] at h4
    have := uniq h2 h4
    subst this
    exact (show x'.foldlM Design.polyStep [1] = x.foldlM Design.polyStep [1] from h3.trans h1.symm)
  obtain ⟨cz, hcz, -⟩ := polyFold_returns (A := E) z [1] (by simp)
  obtain ⟨cp, hcp, -⟩ := polyFold_returns (A := E) p [1] (by simp)
  have hE : ∀ (k : ℝ) (c : ℂ), (E.cmul (k : ℂ) ((c.re : ℝ) : ℂ)).re = (E.cmul (k : ℂ) c).re := by
    intro k c
    change ((k : ℂ) * ((c.re : ℝ) : ℂ)).re = ((k : ℂ) * c).re
    simp
  rw [← zpk2tf_exact (eps := 0), ← zpk2tf_exact (eps := 0)]
  rw [show Rounded.zpk2tf (.exact 0) order z p k = _ from zpk2tf_form hE order _ _ _ hcz hcp,
    show Rounded.zpk2tf (.exact 0) order z' p' k = _ from
      zpk2tf_form hE order _ _ _ ((same hz).trans hcz) ((same hp).trans hcp)]

/-- The zeros and poles of the candidates are bounded, and so is the gain. -/
theorem candidates_bounded {C : Set (List Bool × List Bool)} (hfin : C.Finite) {d : List Bool × List Bool → Setup → Zpk}
    {g : Zpk} {gc : List Bool × List Bool → Zpk}
    (hc : ∀ c ∈ C, Wide.SameUpToOrder (gc c) g ∧ ZpkLim Tends Tends (d c) (gc c)) :
    ∃ B K : ℝ, 1 ≤ B ∧ 1 ≤ K ∧ ∀ᶠ i in fine, ∀ c ∈ C, (∀ z ∈ (d c i).z, ‖z‖ ≤ B) ∧ (∀ p ∈ (d c i).p, ‖p‖ ≤ B) ∧
      |(d c i).k| ≤ K := by
  have bd : ∀ l : List ℂ, ∃ B : ℝ, 1 ≤ B ∧ ∀ z ∈ l, ‖z‖ < B := by
    intro l
    induction l with
    | nil => exact ⟨1, le_rfl, by simp⟩
    | cons a l ih =>
      obtain ⟨B, h1, h2⟩ := ih
      refine ⟨B + ‖a‖, by linarith [norm_nonneg a], fun z hz => ?_⟩
      rcases List.mem_cons.mp hz with rfl | hz
      · linarith
      · linarith [h2 z hz, norm_nonneg a]
  obtain ⟨B, hB, hB'⟩ := bd (g.z ++ g.p)
  refine ⟨B, |g.k| + 1, hB, by linarith [abs_nonneg g.k], (Filter.eventually_all_finite hfin).mpr fun c hcC => ?_⟩
  obtain ⟨hs, hl⟩ := hc c hcC
  have hkk : ∀ᶠ i in fine, |(d c i).k| < |g.k| + 1 := by
    have := hl.k.abs
    rw [hs.k] at this
    exact this.eventually (gt_mem_nhds (by linarith))
  have bdd : ∀ {F : Setup → List ℂ} {l : List ℂ}, Along Tends F l → (∀ b ∈ l, ‖b‖ < B) →
      ∀ᶠ i in fine, ∀ z ∈ F i, ‖z‖ ≤ B := by
    intro F l hF hb
    refine hF.eventually_forall (fun a b hb' hab => ?_)
    have hab : Tendsto a fine (𝓝 b) := hab
    filter_upwards [hab.norm.eventually (gt_mem_nhds (hb b hb'))] with i hi using hi.le
  filter_upwards [hkk, bdd hl.z fun b hb => hB' b (List.mem_append_left _ (hs.z.mem_iff.mp hb)),
    bdd hl.p fun b hb => hB' b (List.mem_append_right _ (hs.p.mem_iff.mp hb))] with i a b c using ⟨b, c, a.le⟩

/-- **C108**, coefficients: from some accuracy and range on they are finite and within `ε` of the exact ones. -/
theorem C108_ba (eps : ℝ) (s : Sorts) (n : ℕ) (hn : n ≠ 0) (wn : List ℝ) (rp rs : Option ℝ) (band : Band)
    (ftype : FType) (analog : Bool) (fs : Option ℝ) (hv : ValidRequest wn rp rs band ftype analog fs)
    (hr : PositiveRipple ftype rp rs) (hk : KeepsPairs band ftype) :
    ∃ t : Ba, Design.iirfilter eps s n wn rp rs (some band) (some ftype) (some analog) (some .ba) fs = .ok (.ba t) ∧
      ∀ ε : ℝ, 0 < ε → ∃ h0 T : ℝ, 0 < h0 ∧ ∀ (f : Format) (m : Libm) (h : ℝ) (L : Lib f) (S : CxSorts f),
        AccurateTo f.r m h → Lib.AgreesDesign L m → Lib.AgreesSos L m → S.Correct → h ≤ h0 → T ≤ f.top →
        ∃ (x : BaI f) (t' : Ba), iirfilterAs L S n (wn.map (ofReal f)) (rp.map (ofReal f)) (rs.map (ofReal f))
            (some band) (some ftype) (some analog) (some .ba) (fs.map (ofReal f)) = .ok (.ba x) ∧
          BaIs x t' ∧ List.Forall₂ (fun a b => |a - b| ≤ ε) t'.b t.b ∧ List.Forall₂ (fun a b => |a - b| ≤ ε) t'.a t.a := by
  obtain ⟨g, C, d, gc, hg, hfin, hc, hev⟩ := candidates_exist hn hv hr hk
  obtain ⟨t, ht⟩ := zpk2tf_returns (2 * n) g
  refine ⟨t, ?_, fun ε hε => ?_⟩
  · rw [Design.iirfilter_eq]
    change (Design.design n wn rp rs band ftype analog fs >>= _) = _
    rw [hg, ok_bind]
    change (Design.zpk2tf (2 * n) g.z g.p g.k >>= _) = _
    rw [ht]; rfl
  · obtain ⟨B, K, hB, hK, hbd⟩ := candidates_bounded hfin hc
    have near : ∀ᶠ i in fine, ∀ c ∈ C, ∃ t', Rounded.zpk2tf (Setup.A i) (2 * n) (d c i).z (d c i).p (d c i).k = .ok t' ∧
        List.Forall₂ (fun a b => |a - b| ≤ ε) t'.b t.b ∧ List.Forall₂ (fun a b => |a - b| ≤ ε) t'.a t.a := by
      refine (Filter.eventually_all_finite hfin).mpr fun c hcC => ?_
      obtain ⟨hs, hl⟩ := hc c hcC
      obtain ⟨tc, t0, h1, h2, h3, h4⟩ := zpk2tf_lim hl.z hl.p hl.k (2 * n)
      rw [zpk2tf_perm hs.z hs.p, hs.k, ht] at h2
      cases h2
      filter_upwards [eventually_near h3 hε, eventually_near h4 hε] with i a b using ⟨_, h1 i, a, b⟩
    obtain ⟨h0, T, p0, H⟩ := exists_of_wide (((hev.and (ev_of_fine (near.and hbd))).and
      (ev_of_fine (eventually_small (show (0 : ℝ) < 1 / 1024 by norm_num)))).and
      (ev_top (100 * K * (1000 * B) ^ max g.z.length g.p.length)))
    refine ⟨h0, T, p0, fun f m h L S acc agr agr' hS hh hT => ?_⟩
    obtain ⟨⟨⟨⟨c, hcC, q, hq, hz⟩, hnear, hbd⟩, hsmall⟩, htop⟩ := H ⟨f, m, h, acc, L, agr⟩ hh hT
    have hsmall : h < 1 / 1024 := hsmall
    obtain ⟨t', a1, a2, a3⟩ := hnear c hcC
    obtain ⟨b1, b2, b3⟩ := hbd c hcC
    obtain ⟨s', -, conv⟩ := C105_conversion (S := S) acc.basic hsmall.le (by linarith [acc.t_le]) agr' hS
    have hl := (hc c hcC).2
    have hlen : max (d c ⟨f.r, m, h, acc⟩).z.length (d c ⟨f.r, m, h, acc⟩).p.length = max g.z.length g.p.length := by
      rw [hl.z.length, hl.p.length, (hc c hcC).1.z.length_eq, (hc c hcC).1.p.length_eq]
    obtain ⟨x, hx, hxt⟩ := ((conv q _ B K hz b1 b2 b3 hB hK (2 * n)).2 (by rw [hlen]; exact htop)).2 t' a1
    refine ⟨x, t', ?_, hxt, a2, a3⟩
    unfold iirfilterAs
    rw [hq, ok_bind]
    change (IeeeDesign.zpk2tf S (2 * n) q.z q.p q.k >>= _) = _
    rw [hx]
    rfl

/-- **C108**, sections: if the real poles of a band-pass or band-stop filter are simple, then from some accuracy and
range on the digital design is returned as second-order sections, all their numbers are finite, they are stable, and
their frequency response is within `ε` of the exact one at all frequencies. -/
theorem C108_sections (eps : ℝ) (s : Sorts) (n : ℕ) (hn : n ≠ 0) (wn : List ℝ) (rp rs : Option ℝ) (band : Band)
    (ftype : FType) (fs : Option ℝ) (hv : ValidRequest wn rp rs band ftype false fs)
    (hr : PositiveRipple ftype rp rs) (hk : KeepsPairs band ftype) {g : Zpk}
    (hg : Design.iirfilter eps s n wn rp rs (some band) (some ftype) none (some .zpk) fs = .ok (.zpk g))
    (hsim : band = .bandpass ∨ band = .bandstop → ∀ p ∈ g.p, p.im = 0 → g.p.count p = 1) (ε : ℝ) (hε : 0 < ε) :
    ∃ h0 T : ℝ, 0 < h0 ∧ ∀ (f : Format) (m : Libm) (h : ℝ) (L : Lib f) (S : CxSorts f),
      AccurateTo f.r m h → Lib.AgreesDesign L m → Lib.AgreesSos L m → S.Correct → h ≤ h0 → T ≤ f.top →
      ∃ l l', iirfilterAs L S n (wn.map (ofReal f)) (rp.map (ofReal f)) (rs.map (ofReal f))
          (some band) (some ftype) none (some .sos) (fs.map (ofReal f)) = .ok (.sos l) ∧
        List.Forall₂ SosIs l l' ∧ l'.length = (Rounded.poleCount n band + 1) / 2 ∧ (∀ x ∈ l', Stable x) ∧
        ∀ ω : ℝ, ‖freqResponse l' ω - g.eval (Complex.exp (Complex.I * ω))‖ ≤ ε := by
  obtain ⟨g', C, d, gc, d0, hg', hC, hd0, hst, hkr, hrep, hev⟩ := Wide.design_ev hn hv hr hk
  obtain rfl : g' = g := by
    rw [Design.iirfilter_eq] at hg
    have hg : (Design.design n wn rp rs band ftype false fs >>= _) = _ := hg
    rw [hg'] at hg
    cases hg
    rfl
  have hc : ∀ c ∈ C, Wide.SameUpToOrder (gc c) g' ∧ ZpkLim Tends Tends (d c) (gc c) := fun c hc =>
    ⟨hC.same c hc, (hC.lim c hc).z.imp fun _ _ _ h => h.1.1, (hC.lim c hc).p, (hC.lim c hc).k⟩
  obtain ⟨B, K, hB, hK, hbd⟩ := candidates_bounded hC.finite hc
  have near : ∀ᶠ i in fine, ∀ c ∈ C, ∀ s : Sorts, s.Correct → ∀ order : ℕ,
      ∃ l, Rounded.zpk2sos (Setup.A i) s order (d c i) none (some false) = .ok l ∧
      l.length = ((gc c).p.length + 1) / 2 ∧ (∀ x ∈ l, Stable x) ∧
      ∀ ω : ℝ, ‖freqResponse l ω - (gc c).eval (Complex.exp (Complex.I * ω))‖ ≤ ε := by
    refine (Filter.eventually_all_finite hC.finite).mpr fun c hcC => ?_
    have hs := hC.same c hcC
    refine sos_lim ?_ (hC.lim c hcC) (fun p hp => hst p (hs.p.mem_iff.mp hp)) ?_ hε
    · filter_upwards [hd0] with i hi
      exact (SectionRoots.of_design i.acc.nearest hn hk hi).1.perm (hC.perm c hcC i).1 (hC.perm c hcC i).2 (hrep c hcC i)
    · by_cases hb : band = .lowpass ∨ band = .highpass
      · exact .inl (hkr hb c hcC)
      · refine .inr fun p hp h0 => ?_
        rw [hs.p.count_eq]
        exact hsim (by cases band <;> simp at hb ⊢) p (hs.p.mem_iff.mp hp) h0
  obtain ⟨h0, T, p0, H⟩ := exists_of_wide (((hev.and (ev_of_fine (near.and hbd))).and
    (ev_of_fine (eventually_small (show (0 : ℝ) < 1 / 1024 by norm_num)))).and
    (ev_top (100 * (12000 * B) ^ 2 * K)))
  refine ⟨h0, T, p0, fun f m h L S acc agr agr' hS hh hT => ?_⟩
  obtain ⟨⟨⟨⟨c, hcC, q, hq, hz⟩, hnear, hbd⟩, hsmall⟩, htop⟩ := H ⟨f, m, h, acc, L, agr⟩ hh hT
  have hsmall : h < 1 / 1024 := hsmall
  obtain ⟨b1, b2, b3⟩ := hbd c hcC
  obtain ⟨s', hs', conv⟩ := C105_conversion (S := S) acc.basic hsmall.le (by linarith [acc.t_le]) agr' hS
  obtain ⟨l', a1, a2, a3, a4⟩ := hnear c hcC s' hs' n
  obtain ⟨l, hl, hll⟩ := ((conv q _ B K hz b1 b2 b3 hB hK n).1 htop none (some false)).2 l' a1
  have hs := hC.same c hcC
  refine ⟨l, l', ?_, hll, ?_, a3, fun ω => ?_⟩
  · rw [as_sos hq, hl]
    rfl
  · rw [a2, hs.p.length_eq, exact_poleCount hk hg']
  · have e : (gc c).eval (Complex.exp (Complex.I * ω)) = g'.eval (Complex.exp (Complex.I * ω)) := by
      unfold Zpk.eval Zpk.num Zpk.den
      rw [(hs.z.map _).prod_eq, (hs.p.map _).prod_eq, hs.k]
    rw [← e]
    exact a4 ω

/-! ### The hypotheses can be met -/

theorem libOf_agreesDesign {f : Format} {m : Libm} : Lib.AgreesDesign (libOf f m) m where
  toAgrees := libOf_agrees
  powf y s h := capped_is h
  sin x s h := capped_is h
  cos x s h := capped_is h
  sinh x s h := capped_is h
  cosh x s h := capped_is h
  asinh x s h := capped_is h
  csqrt a z ha h1 h2 h3 := by
    obtain ⟨are, aim⟩ := a
    obtain ⟨⟨s, hs⟩, ⟨t, ht⟩⟩ := ha
    simp only at hs ht
    subst hs ht
    exact .inl ⟨capped_is h2, capped_is h3⟩

/-- Binary numbers of `p` bits with the smallest positive number `2⁻ᵉᵐⁱⁿ` and the largest number `(2ᵖ - 1)·2ᵉ`.  `f64` has
`p = 53`, `emin = 1074` and `e = 971`. -/
noncomputable def binaryFormat (p : ℕ) (hp : 1 ≤ p) (emin e : ℕ) : Format :=
  ⟨Binary.rounding p (-(emin : ℤ)) hp, (2 ^ p - 1) * 2 ^ e⟩

example : f64 = binaryFormat 53 (by norm_num) 1074 971 := rfl

/-- **C108** with binary numbers: with enough bits and a large enough range of exponents the design returns stable
sections of finite numbers, whose frequency response is as close to that of the exact design as desired. -/
theorem C108_binary (eps : ℝ) (s : Sorts) (n : ℕ) (hn : n ≠ 0) (wn : List ℝ) (rp rs : Option ℝ) (band : Band)
    (ftype : FType) (fs : Option ℝ) (hv : ValidRequest wn rp rs band ftype false fs)
    (hr : PositiveRipple ftype rp rs) (hk : KeepsPairs band ftype)
    (hb : band = .lowpass ∨ band = .highpass ∨ n % 2 = 0) (ε : ℝ) (hε : 0 < ε) :
    ∃ (g : Zpk) (p0 e0 : ℕ),
      Design.iirfilter eps s n wn rp rs (some band) (some ftype) none (some .zpk) fs = .ok (.zpk g) ∧
      ∀ (p : ℕ) (hp : 1 ≤ p) (emin e : ℕ), p0 ≤ p → p ≤ emin → e0 ≤ e →
        ∃ l l', iirfilterAs (libOf (binaryFormat p hp emin e) (exactLibm p emin hp)) (anySorts (binaryFormat p hp emin e))
            n (wn.map (ofReal _)) (rp.map (ofReal _)) (rs.map (ofReal _)) (some band) (some ftype) none (some .sos)
            (fs.map (ofReal _)) = .ok (.sos l) ∧
          List.Forall₂ SosIs l l' ∧ (∀ x ∈ l', Stable x) ∧
          ∀ ω : ℝ, ‖freqResponse l' ω - g.eval (Complex.exp (Complex.I * ω))‖ ≤ ε := by
  obtain ⟨g, d, hg, -⟩ := design_lim hn hv hr hk
  have hg1 : Design.iirfilter eps s n wn rp rs (some band) (some ftype) none (some .zpk) fs = .ok (.zpk g) := by
    rw [Design.iirfilter_eq]
    change (Design.design n wn rp rs band ftype false fs >>= _) = _
    rw [hg]; rfl
  obtain ⟨h0, T, hp0, H⟩ := C108_sections eps s n hn wn rp rs band ftype fs hv hr hk hg1 (fun hb' p hp h0 => by
    have he : n % 2 = 0 := by
      rcases hb with rfl | rfl | h
      · simp at hb'
      · simp at hb'
      · exact h
    exact absurd h0 (band_even_no_real hn he hb' hv hr hg p hp)) ε hε
  obtain ⟨p0, hacc⟩ := C104_arithmetics h0 hp0
  obtain ⟨e0, he0⟩ := pow_unbounded_of_one_lt T (show (1 : ℝ) < 2 by norm_num)
  refine ⟨g, p0, e0, hg1, fun p hp emin e h1 h2 h3 => ?_⟩
  have ht : T ≤ (binaryFormat p hp emin e).top := by
    have a : (2 : ℝ) ^ 1 ≤ 2 ^ p := pow_le_pow_right₀ (by norm_num) hp
    have b : (2 : ℝ) ^ e0 ≤ 2 ^ e := pow_le_pow_right₀ (by norm_num) h3
    change T ≤ (2 ^ p - 1) * 2 ^ e
    nlinarith [pow_pos (show (0 : ℝ) < 2 by norm_num) e]
  obtain ⟨l, l', a1, a2, -, a3, a4⟩ := H (binaryFormat p hp emin e) (exactLibm p emin hp) _
    (libOf _ _) (anySorts _) (hacc p hp emin h1 h2) libOf_agreesDesign libOf_agreesSos (anySorts_correct _) le_rfl ht
  exact ⟨l, l', a1, a2, a3, a4⟩

/-- A fourth-order Chebyshev I band-pass filter from 8 Hz to 12 Hz at 100 Hz with 1 dB of ripple. -/
example (s : Sorts) : ∃ (g : Zpk) (p0 e0 : ℕ),
    Design.iirfilter 0 s 4 [8, 12] (some 1) none (some .bandpass) (some .chebyshevI) none (some .zpk) (some 100) =
      .ok (.zpk g) ∧
    ∀ (p : ℕ) (hp : 1 ≤ p) (emin e : ℕ), p0 ≤ p → p ≤ emin → e0 ≤ e →
      ∃ l l', iirfilterAs (libOf (binaryFormat p hp emin e) (exactLibm p emin hp)) (anySorts (binaryFormat p hp emin e))
          4 [ofReal _ 8, ofReal _ 12] (some (ofReal _ 1)) none (some .bandpass) (some .chebyshevI) none (some .sos)
          (some (ofReal _ 100)) = .ok (.sos l) ∧
        List.Forall₂ SosIs l l' ∧ (∀ x ∈ l', Stable x) ∧
        ∀ ω : ℝ, ‖freqResponse l' ω - g.eval (Complex.exp (Complex.I * ω))‖ ≤ 1 / 1000 := by
  refine C108_binary 0 s 4 (by norm_num) [8, 12] (some 1) none .bandpass .chebyshevI (some 100) ?_ ?_ ?_
    (.inr (.inr (by norm_num))) _ (by norm_num)
  · constructor <;> simp [Spec.edges] <;> norm_num
  · constructor <;> simp
  · simp [KeepsPairs]

/-- Analog and digital Chebyshev I band-stop filters satisfy the hypotheses of the theorems on zeros, poles, gain and
coefficients. -/
example : ValidRequest [2, 5] (some 1) none .bandstop .chebyshevI true none ∧
    ValidRequest [1 / 5, 1 / 2] (some 1) none .bandstop .chebyshevI false none ∧
    PositiveRipple .chebyshevI (some 1) none ∧ KeepsPairs .bandstop .chebyshevI := by
  refine ⟨?_, ?_, ?_, by simp [KeepsPairs]⟩ <;> constructor <;> simp [Spec.edges] <;> norm_num

end SciRs.Props

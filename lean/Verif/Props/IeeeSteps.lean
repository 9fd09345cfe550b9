import Verif.Lemmas.IeeeLimitSteps
import Verif.Props.IeeeLimit

/-!
# C109: each step of the design, applied to any filter, on IEEE numbers

`lp2lp_zpk_dyn`, `lp2hp_zpk_dyn`, `lp2bp_zpk_dyn`, `lp2bs_zpk_dyn` and `bilinear_zpk_dyn` can be called with any zeros, poles and
gain, not only with those of a prototype.  On numbers with infinities, NaN and signed zeros they panic exactly if there
are more zeros than poles.  Otherwise, wherever no division by zero is asked for, there are for every `ε` an accuracy and a
range from which on the result is finite and within `ε` of the result of the step in exact arithmetic.
-/

namespace SciRs.Props

open SciRs SciRs.Design SciRs.Spec SciRs.Spec.Ieee SciRs.IeeeDesign SciRs.Rounded Filter Topology

/-- The result of a step is finite and, apart from the order of zeros and of poles, within `ε` of the filter `g`. -/
def ReturnsNear {f : Format} (ε : ℝ) (x : Res (ZpkI f)) (g : Zpk) : Prop :=
  ∃ q v, x = .ok q ∧ ZpkIs q v ∧ CloseUpToOrder ε v.z g.z ∧ CloseUpToOrder ε v.p g.p ∧ |v.k - g.k| ≤ ε

/-- **C109**, low-pass to low-pass. -/
theorem C109_lp2lp (g : Zpk) (hl : g.z.length ≤ g.p.length) (wo : ℝ) (hw : 0 < wo) :
    ∃ g', Design.lp2lp g (some wo) = .ok g' ∧ ∀ ε : ℝ, 0 < ε → ∃ h0 T : ℝ, 0 < h0 ∧
      ∀ (f : Format) (m : Libm) (h : ℝ) (L : Lib f), AccurateTo f.r m h → Lib.AgreesDesign L m → h ≤ h0 → T ≤ f.top →
        ∀ (q : ZpkI f) (u : Ieee f), ZpkIs q g → Is u wo → ReturnsNear ε (IeeeDesign.lp2lp L q (some u)) g' := by
  obtain ⟨g', hg⟩ : ∃ g', Rounded.lp2lp E g (some wo) = .ok g' := by
    simp only [Rounded.lp2lp, Design.relativeDegree_ok hl, ok_bind]; exact ⟨_, rfl⟩
  refine ⟨g', by rw [← lp2lp_exact 0]; exact hg, fun ε hε => ?_⟩
  obtain ⟨f', h1, h2⟩ := Wide.lp2lp_step_lim hl hw hg
  have hev := Wide.close_of_follows (nz := 0) (np := 0)
    (P := fun i x => ∃ q u, ZpkIs q g ∧ Is u wo ∧ x = IeeeDesign.lp2lp i.L q (some u))
    (Y := fun s => Rounded.lp2lp s.A g (some wo))
    (by
      filter_upwards [Wide.lp2lp_step_ev hl hw] with i hi x hx
      obtain ⟨q, u, hq, hu, rfl⟩ := hx
      exact (hi q u hq hu).upTo) h1 h2 (by omega) (by omega) hε
  obtain ⟨h0, T, p0, H⟩ := exists_of_wide hev
  exact ⟨h0, T, p0, fun f m h L acc agr hh hT q u hq hu => H ⟨f, m, h, acc, L, agr⟩ hh hT _ ⟨q, u, hq, hu, rfl⟩⟩

/-- **C109**, low-pass to high-pass: no zero and no pole at the origin. -/
theorem C109_lp2hp (g : Zpk) (hl : g.z.length ≤ g.p.length) (hz : ∀ z ∈ g.z, z ≠ 0) (hp : ∀ p ∈ g.p, p ≠ 0) (wo : ℝ) :
    ∃ g', Design.lp2hp g (some wo) = .ok g' ∧ ∀ ε : ℝ, 0 < ε → ∃ h0 T : ℝ, 0 < h0 ∧
      ∀ (f : Format) (m : Libm) (h : ℝ) (L : Lib f), AccurateTo f.r m h → Lib.AgreesDesign L m → h ≤ h0 → T ≤ f.top →
        ∀ (q : ZpkI f) (u : Ieee f), ZpkIs q g → Is u wo → ReturnsNear ε (IeeeDesign.lp2hp q (some u)) g' := by
  obtain ⟨g', hg⟩ : ∃ g', Rounded.lp2hp E g (some wo) = .ok g' := by
    simp only [Rounded.lp2hp, Design.relativeDegree_ok hl, ok_bind]; exact ⟨_, rfl⟩
  refine ⟨g', by rw [← lp2hp_exact 0]; exact hg, fun ε hε => ?_⟩
  obtain ⟨f', h1, h2⟩ := Wide.lp2hp_step_lim hl hz hp hg
  have hev := Wide.close_of_follows (nz := 0) (np := 0)
    (P := fun i x => ∃ q u, ZpkIs q g ∧ Is u wo ∧ x = IeeeDesign.lp2hp q (some u))
    (Y := fun s => Rounded.lp2hp s.A g (some wo))
    (by
      filter_upwards [Wide.lp2hp_step_ev hl hz hp] with i hi x hx
      obtain ⟨q, u, hq, hu, rfl⟩ := hx
      exact (hi q u hq hu).upTo) h1 h2 (by omega) (by omega) hε
  obtain ⟨h0, T, p0, H⟩ := exists_of_wide hev
  exact ⟨h0, T, p0, fun f m h L acc agr hh hT q u hq hu => H ⟨f, m, h, acc, L, agr⟩ hh hT _ ⟨q, u, hq, hu, rfl⟩⟩

theorem splitPm_length (A : Arith) (l : List ℂ) (w : ℝ) : (Rounded.splitPm A l w).length = 2 * l.length := by
  rw [Rounded.splitPm_eq, List.length_append, List.length_map, List.length_map]; omega

/-- **C109**, low-pass to band-pass. -/
theorem C109_lp2bp (g : Zpk) (hl : g.z.length ≤ g.p.length) (wo bw : ℝ) (hw : 0 < wo) (hb : 0 < bw) :
    ∃ g', Design.lp2bp g (some wo) (some bw) = .ok g' ∧ ∀ ε : ℝ, 0 < ε → ∃ h0 T : ℝ, 0 < h0 ∧
      ∀ (f : Format) (m : Libm) (h : ℝ) (L : Lib f), AccurateTo f.r m h → Lib.AgreesDesign L m → h ≤ h0 → T ≤ f.top →
        ∀ (q : ZpkI f) (u t : Ieee f), ZpkIs q g → Is u wo → Is t bw →
          ReturnsNear ε (IeeeDesign.lp2bp L q (some u) (some t)) g' := by
  obtain ⟨g', hg, hlz, hlp⟩ : ∃ g', Rounded.lp2bp E g (some wo) (some bw) = .ok g' ∧ 2 * g.z.length ≤ g'.z.length ∧
      2 * g.p.length ≤ g'.p.length := by
    simp only [Rounded.lp2bp, Design.relativeDegree_ok hl, ok_bind]
    exact ⟨_, rfl, by simp [splitPm_length], by simp [splitPm_length]⟩
  refine ⟨g', by rw [← lp2bp_exact 0]; exact hg, fun ε hε => ?_⟩
  obtain ⟨f', h1, h2⟩ := Wide.lp2bp_step_lim hl hw hb hg
  have hev := Wide.close_of_follows (nz := g.z.length) (np := g.p.length)
    (P := fun i x => ∃ q u t, ZpkIs q g ∧ Is u wo ∧ Is t bw ∧ x = IeeeDesign.lp2bp i.L q (some u) (some t))
    (Y := fun s => Rounded.lp2bp s.A g (some wo) (some bw))
    (by
      filter_upwards [Wide.lp2bp_step_ev hl hw hb] with i hi x hx
      obtain ⟨q, u, t, hq, hu, ht, rfl⟩ := hx
      exact hi q u t hq hu ht) h1 h2 hlz hlp hε
  obtain ⟨h0, T, p0, H⟩ := exists_of_wide hev
  exact ⟨h0, T, p0, fun f m h L acc agr hh hT q u t hq hu ht =>
    H ⟨f, m, h, acc, L, agr⟩ hh hT _ ⟨q, u, t, hq, hu, ht, rfl⟩⟩

/-- **C109**, low-pass to band-stop: no zero and no pole at the origin, complex poles in pairs.  `Complex::powi(2)`
multiplies the number by itself. -/
theorem C109_lp2bs (g : Zpk) (hl : g.z.length ≤ g.p.length) (hz : ∀ z ∈ g.z, z ≠ 0) (hp : ∀ p ∈ g.p, p ≠ 0)
    (hc : ConjClosed g.p) (wo bw : ℝ) (hw : 0 < wo) (hb : 0 < bw) :
    ∃ g', Design.lp2bs g (some wo) (some bw) = .ok g' ∧ ∀ ε : ℝ, 0 < ε → ∃ h0 T : ℝ, 0 < h0 ∧
      ∀ (f : Format) (m : Libm) (h : ℝ) (L : Lib f), AccurateTo f.r m h → Lib.AgreesDesign L m →
        (∀ a, L.cpowi2 a = a.mul a) → h ≤ h0 → T ≤ f.top →
        ∀ (q : ZpkI f) (u t : Ieee f), ZpkIs q g → Is u wo → Is t bw →
          ReturnsNear ε (IeeeDesign.lp2bs L q (some u) (some t)) g' := by
  obtain ⟨g', hg, hlz, hlp⟩ : ∃ g', Rounded.lp2bs E g (some wo) (some bw) = .ok g' ∧ 2 * g.z.length ≤ g'.z.length ∧
      2 * g.p.length ≤ g'.p.length := by
    simp only [Rounded.lp2bs, Design.relativeDegree_ok hl, ok_bind]
    exact ⟨_, rfl, by simp [Wide.bsZeros_eq]; omega, by simp [splitPm_length]⟩
  refine ⟨g', by rw [← lp2bs_exact 0]; exact hg, fun ε hε => ?_⟩
  have hd : (Rounded.foldMul E (g.p.map (fun pi => E.cmul (-1 : ℂ) pi))).re ≠ 0 := by
    have h1 := Wide.neg_prod_ne' hp
    have h2 : (Rounded.foldMul E (g.p.map (fun pi => E.cmul (-1 : ℂ) pi))).im = 0 := by
      rw [foldMul_E]
      have h4 := congrArg Complex.im (conjClosed_prod_neg_real hc)
      rw [Complex.ofReal_im] at h4
      exact h4.symm
    intro h3
    exact h1 (Complex.ext h3 h2)
  obtain ⟨f', h1, h2⟩ := Wide.lp2bs_step_lim hl hz hp hd hw hb hg
  have hev := Wide.close_of_follows (nz := g.z.length) (np := g.p.length)
    (P := fun i x => (∀ a, i.L.cpowi2 a = a.mul a) ∧
      ∃ q u t, ZpkIs q g ∧ Is u wo ∧ Is t bw ∧ x = IeeeDesign.lp2bs i.L q (some u) (some t))
    (Y := fun s => Rounded.lp2bs s.A g (some wo) (some bw))
    (by
      filter_upwards [Wide.lp2bs_step_ev hl hz hp hd hw hb] with i hi x hx
      obtain ⟨hK, q, u, t, hq, hu, ht, rfl⟩ := hx
      exact hi hK q u t hq hu ht) h1 h2 hlz hlp hε
  obtain ⟨h0, T, p0, H⟩ := exists_of_wide hev
  exact ⟨h0, T, p0, fun f m h L acc agr hK hh hT q u t hq hu ht =>
    H ⟨f, m, h, acc, L, agr⟩ hh hT _ ⟨hK, q, u, t, hq, hu, ht, rfl⟩⟩

/-- **C109**, the bilinear transformation: no zero and no pole at twice the sampling rate. -/
theorem C109_bilinear (g : Zpk) (hl : g.z.length ≤ g.p.length) (fs : ℝ) (hz : ∀ z ∈ g.z, z ≠ ((2 * fs : ℝ) : ℂ))
    (hp : ∀ p ∈ g.p, p ≠ ((2 * fs : ℝ) : ℂ)) :
    ∃ g', Design.bilinear g fs = .ok g' ∧ ∀ ε : ℝ, 0 < ε → ∃ h0 T : ℝ, 0 < h0 ∧
      ∀ (f : Format) (m : Libm) (h : ℝ) (L : Lib f), AccurateTo f.r m h → Lib.AgreesDesign L m → h ≤ h0 → T ≤ f.top →
        ∀ (q : ZpkI f) (u : Ieee f), ZpkIs q g → Is u fs → ReturnsNear ε (IeeeDesign.bilinear q u) g' := by
  obtain ⟨g', hg⟩ : ∃ g', Rounded.bilinear E g fs = .ok g' := by
    simp only [Rounded.bilinear, Design.relativeDegree_ok hl, ok_bind]; exact ⟨_, rfl⟩
  refine ⟨g', by rw [← bilinear_exact 0]; exact hg, fun ε hε => ?_⟩
  have hz' : ∀ b ∈ g.z, ((2 * fs : ℝ) : ℂ) - b ≠ 0 := fun b hb h => hz b hb (sub_eq_zero.mp h).symm
  have hp' : ∀ b ∈ g.p, ((2 * fs : ℝ) : ℂ) - b ≠ 0 := fun b hb h => hp b hb (sub_eq_zero.mp h).symm
  obtain ⟨f', h1, h2⟩ := Wide.bilinear_step_lim hl hz' hp' hg
  have hev := Wide.close_of_follows (nz := 0) (np := 0)
    (P := fun i x => ∃ q u, ZpkIs q g ∧ Is u fs ∧ x = IeeeDesign.bilinear q u)
    (Y := fun s => Rounded.bilinear s.A g fs)
    (by
      filter_upwards [Wide.bilinear_step_ev hl hz' hp'] with i hi x hx
      obtain ⟨q, u, hq, hu, rfl⟩ := hx
      exact (hi q u hq hu).upTo) h1 h2 (by omega) (by omega) hε
  obtain ⟨h0, T, p0, H⟩ := exists_of_wide hev
  exact ⟨h0, T, p0, fun f m h L acc agr hh hT q u hq hu => H ⟨f, m, h, acc, L, agr⟩ hh hT _ ⟨q, u, hq, hu, rfl⟩⟩

/-- **C109**, the panic: each step panics exactly if there are more zeros than poles, whatever the numbers are. -/
theorem C109_panics {f : Format} (L : Lib f) (q : ZpkI f) (wo bw : Option (Ieee f)) (fs : Ieee f) :
    (Panics (IeeeDesign.lp2lp L q wo) ↔ q.p.length < q.z.length) ∧
    (Panics (IeeeDesign.lp2hp q wo) ↔ q.p.length < q.z.length) ∧
    (Panics (IeeeDesign.lp2bp L q wo bw) ↔ q.p.length < q.z.length) ∧
    (Panics (IeeeDesign.lp2bs L q wo bw) ↔ q.p.length < q.z.length) ∧
    (Panics (IeeeDesign.bilinear q fs) ↔ q.p.length < q.z.length) := by
  unfold IeeeDesign.lp2lp IeeeDesign.lp2hp IeeeDesign.lp2bp IeeeDesign.lp2bs IeeeDesign.bilinear
    IeeeDesign.relativeDegree
  by_cases h : q.p.length < q.z.length
  · simp [h, Panics, Bind.bind, Except.bind]
  · simp [h, Panics, Bind.bind, Except.bind, pure, Except.pure]

/-- The filter of the examples: zeros `±2i`, poles `-1 ± i` and gain `3`. -/
noncomputable def twoByTwo : Zpk := ⟨[⟨0, 2⟩, ⟨0, -2⟩], [⟨-1, 1⟩, ⟨-1, -1⟩], 3⟩

/-- It satisfies the hypotheses of all five theorems, with the sampling rate `2`. -/
theorem twoByTwo_ok : twoByTwo.z.length ≤ twoByTwo.p.length ∧ (∀ z ∈ twoByTwo.z, z ≠ 0) ∧ (∀ p ∈ twoByTwo.p, p ≠ 0) ∧
    ConjClosed twoByTwo.p ∧ (∀ z ∈ twoByTwo.z, z ≠ ((2 * 2 : ℝ) : ℂ)) ∧ (∀ p ∈ twoByTwo.p, p ≠ ((2 * 2 : ℝ) : ℂ)) := by
  refine ⟨le_rfl, ?_, ?_, ?_, ?_, ?_⟩
  · intro z hz h
    have := congrArg Complex.im h
    simp [twoByTwo] at hz
    rcases hz with rfl | rfl <;> norm_num at this
  · intro z hz h
    have := congrArg Complex.im h
    simp [twoByTwo] at hz
    rcases hz with rfl | rfl <;> norm_num at this
  · have h : twoByTwo.p.map (starRingEnd ℂ) = [⟨-1, -1⟩, ⟨-1, 1⟩] := by
      simp [twoByTwo, Complex.ext_iff]
    rw [ConjClosed, h]
    exact List.Perm.swap _ _ _
  · intro z hz h
    have := congrArg Complex.re h
    simp [twoByTwo] at hz
    rcases hz with rfl | rfl <;> norm_num at this
  · intro z hz h
    have := congrArg Complex.re h
    simp [twoByTwo] at hz
    rcases hz with rfl | rfl <;> norm_num at this

/-- The same filter in the numbers of a format. -/
noncomputable def twoByTwoIn (f : Format) : ZpkI f :=
  ⟨[⟨ofReal f 0, ofReal f 2⟩, ⟨ofReal f 0, ofReal f (-2)⟩],
    [⟨ofReal f (-1), ofReal f 1⟩, ⟨ofReal f (-1), ofReal f (-1)⟩], ofReal f 3⟩

theorem twoByTwoIn_is (f : Format) : ZpkIs (twoByTwoIn f) twoByTwo :=
  ⟨.cons ⟨⟨_, rfl⟩, ⟨_, rfl⟩⟩ (.cons ⟨⟨_, rfl⟩, ⟨_, rfl⟩⟩ .nil),
    .cons ⟨⟨_, rfl⟩, ⟨_, rfl⟩⟩ (.cons ⟨⟨_, rfl⟩, ⟨_, rfl⟩⟩ .nil), ⟨_, rfl⟩⟩

/-- The band-stop transformation of this filter, computed with enough bits and range, is within a thousandth of the
exact one, and so is its bilinear transformation. -/
example : ∃ g' g'', Design.lp2bs twoByTwo (some 2) (some 1) = .ok g' ∧ Design.bilinear twoByTwo 2 = .ok g'' ∧
    ∃ p0 e0 : ℕ, ∀ (p : ℕ) (hp : 1 ≤ p) (emin e : ℕ), p0 ≤ p → p ≤ emin → e0 ≤ e →
      ReturnsNear (1 / 1000) (IeeeDesign.lp2bs (libOf (binaryFormat p hp emin e) (exactLibm p emin hp))
        (twoByTwoIn _) (some (ofReal _ 2)) (some (ofReal _ 1))) g' ∧
      ReturnsNear (1 / 1000) (IeeeDesign.bilinear (twoByTwoIn (binaryFormat p hp emin e)) (ofReal _ 2)) g'' := by
  obtain ⟨h1, h2, h3, h4, h5, h6⟩ := twoByTwo_ok
  obtain ⟨g', a1, a2⟩ := C109_lp2bs twoByTwo h1 h2 h3 h4 2 1 (by norm_num) (by norm_num)
  obtain ⟨g'', b1, b2⟩ := C109_bilinear twoByTwo h1 2 h5 h6
  refine ⟨g', g'', a1, b1, ?_⟩
  obtain ⟨h0, T, hp0, H⟩ := a2 (1 / 1000) (by norm_num)
  obtain ⟨h0', T', hp0', H'⟩ := b2 (1 / 1000) (by norm_num)
  obtain ⟨p0, hacc⟩ := C104_arithmetics (min h0 h0') (lt_min hp0 hp0')
  obtain ⟨e0, he0⟩ := pow_unbounded_of_one_lt (max T T') (show (1 : ℝ) < 2 by norm_num)
  refine ⟨p0, e0, fun p hp emin e h1 h2 h3 => ?_⟩
  have ht : max T T' ≤ (binaryFormat p hp emin e).top := by
    have a : (2 : ℝ) ^ 1 ≤ 2 ^ p := pow_le_pow_right₀ (by norm_num) hp
    have b : (2 : ℝ) ^ e0 ≤ 2 ^ e := pow_le_pow_right₀ (by norm_num) h3
    change max T T' ≤ (2 ^ p - 1) * 2 ^ e
    nlinarith [pow_pos (show (0 : ℝ) < 2 by norm_num) e]
  exact ⟨H (binaryFormat p hp emin e) (exactLibm p emin hp) _ (libOf _ _) (hacc p hp emin h1 h2) libOf_agreesDesign
      (fun _ => rfl) (min_le_left _ _) (le_trans (le_max_left _ _) ht) _ _ _ (twoByTwoIn_is _) ⟨_, rfl⟩ ⟨_, rfl⟩,
    H' (binaryFormat p hp emin e) (exactLibm p emin hp) _ (libOf _ _) (hacc p hp emin h1 h2) libOf_agreesDesign
      (min_le_right _ _) (le_trans (le_max_right _ _) ht) _ _ (twoByTwoIn_is _) ⟨_, rfl⟩⟩

/-- A zero without a pole: the steps panic. -/
example (f : Format) : Panics (IeeeDesign.bilinear (f := f) ⟨[⟨ofReal f 0, ofReal f 2⟩], [], ofReal f 1⟩ (ofReal f 1)) :=
  (C109_panics (libOf f (exactLibm 53 1074 (by norm_num))) _ none none _).2.2.2.2.mpr (by simp)

end SciRs.Props

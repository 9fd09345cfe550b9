import Verif.Lemmas.Rounded.LimitSections
import Verif.Lemmas.Rounded.LimitTf
import Verif.Lemmas.Rounded.EvenReal
import Verif.Props.Rounded.BandAccuracy
import Verif.Props.Rounded.ChebAccuracy

/-!
# C104: filters designed in floating point converge to the filters designed without rounding

For every family and band that the library implements correctly (all Butterworth and Chebyshev I filters, Chebyshev II
low-pass and band-pass filters), and every request that makes sense: as the precision of the arithmetic grows, the
design returns, and what it returns tends to the design in exact arithmetic, in all three output formats.
-/

namespace SciRs.Props

open SciRs SciRs.Design SciRs.Spec SciRs.Rounded Filter Topology

/-- Binary floating-point numbers of `p` bits, exponents from `-emin` on, and a library that rounds the exact values. -/
noncomputable def exactLibm (p emin : ℕ) (hp : 1 ≤ p) : Libm :=
  .rounded (Binary.rounding p (-(emin : ℤ)) hp) (binary_nearest hp (by omega)) (2 * 2 ^ (-(p : ℤ))) (by positivity)

theorem binary_accurate {p emin : ℕ} (hp : 1 ≤ p) (he : p ≤ emin) {h : ℝ} (hh : (2 : ℝ) * 2 ^ (-(p : ℤ)) ≤ h) :
    AccurateTo (Binary.rounding p (-(emin : ℤ)) hp) (exactLibm p emin hp) h := by
  obtain ⟨v, hv⟩ : ∃ v : ℝ, v = 2 ^ (-(p : ℤ)) := ⟨_, rfl⟩
  have hu : (Binary.rounding p (-(emin : ℤ)) hp).u = v := hv.symm
  have ht : (Binary.rounding p (-(emin : ℤ)) hp).t ≤ v := by
    rw [hv]
    exact zpow_le_zpow_right₀ (by norm_num) (by omega)
  have hv1 : v ≤ 1 := by
    rw [hv]
    exact zpow_le_one_of_nonpos₀ (by norm_num) (by omega)
  have hv0 : 0 < v := by rw [hv]; positivity
  rw [← hv] at hh
  have hut : (Binary.rounding p (-(emin : ℤ)) hp).u + (Binary.rounding p (-(emin : ℤ)) hp).t ≤ h := by
    rw [hu]; linarith
  exact ⟨binary_nearest hp (by omega), C90_library _ hut (by rw [hu]; exact hv1) _ _ (by rw [← hv]; linarith),
    C97_library _ hut _ _, C101_library _ hut _ _, by linarith⟩

/-- **C104**, arithmetics: there are floating-point arithmetics of any accuracy, so that the other theorems are about
something: all binary ones with enough digits and exponents, and a library that rounds the exact values. -/
theorem C104_arithmetics (h : ℝ) (hh : 0 < h) : ∃ p0 : ℕ, ∀ (p : ℕ) (hp : 1 ≤ p) (emin : ℕ), p0 ≤ p → p ≤ emin →
    AccurateTo (Binary.rounding p (-(emin : ℤ)) hp) (exactLibm p emin hp) h := by
  obtain ⟨k, hk⟩ := exists_pow_lt_of_lt_one (show 0 < h / 2 by positivity) (show (1 / 2 : ℝ) < 1 by norm_num)
  refine ⟨k, fun p hp emin h1 h2 => binary_accurate hp h2 ?_⟩
  have e : (2 : ℝ) ^ (-(p : ℤ)) = (1 / 2) ^ p := by rw [zpow_neg, zpow_natCast, one_div, inv_pow]
  have : (1 / 2 : ℝ) ^ p ≤ (1 / 2) ^ k := pow_le_pow_of_le_one (by norm_num) (by norm_num) h1
  rw [e]
  linarith

theorem lim_of_valid {n : ℕ} (hn : n ≠ 0) {wn : List ℝ} {rp rs : Option ℝ} {band : Band} {ftype : FType} {analog : Bool}
    {fs : Option ℝ} (hv : ValidRequest wn rp rs band ftype analog fs) (hr : PositiveRipple ftype rp rs)
    (hk : KeepsPairs band ftype) :
    ∃ (g : Zpk) (d : Setup → Zpk), Design.design n wn rp rs band ftype analog fs = .ok g ∧
      (∀ᶠ i in fine, Rounded.design (Setup.A i) n wn rp rs band ftype analog fs = .ok (d i)) ∧ ZpkLim Tends Tends d g := by
  cases analog with
  | false =>
    obtain ⟨g, d, h1, h2, h3, -⟩ := design_lim hn hv hr hk
    exact ⟨g, d, h1, h2, h3.z.imp fun _ _ _ h => h.1.1, h3.p, h3.k⟩
  | true =>
    obtain ⟨g, d, h1, h2, h3⟩ := design_lim_analog hn hv hr hk
    exact ⟨g, d, h1, h2, h3.z.imp fun _ _ _ h => h.1.1, h3.p, h3.k⟩

theorem eventually_near {α : Type} [NormedAddCommGroup α] {F : Setup → List α} {L : List α} (h : Along Tends F L) {ε : ℝ}
    (hε : 0 < ε) : ∀ᶠ i in fine, List.Forall₂ (fun a c => ‖a - c‖ ≤ ε) (F i) L := by
  refine h.eventually_forall₂ (fun a c _ hac => ?_)
  have hac : Tendsto a fine (𝓝 c) := hac
  have := (hac.sub_const c).norm
  rw [sub_self, norm_zero] at this
  filter_upwards [this.eventually (gt_mem_nhds hε)] with i hi using hi.le

/-- **C104**, zeros, poles and gain: for every `ε` there is an accuracy from which on the design returns as many zeros
and poles as the exact one, all of them and the gain within `ε` of the exact ones. -/
theorem C104_zpk (eps : ℝ) (s : Sorts) (n : ℕ) (hn : n ≠ 0) (wn : List ℝ) (rp rs : Option ℝ) (band : Band)
    (ftype : FType) (analog : Bool) (fs : Option ℝ) (hv : ValidRequest wn rp rs band ftype analog fs)
    (hr : PositiveRipple ftype rp rs) (hk : KeepsPairs band ftype) :
    ∃ g : Zpk, Design.iirfilter eps s n wn rp rs (some band) (some ftype) (some analog) (some .zpk) fs = .ok (.zpk g) ∧
      ∀ ε : ℝ, 0 < ε → ∃ h0 : ℝ, 0 < h0 ∧ ∀ (r : Rounding) (m : Libm) (h : ℝ), AccurateTo r m h → h ≤ h0 →
        ∃ f : Zpk, Rounded.iirfilter (.ofRounding r m) s n wn rp rs (some band) (some ftype) (some analog) (some .zpk) fs =
            .ok (.zpk f) ∧
          List.Forall₂ (fun a b => ‖a - b‖ ≤ ε) f.z g.z ∧ List.Forall₂ (fun a b => ‖a - b‖ ≤ ε) f.p g.p ∧
          |f.k - g.k| ≤ ε := by
  obtain ⟨g, d, hg, hd, hl⟩ := lim_of_valid hn hv hr hk
  refine ⟨g, ?_, fun ε hε => ?_⟩
  · rw [Design.iirfilter_eq]
    change (Design.design n wn rp rs band ftype analog fs >>= _) = _
    rw [hg]; rfl
  · have hkk : ∀ᶠ i in fine, |(d i).k - g.k| ≤ ε := by
      have := (hl.k.sub_const g.k).abs
      rw [sub_self, abs_zero] at this
      filter_upwards [this.eventually (gt_mem_nhds hε)] with i hi using hi.le
    obtain ⟨h0, p0, H⟩ := exists_of_eventually (((hd.and (eventually_near hl.z hε)).and (eventually_near hl.p hε)).and hkk)
    refine ⟨h0, p0, fun r m h acc hh => ?_⟩
    obtain ⟨⟨⟨a1, a2⟩, a3⟩, a4⟩ := H ⟨r, m, h, acc⟩ hh
    refine ⟨_, ?_, a2, a3, a4⟩
    rw [Rounded.iirfilter_eq]
    change (Rounded.design (.ofRounding r m) n wn rp rs band ftype analog fs >>= _) = _
    have a1 : Rounded.design (.ofRounding r m) n wn rp rs band ftype analog fs = _ := a1
    rw [a1]; rfl

/-- **C104**, transfer functions: for every `ε` there is an accuracy from which on all coefficients are within `ε` of
the exact ones. -/
theorem C104_ba (eps : ℝ) (s : Sorts) (n : ℕ) (hn : n ≠ 0) (wn : List ℝ) (rp rs : Option ℝ) (band : Band)
    (ftype : FType) (analog : Bool) (fs : Option ℝ) (hv : ValidRequest wn rp rs band ftype analog fs)
    (hr : PositiveRipple ftype rp rs) (hk : KeepsPairs band ftype) :
    ∃ t : Ba, Design.iirfilter eps s n wn rp rs (some band) (some ftype) (some analog) (some .ba) fs = .ok (.ba t) ∧
      ∀ ε : ℝ, 0 < ε → ∃ h0 : ℝ, 0 < h0 ∧ ∀ (r : Rounding) (m : Libm) (h : ℝ), AccurateTo r m h → h ≤ h0 →
        ∃ t' : Ba, Rounded.iirfilter (.ofRounding r m) s n wn rp rs (some band) (some ftype) (some analog) (some .ba) fs =
            .ok (.ba t') ∧
          List.Forall₂ (fun a b => |a - b| ≤ ε) t'.b t.b ∧ List.Forall₂ (fun a b => |a - b| ≤ ε) t'.a t.a := by
  obtain ⟨g, d, hg, hd, hl⟩ := lim_of_valid hn hv hr hk
  obtain ⟨t, t0, h1, h2, h3, h4⟩ := zpk2tf_lim hl.z hl.p hl.k (2 * n)
  refine ⟨t0, ?_, fun ε hε => ?_⟩
  · rw [Design.iirfilter_eq]
    change (Design.design n wn rp rs band ftype analog fs >>= _) = _
    rw [hg, ok_bind]
    change (Design.zpk2tf (2 * n) g.z g.p g.k >>= _) = _
    rw [h2]; rfl
  · obtain ⟨h0, p0, H⟩ := exists_of_eventually ((hd.and (eventually_near h3 hε)).and (eventually_near h4 hε))
    refine ⟨h0, p0, fun r m h acc hh => ?_⟩
    obtain ⟨⟨a1, a2⟩, a3⟩ := H ⟨r, m, h, acc⟩ hh
    refine ⟨_, ?_, a2, a3⟩
    rw [Rounded.iirfilter_eq]
    change (Rounded.design (.ofRounding r m) n wn rp rs band ftype analog fs >>= _) = _
    have a1 : Rounded.design (.ofRounding r m) n wn rp rs band ftype analog fs = _ := a1
    rw [a1, ok_bind]
    change (Rounded.zpk2tf (.ofRounding r m) (2 * n) _ _ _ >>= _) = _
    have e := h1 ⟨r, m, h, acc⟩
    rw [show Rounded.zpk2tf (.ofRounding r m) (2 * n) _ _ _ = _ from e]
    rfl

/-- **C104**, sections: if the real poles of a band-pass or band-stop filter are simple, then from some accuracy on the
digital design is returned as stable second-order sections, and its frequency response is within `ε` of the exact one
at all frequencies. -/
theorem C104_sections (eps : ℝ) {s : Sorts} (hs : s.Correct) (n : ℕ) (hn : n ≠ 0) (wn : List ℝ) (rp rs : Option ℝ)
    (band : Band) (ftype : FType) (fs : Option ℝ) (hv : ValidRequest wn rp rs band ftype false fs)
    (hr : PositiveRipple ftype rp rs) (hk : KeepsPairs band ftype) {g : Zpk}
    (hg : Design.iirfilter eps s n wn rp rs (some band) (some ftype) none (some .zpk) fs = .ok (.zpk g))
    (hsim : band = .bandpass ∨ band = .bandstop → ∀ p ∈ g.p, p.im = 0 → g.p.count p = 1) (ε : ℝ) (hε : 0 < ε) :
    ∃ h0 : ℝ, 0 < h0 ∧ ∀ (r : Rounding) (m : Libm) (h : ℝ), AccurateTo r m h → h ≤ h0 →
      ∃ l, Rounded.iirfilter (.ofRounding r m) s n wn rp rs (some band) (some ftype) none (some .sos) fs = .ok (.sos l) ∧
        l.length = (poleCount n band + 1) / 2 ∧ (∀ x ∈ l, Stable x) ∧
        ∀ ω : ℝ, ‖freqResponse l ω - g.eval (Complex.exp (Complex.I * ω))‖ ≤ ε := by
  obtain ⟨g', d, hg', hd, hl, hst, hkr⟩ := design_lim hn hv hr hk
  have e : g' = g := by
    rw [Design.iirfilter_eq] at hg
    have hg : (Design.design n wn rp rs band ftype false fs >>= _) = _ := hg
    rw [hg'] at hg
    cases hg
    rfl
  subst e
  obtain ⟨h0, p0, H⟩ := exists_of_eventually (sections_lim hs hn hk hd hl (exact_poleCount hk hg') hst hkr hsim hε)
  exact ⟨h0, p0, fun r m h acc hh => H ⟨r, m, h, acc⟩ hh⟩

/-- **C104**, sections of low-pass and high-pass filters, and of filters of even order: no condition on the poles. -/
theorem C104_sections_simple (eps : ℝ) {s : Sorts} (hs : s.Correct) (n : ℕ) (hn : n ≠ 0) (wn : List ℝ)
    (rp rs : Option ℝ) (band : Band) (ftype : FType) (fs : Option ℝ) (hv : ValidRequest wn rp rs band ftype false fs)
    (hr : PositiveRipple ftype rp rs) (hk : KeepsPairs band ftype)
    (hb : band = .lowpass ∨ band = .highpass ∨ n % 2 = 0) :
    ∃ g : Zpk, Design.iirfilter eps s n wn rp rs (some band) (some ftype) none (some .zpk) fs = .ok (.zpk g) ∧
      ∀ ε : ℝ, 0 < ε → ∃ h0 : ℝ, 0 < h0 ∧ ∀ (r : Rounding) (m : Libm) (h : ℝ), AccurateTo r m h → h ≤ h0 →
        ∃ l, Rounded.iirfilter (.ofRounding r m) s n wn rp rs (some band) (some ftype) none (some .sos) fs = .ok (.sos l) ∧
          l.length = (poleCount n band + 1) / 2 ∧ (∀ x ∈ l, Stable x) ∧
          ∀ ω : ℝ, ‖freqResponse l ω - g.eval (Complex.exp (Complex.I * ω))‖ ≤ ε := by
  obtain ⟨g, d, hg, -⟩ := design_lim hn hv hr hk
  have hg1 : Design.iirfilter eps s n wn rp rs (some band) (some ftype) none (some .zpk) fs = .ok (.zpk g) := by
    rw [Design.iirfilter_eq]
    change (Design.design n wn rp rs band ftype false fs >>= _) = _
    rw [hg]; rfl
  refine ⟨g, hg1, fun ε hε => C104_sections eps hs n hn wn rp rs band ftype fs hv hr hk hg1 (fun hb' p hp h0 => ?_) ε hε⟩
  have he : n % 2 = 0 := by
    rcases hb with rfl | rfl | h
    · simp at hb'
    · simp at hb'
    · exact h
  exact absurd h0 (band_even_no_real hn he hb' hv hr hg p hp)

/-- **C104** with binary numbers: with enough bits the design returns stable sections whose frequency response is as
close to that of the exact design as desired. -/
theorem C104_binary (eps : ℝ) {s : Sorts} (hs : s.Correct) (n : ℕ) (hn : n ≠ 0) (wn : List ℝ)
    (rp rs : Option ℝ) (band : Band) (ftype : FType) (fs : Option ℝ) (hv : ValidRequest wn rp rs band ftype false fs)
    (hr : PositiveRipple ftype rp rs) (hk : KeepsPairs band ftype)
    (hb : band = .lowpass ∨ band = .highpass ∨ n % 2 = 0) (ε : ℝ) (hε : 0 < ε) :
    ∃ (g : Zpk) (p0 : ℕ), Design.iirfilter eps s n wn rp rs (some band) (some ftype) none (some .zpk) fs = .ok (.zpk g) ∧
      ∀ (p : ℕ) (hp : 1 ≤ p) (emin : ℕ), p0 ≤ p → p ≤ emin →
        ∃ l, Rounded.iirfilter (.ofRounding (Binary.rounding p (-(emin : ℤ)) hp) (exactLibm p emin hp)) s n wn rp rs
            (some band) (some ftype) none (some .sos) fs = .ok (.sos l) ∧
          (∀ x ∈ l, Stable x) ∧ ∀ ω : ℝ, ‖freqResponse l ω - g.eval (Complex.exp (Complex.I * ω))‖ ≤ ε := by
  obtain ⟨g, hg, H⟩ := C104_sections_simple eps hs n hn wn rp rs band ftype fs hv hr hk hb
  obtain ⟨h0, hp0, H⟩ := H ε hε
  obtain ⟨p0, hacc⟩ := C104_arithmetics h0 hp0
  refine ⟨g, p0, hg, fun p hp emin h1 h2 => ?_⟩
  obtain ⟨l, a1, -, a3, a4⟩ := H _ _ _ (hacc p hp emin h1 h2) le_rfl
  exact ⟨l, a1, a3, a4⟩

/-- A fourth-order Chebyshev I band-pass filter from 8 Hz to 12 Hz at 100 Hz with 1 dB of ripple, and a fifth-order
Chebyshev II low-pass filter. -/
example {s : Sorts} (hs : s.Correct) :
    (∃ (g : Zpk) (p0 : ℕ), Design.iirfilter 0 s 4 [8, 12] (some 1) none (some .bandpass) (some .chebyshevI) none
        (some .zpk) (some 100) = .ok (.zpk g) ∧
      ∀ (p : ℕ) (hp : 1 ≤ p) (emin : ℕ), p0 ≤ p → p ≤ emin →
        ∃ l, Rounded.iirfilter (.ofRounding (Binary.rounding p (-(emin : ℤ)) hp) (exactLibm p emin hp)) s 4 [8, 12]
            (some 1) none (some .bandpass) (some .chebyshevI) none (some .sos) (some 100) = .ok (.sos l) ∧
          (∀ x ∈ l, Stable x) ∧ ∀ ω : ℝ, ‖freqResponse l ω - g.eval (Complex.exp (Complex.I * ω))‖ ≤ 1 / 1000) ∧
    ∃ (g : Zpk) (p0 : ℕ), Design.iirfilter 0 s 5 [1 / 4] (some 1) (some 40) (some .lowpass) (some .chebyshevII) none
        (some .zpk) none = .ok (.zpk g) ∧
      ∀ (p : ℕ) (hp : 1 ≤ p) (emin : ℕ), p0 ≤ p → p ≤ emin →
        ∃ l, Rounded.iirfilter (.ofRounding (Binary.rounding p (-(emin : ℤ)) hp) (exactLibm p emin hp)) s 5 [1 / 4]
            (some 1) (some 40) (some .lowpass) (some .chebyshevII) none (some .sos) none = .ok (.sos l) ∧
          (∀ x ∈ l, Stable x) ∧ ∀ ω : ℝ, ‖freqResponse l ω - g.eval (Complex.exp (Complex.I * ω))‖ ≤ 1 / 1000 := by
  constructor
  · refine C104_binary 0 hs 4 (by norm_num) [8, 12] (some 1) none .bandpass .chebyshevI (some 100) ?_ ?_ ?_
      (.inr (.inr (by norm_num))) _ (by norm_num)
    · constructor <;> simp [Spec.edges] <;> norm_num
    · constructor <;> simp
    · simp [KeepsPairs]
  · refine C104_binary 0 hs 5 (by norm_num) [1 / 4] (some 1) (some 40) .lowpass .chebyshevII none ?_ ?_ ?_
      (.inl rfl) _ (by norm_num)
    · constructor <;> simp [Spec.edges] <;> norm_num
    · constructor <;> simp
    · simp [KeepsPairs]

end SciRs.Props

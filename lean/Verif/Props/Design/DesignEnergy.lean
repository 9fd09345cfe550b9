import Verif.Props.Energy
import Verif.Props.Design.EndToEnd
import Verif.Props.Rounded.ButterResponse

/-!
# C92: designed filters never increase the energy of a signal
-/

namespace SciRs.Props

open SciRs SciRs.Design SciRs.Spec Complex

theorem prototype_power_le {N : ℕ} (hN : N ≠ 0) {ftype : FType} {rp rs : Option ℝ} {f : Zpk}
    (h : prototype N ftype rp rs = .ok f) (hr : PositiveRipple ftype rp rs) :
    f.p ≠ [] ∧ ∀ v : ℝ, ‖f.eval (I * v)‖ ≤ 1 := by
  have sq : ∀ {a : ℝ}, a ^ 2 ≤ 1 → 0 ≤ a → a ≤ 1 := fun h h0 => by nlinarith
  cases ftype with
  | butterworth =>
    cases h
    refine ⟨fun h => ?_, fun v => sq ?_ (norm_nonneg _)⟩
    · have := (C45_poles N hN).2.1
      rw [h] at this
      exact hN this.symm
    · rw [(C45_response N hN v).2, div_le_one (by have := Even.pow_nonneg (even_two_mul N) v; linarith)]
      linarith [Even.pow_nonneg (even_two_mul N) v]
  | chebyshevI =>
    cases rp with
    | none => simp [prototype] at h
    | some r =>
      cases h
      have hr' := hr.1 rfl r rfl
      have hE := ripple_pos hr'
      refine ⟨fun h => ?_, fun v => sq ?_ (norm_nonneg _)⟩
      · have := (C46_poles N hN r hr').2.1
        rw [h] at this
        exact hN this.symm
      · rw [(C46_response N hN r hr' v).2]
        have : 0 ≤ ((10 : ℝ) ^ (r / 10) - 1) * ((Polynomial.Chebyshev.T ℝ N).eval v) ^ 2 := by positivity
        rw [div_le_one (by linarith)]
        linarith
  | chebyshevII =>
    cases rs with
    | none => cases rp <;> simp [prototype] at h
    | some r =>
      have h' : f = cheb2ap N r := by cases rp <;> simp [prototype] at h <;> exact h.symm
      subst h'
      have hr' := hr.2 rfl r rfl
      have hE := ripple_pos hr'
      refine ⟨fun h => ?_, fun v => sq ?_ (norm_nonneg _)⟩
      · have := (C47_poles_zeros N hN r hr').1
        rw [h] at this
        exact hN this.symm
      · by_cases hv : v = 0
        · rw [hv, ofReal_zero, mul_zero, (C47_response N hN r hr').1.2]; simp
        · rw [((C47_response N hN r hr').2 v hv).2]
          have := sq_nonneg ((Polynomial.Chebyshev.T ℝ N).eval (1 / v))
          rw [div_le_one (by linarith)]
          linarith
  | cauerElliptic => cases rp <;> cases rs <;> simp [prototype] at h
  | besselThomson => cases rp <;> cases rs <;> simp [prototype] at h

/-- The response of a digital design is at most 1, except perhaps at frequency zero. -/
theorem digital_le_one {f d : Zpk} {band : Band} {e : List ℝ} (hf : f.p ≠ []) (hP : ∀ v : ℝ, ‖f.eval (I * v)‖ ≤ 1)
    (he : EdgesOk band e) (h1 : ∀ W ∈ e, W < 1)
    (hD : Digital f band (e.map (fun x => 4 * Real.tan (Real.pi * x / 2))) d) (ω : ℝ) (h0 : ω ≠ 0)
    (hω : |ω| < Real.pi) : ‖d.eval (exp (I * ω))‖ ≤ 1 := by
  have htan : Real.tan (ω / 2) ≠ 0 := tan_half_ne_zero (abs_pos.mpr h0) hω
  match band, e, he with
  | .lowpass, [W], he =>
    rw [Digital.lowpass hD (tan_pos_of he (h1 W (by simp))).ne' hω]
    exact hP _
  | .highpass, [W], he =>
    rw [Digital.highpass hD hω htan]
    exact hP _
  | .bandpass, [A, B], he =>
    obtain ⟨hA, hAB⟩ : (0 : ℝ) < A ∧ A < B := he
    rw [Digital.bandpass hD hω (tan_lt_of hA hAB (h1 B (by simp))) htan]
    exact hP _
  | .bandstop, [A, B], he =>
    by_cases h : Real.tan (ω / 2) ^ 2 = Real.tan (Real.pi * A / 2) * Real.tan (Real.pi * B / 2)
    · rw [Digital.stop_centre hD hf hω h]; simp
    · rw [Digital.bandstop hD hω h]
      exact hP _

theorem bound_at_zero {f : ℝ → ℂ} (hf : Continuous f) {M : ℝ} (h : ∀ ω : ℝ, ω ≠ 0 → |ω| < Real.pi → ‖f ω‖ ≤ M) :
    ‖f 0‖ ≤ M := by
  have hcl : IsClosed {ω : ℝ | ‖f ω‖ ≤ M} := isClosed_le hf.norm continuous_const
  have hIcc : Set.Icc 0 Real.pi ⊆ {ω : ℝ | ‖f ω‖ ≤ M} := by
    rw [← closure_Ioo Real.pi_pos.ne]
    refine hcl.closure_subset_iff.mpr fun v hv => h v hv.1.ne' (by rw [abs_of_pos hv.1]; exact hv.2)
  exact hIcc ⟨le_rfl, Real.pi_pos.le⟩

section
variable (eps : ℝ) (s : Sorts)

/-- The sections of a valid digital design: normalised, stable, at rest, with a response of at most 1. -/
theorem design_sections (heps : 0 ≤ eps) (hs : s.Correct) (N : ℕ) (hN : N ≠ 0) (wn : List ℝ) (rp rs : Option ℝ)
    (btype : Option Band) (ftype : Option FType) (analog : Option Bool) (ha : analog = none ∨ analog = some false)
    (fs : Option ℝ)
    (hv : ValidRequest wn rp rs (btype.getD .bandpass) (ftype.getD .butterworth) false fs)
    (hr : PositiveRipple (ftype.getD .butterworth) rp rs)
    (hII : ftype.getD .butterworth = .chebyshevII → btype.getD .bandpass = .lowpass ∨ btype.getD .bandpass = .bandpass)
    (l : List (Sos ℝ)) (hl : iirfilter eps s N wn rp rs btype ftype analog (some .sos) fs = .ok (.sos l)) :
    (∀ c ∈ l, c.a0 = 1 ∧ Stable c) ∧ AtRest l ∧ (∀ ω : ℝ, |ω| < Real.pi → ‖freqResponse l ω‖ ≤ 1) ∧
      ∃ d, iirfilter eps s N wn rp rs btype ftype analog (some .zpk) fs = .ok (.zpk d) ∧
        ∀ ω : ℝ, freqResponse l ω = d.eval (exp (I * ω)) := by
  obtain ⟨d, hd, -, hc, hx⟩ := C84_sound eps s heps hs N wn rp rs btype ftype analog ha fs hv hr
    (fun h => zerosFinite_of (hII h)) l hl
  have hst := sections_stable hc
  have hresp : ∀ ω : ℝ, freqResponse l ω = d.eval (exp (I * ω)) := fun ω => (hx _ (exp_ne_zero _)).2
  have ha' : analog.getD false = false := by rcases ha with rfl | rfl <;> rfl
  obtain ⟨f, d', hf, hd', hD, -⟩ := design_sound (N := N) hv hr hII
  have e : iirfilter eps s N wn rp rs btype ftype analog (some .zpk) fs = .ok (.zpk d') := by
    rw [iirfilter_eq, ha', hd']; rfl
  rw [hd] at e
  cases e
  obtain ⟨hp, hP⟩ := prototype_power_le hN hf hr
  have hne : ∀ ω : ℝ, ω ≠ 0 → |ω| < Real.pi → ‖freqResponse l ω‖ ≤ 1 := fun ω h0 hω => by
    rw [hresp]
    exact digital_le_one hp hP (edgesOk_of_valid hv) (hv.nyquist rfl) hD ω h0 hω
  refine ⟨hst, fun c h => ⟨(hc c h).2.1, (hc c h).2.2.1⟩, fun ω hω => ?_, d, hd, hresp⟩
  by_cases h0 : ω = 0
  · rw [h0]
    exact bound_at_zero (continuous_freqResponse l hst) hne
  · exact hne ω h0 hω

/-- **C92** Filtering with the sections of any valid digital Butterworth or Chebyshev I design of any band, or
Chebyshev II low-pass or band-pass design, never increases the energy of a signal. -/
theorem C92_designs (heps : 0 ≤ eps) (hs : s.Correct) (N : ℕ) (hN : N ≠ 0) (wn : List ℝ) (rp rs : Option ℝ)
    (btype : Option Band) (ftype : Option FType) (analog : Option Bool) (ha : analog = none ∨ analog = some false)
    (fs : Option ℝ)
    (hv : ValidRequest wn rp rs (btype.getD .bandpass) (ftype.getD .butterworth) false fs)
    (hr : PositiveRipple (ftype.getD .butterworth) rp rs)
    (hII : ftype.getD .butterworth = .chebyshevII → btype.getD .bandpass = .lowpass ∨ btype.getD .bandpass = .bandpass)
    (l : List (Sos ℝ)) (hl : iirfilter eps s N wn rp rs btype ftype analog (some .sos) fs = .ok (.sos l))
    (x : List ℝ) : energy (sosfiltDyn x l).1 ≤ energy x := by
  obtain ⟨h1, h2, h3, -⟩ := design_sections eps s heps hs N hN wn rp rs btype ftype analog ha fs hv hr hII l hl
  have := C92_energy l h1 h2 1 h3 x
  rwa [one_pow, one_mul] at this

/-- A concrete case: a band-stop Chebyshev I filter of order 3. -/
example (hs : s.Correct) (l : List (Sos ℝ))
    (hl : iirfilter 0 s 3 [1 / 4, 1 / 2] (some 1) none (some .bandstop) (some .chebyshevI) none (some .sos) none =
      .ok (.sos l)) (x : List ℝ) : energy (sosfiltDyn x l).1 ≤ energy x :=
  C92_designs 0 s le_rfl hs 3 (by norm_num) [1 / 4, 1 / 2] (some 1) none (some .bandstop) (some .chebyshevI) none
    (.inl rfl) none
    { count := rfl
      positive := by simp [Spec.edges]
      increasing := by simp [Spec.edges]; norm_num
      nyquist := by simp [Spec.edges]; norm_num
      fs_digital := by simp
      ripple := by simp
      attenuation := by simp
      family := .inr (.inl ⟨rfl, rfl⟩) }
    ⟨by simp, by simp⟩ (by simp) l hl x

end

open SciRs.Rounded in
/-- **C92** for designs computed in floating point: filter a signal with the sections of a Butterworth low-pass or
high-pass filter computed in floating point, and with the sections the design gives without rounding.  The
difference of the outputs has at most `(250 n³ h / (e (1 - e))²)²` times the energy of the signal. -/
theorem C92_rounded_design {r : Rounding} {m : Libm} {h : ℝ} (hr : r.Nearest) (hm : m.Accurate r h) (eps : ℝ)
    (heps : 0 ≤ eps) {s : Sorts} (hs : s.Correct) (n : ℕ)
    (hn : n ≠ 0) (wn : List ℝ) (hW : ∀ w ∈ wn, r.rnd w = w) (band : Band) (hb : band = .lowpass ∨ band = .highpass)
    (fs : Option ℝ) (e : ℝ) (he : Spec.edges wn fs = [e]) (h0 : 0 < e) (h1 : e < 1)
    (S : Small r h ((e * (1 - e) / 20) ^ n)) (hh : 3000 * (n ^ 3 * h) ≤ (e * (1 - e)) ^ 2)
    (l0 : List (Sos ℝ)) (hl0 : Design.butter eps s n wn (some band) none (some .sos) fs = .ok (.sos l0)) :
    ∃ l : List (Sos ℝ), Rounded.butter (.ofRounding r m) s n wn (some band) none (some .sos) fs = .ok (.sos l) ∧
      ∀ x : List ℝ, energy (signalDiff (sosfiltDyn x l).1 (sosfiltDyn x l0).1) ≤
        (250 * (n ^ 3 * h / (e * (1 - e)) ^ 2)) ^ 2 * energy x := by
  obtain ⟨l, f0, hl, hf0, hst, H⟩ := C91_sections_response hr hm eps hs n hn wn hW band hb fs e he h0 h1 S hh
  refine ⟨l, hl, fun x => ?_⟩
  obtain ⟨w, hw⟩ : ∃ w, wn = [w] := by
    match wn, he with
    | [], he => cases fs <;> simp [Spec.edges] at he
    | [w], _ => exact ⟨w, rfl⟩
    | a :: b :: t, he => cases fs <;> simp [Spec.edges] at he
  subst hw
  have hv : ValidRequest [w] none none band .butterworth false fs :=
    valid_single hb he h0 h1 (by simp) (by simp) (.inl rfl)
  obtain ⟨a1, a2, a3, d, hd, a4⟩ := design_sections eps s heps hs n hn [w] none none (some band) (some .butterworth)
    (some false) (.inr rfl) fs hv ⟨by simp, by simp⟩ (by simp) l0 hl0
  have hdf : d = f0 := by
    have : iirfilter eps s n [w] none none (some band) (some .butterworth) (some false) (some .zpk) fs =
      .ok (.zpk f0) := hf0
    rw [this] at hd
    simpa using hd.symm
  subst hdf
  have hcl : (∀ c ∈ l, c.a0 = 1) ∧ AtRest l := by
    obtain ⟨f', -, -, -, -, -, q0, qs, hl', -⟩ := C87_coefficients hr m hs n hn [w] none none (some band)
      (some .butterworth) (some false) rfl fs (by simp [KeepsPairs]) hl
    rw [hl']
    constructor
    · intro c hc
      rcases List.mem_cons.mp hc with rfl | hc
      · rfl
      · obtain ⟨q, -, rfl⟩ := List.mem_map.mp hc
        rfl
    · intro c hc
      rcases List.mem_cons.mp hc with rfl | hc
      · exact ⟨rfl, rfl⟩
      · obtain ⟨q, -, rfl⟩ := List.mem_map.mp hc
        exact ⟨rfl, rfl⟩
  refine C92_distance l l0 (fun c hc => ⟨hcl.1 c hc, hst c hc⟩) a1 hcl.2 a2 _ (fun ω hω => ?_) x
  have hh0 := S.h_nonneg
  have h5 := a3 ω hω
  rw [a4] at h5 ⊢
  refine (H ω).trans (mul_le_of_le_one_right ?_ h5)
  have : 0 ≤ (n : ℝ) ^ 3 * h / (e * (1 - e)) ^ 2 := by positivity
  linarith

open SciRs.Rounded in
/-- **C92**, an instance: the fourth-order 10 Hz low-pass filter for signals sampled at 1000 Hz, designed in
binary64.  The relative error of the output, measured by its energy, is at most `4e-8`. -/
theorem C92_example {s : Sorts} (hs : s.Correct) : ∃ l l0 : List (Sos ℝ),
    Rounded.butter (.ofRounding binary64 libm64) s 4 [10] (some .lowpass) none (some .sos) (some 1000) = .ok (.sos l) ∧
    Design.butter 0 s 4 [10] (some .lowpass) none (some .sos) (some 1000) = .ok (.sos l0) ∧
      ∀ x : List ℝ, energy (signalDiff (sosfiltDyn x l).1 (sosfiltDyn x l0).1) ≤ (4 / 10 ^ 8) ^ 2 * energy x := by
  have hW : Spec.edges [(10 : ℝ)] (some 1000) = [1 / 50] := by simp [Spec.edges]; norm_num
  have hret := ((C84_butter_iff 0 s le_rfl hs 4 (by norm_num) .lowpass (.inl rfl) 10 (1 / 50) (some 1000) hW
    (by norm_num) (by norm_num)).1).mpr (.inr (by
      have hpi := Real.pi_pos
      rw [leastAngle, if_pos (by norm_num)]
      have s1 : 0 < Real.sin (Real.pi * (1 / 50)) := Real.sin_pos_of_pos_of_lt_pi (by positivity) (by nlinarith)
      have s2 : 0 < Real.sin (Real.pi / (2 * ((4 : ℕ) : ℝ))) :=
        Real.sin_pos_of_pos_of_lt_pi (by positivity) (by push_cast; linarith)
      rw [zero_mul, zero_mul]
      exact mul_pos s1 s2))
  obtain ⟨l0, hl0⟩ := C84_format 0 s 4 [10] none none (some .lowpass) (some .butterworth) (some false) (some 1000) hret
  have hσ : (2 : ℝ) ^ (-1000 : ℤ) ≤ ((1 / 50 : ℝ) * (1 - 1 / 50) / 20) ^ 4 := by
    have h5 : (2 : ℝ) ^ (-1000 : ℤ) ≤ 2 ^ (-100 : ℤ) := zpow_le_zpow_right₀ (by norm_num) (by norm_num)
    refine h5.trans ?_
    rw [zpow_neg]
    norm_num
  have hw : binary64.rnd 10 = 10 := by
    have := Binary.rnd_int 53 (-1074) (by norm_num) 10 (by norm_num)
    exact_mod_cast this
  obtain ⟨l, hl, H⟩ := C92_rounded_design binary64_nearest libm64_accurate 0 le_rfl hs 4 (by norm_num) [10]
    (by simpa using hw) .lowpass (.inl rfl) (some 1000) (1 / 50) hW (by norm_num) (by norm_num)
    (binary64_small_pow hσ) (by norm_num) l0 hl0
  refine ⟨l, l0, hl, hl0, fun x => (H x).trans (mul_le_mul_of_nonneg_right ?_ ?_)⟩
  · refine pow_le_pow_left₀ (by norm_num) (by norm_num) 2
  · exact List.sum_nonneg (by simp [sq_nonneg])

end SciRs.Props

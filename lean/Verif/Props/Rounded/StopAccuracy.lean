import Verif.Lemmas.Rounded.StopError
import Verif.Props.Rounded.ChebAccuracy

/-!
# C129: Chebyshev II low-pass filters designed in floating point are accurate and stable

From the request to the sections: no assumption on computed values, only on the order, the attenuation, the edge, the
precision of the type and the accuracy of the mathematical library.  The requests go through `iirfilter_dyn`, because
`cheby2_dyn` always panics (C55); the ripple they have to name is not used.
-/

namespace SciRs.Props

open SciRs SciRs.Design SciRs.Spec SciRs.Rounded

variable {r : Rounding} {m : Libm} {h : ℝ}

/-- The request is valid in any arithmetic that keeps the edge inside the band. -/
theorem stop_valid {A : Arith} {wn : List ℝ} {rp rs : ℝ} (hrp : 0 ≤ rp) (hrs : 0 ≤ rs) {fs : Option ℝ} {e : ℝ}
    (he : Rounded.edges A wn fs = [e]) (h0 : 0 < e) (h1 : e < 1) :
    Valid A wn (some rp) (some rs) .lowpass .chebyshevII false fs := by
  refine ⟨⟨?_, ?_, ?_, ?_, by simp, ?_, ?_, .inr (.inr ⟨rfl, rfl, rfl⟩)⟩, by simp⟩
  · rw [he, if_pos (.inl rfl)]; rfl
  · rw [he]; simpa [Spec.edges] using h0
  · rw [he]; simp [Spec.edges]
  · rw [he]; simpa [Spec.edges] using h1
  · rintro x ⟨⟩; exact hrp
  · rintro x ⟨⟩; exact hrs

/-- The request is answered, and where its poles and zeros lie. -/
theorem stop_answer (hr : r.Nearest) (s : Sorts) {n : ℕ} (hn : n ≠ 0) {rp rs : ℝ} (hrp : 0 ≤ rp) (hrs : 0 ≤ rs)
    {wn : List ℝ} (hW : ∀ w ∈ wn, r.rnd w = w) {fs : Option ℝ} {e : ℝ} (he : Spec.edges wn fs = [e]) (h1 : e < 1)
    (S : Small r h e) (hh : h ≤ (1 - e) / 1024) :
    ∃ f e', |e' - e| ≤ h * e ∧
      Rounded.iirfilter (.ofRounding r m) s n wn (some rp) (some rs) (some .lowpass) (some .chebyshevII) (some false)
        (some .zpk) fs = .ok (.zpk f) ∧
      f.p = (stepRange (-(n : ℤ) + 1) n).map (fun j => flBilinear r (flSPole r m n rs e' j)) ∧
      f.z = (cheb2Ms n).map (fun j => flBilinear r (flSZero r m n e' j)) ++
        List.replicate ((stepRange (-(n : ℤ) + 1) n).length - (cheb2Ms n).length) (-1) := by
  obtain ⟨e', he', hee⟩ := edge_err (m := m) S hr hW he
  have h0 := S.pos
  obtain ⟨a1, a2⟩ := abs_le.mp hee
  have b1 : h * e ≤ (1 - e) / 1024 * e := mul_le_mul_of_nonneg_right hh h0.le
  obtain ⟨g, hg⟩ := (Rounded.design_returns_iff (order := n)).mpr
    (stop_valid hrp hrs he' (by nlinarith) (by nlinarith))
  refine ⟨g, e', hee, ?_, stop_fl hn he' hg⟩
  rw [Rounded.iirfilter_eq]
  change (Rounded.design (.ofRounding r m) n wn (some rp) (some rs) .lowpass .chebyshevII false fs >>= _) = _
  rw [hg]
  rfl

/-- What the condition on the precision says about the error parameter. -/
theorem stop_cond {n : ℕ} (hn : n ≠ 0) {rs e : ℝ} (hrs : 0 < rs) (h0 : 0 < e) (h1 : e < 1) (hh0 : 0 ≤ h)
    (hh : 12288 * (n * (stopCond n rs * h)) ≤ stopMargin n rs e ^ 2) {X : ℝ} (hX : X = stopMargin n rs e) :
    0 < X ∧ X ≤ 1 / 8 ∧ h ≤ e ∧ h ≤ (1 - e) / 1024 ∧ h ≤ 1 / 1024 ∧ 12288 * h ≤ X / 4 ∧ 12288 * h ≤ X ^ 2 ∧
    660 * (n * (stopCond n rs * h)) / (1 - e) ≤ 0.054 * X := by
  obtain ⟨f1, f2, f3, f4, f5, -, -, -, -, -, -, -, -, -, -, -, f17⟩ := stop_facts hn hrs h0 h1 hh0 hh rfl hX
  have hXX : X ^ 2 ≤ X / 4 := by nlinarith
  have hX1 : X ^ 2 ≤ X * (1 - e) := by nlinarith
  have hX8 : X ≤ 1 / 8 := by
    rw [hX, stopMargin, div_le_iff₀ (by positivity)]
    have c1 := Real.cosh_sq (stopMu n rs)
    have c2 := sq_nonneg (Real.sinh (stopMu n rs) - 1)
    have c3 : 0 < Real.sinh (stopMu n rs) := Real.sinh_pos_iff.mpr f1
    have c4 : e * (1 - e) ≤ 1 / 4 := by nlinarith [sq_nonneg (e - 1 / 2)]
    have c5 : (1 : ℝ) ≤ n := by exact_mod_cast Nat.one_le_iff_ne_zero.mpr hn
    have c6 := mul_le_mul_of_nonneg_right c4 c3.le
    have c7 : Real.cosh (stopMu n rs) ^ 2 ≤ n * Real.cosh (stopMu n rs) ^ 2 :=
      le_mul_of_one_le_left (by positivity) c5
    nlinarith
  rw [← hX] at hh
  refine ⟨f2, hX8, by linarith, by linarith, by linarith, by linarith, f17, ?_⟩
  rw [div_le_iff₀ (by linarith)]
  linarith

/-- **C129**, the poles and zeros: a Chebyshev II low-pass request of order `n` with attenuation `rs` and its edge at
the fraction `e` of the Nyquist frequency is answered if the precision suffices for it (the last two hypotheses), and
every computed pole and zero is within `660 n κ h / (1 - e)` of the pole or zero of the filter designed without any
rounding, where `κ = stopCond n rs`. -/
theorem C129_roots (hr : r.Nearest) (hm : m.Accurate r h) (hm2 : m.AccurateHyp r h) (eps : ℝ) (s : Sorts) (n : ℕ)
    (hn : n ≠ 0) (rp rs : ℝ) (hrp : 0 ≤ rp) (hrs : 0 < rs) (wn : List ℝ) (hW : ∀ w ∈ wn, r.rnd w = w)
    (fs : Option ℝ) (e : ℝ) (he : Spec.edges wn fs = [e]) (h0 : 0 < e) (h1 : e < 1) (S : Small r h h)
    (hfl : h ≤ rippleFloor rs) (hh : 12288 * (n * (stopCond n rs * h)) ≤ stopMargin n rs e ^ 2) :
    ∃ f f0 : Zpk,
      Rounded.iirfilter (.ofRounding r m) s n wn (some rp) (some rs) (some .lowpass) (some .chebyshevII) (some false)
        (some .zpk) fs = .ok (.zpk f) ∧
      Design.iirfilter eps s n wn (some rp) (some rs) (some .lowpass) (some .chebyshevII) (some false)
        (some .zpk) fs = .ok (.zpk f0) ∧
      List.Forall₂ (fun x y => ‖x - y‖ ≤ 660 * (n * (stopCond n rs * h)) / (1 - e)) f.p f0.p ∧
      List.Forall₂ (fun x y => ‖x - y‖ ≤ 660 * (n * (stopCond n rs * h)) / (1 - e)) f.z f0.z := by
  have hh0 := S.h_nonneg
  obtain ⟨-, -, he1, he2, -⟩ := stop_cond hn hrs h0 h1 hh0 hh rfl
  obtain ⟨f, e', hee, hf, hp, hz⟩ := stop_answer (m := m) hr s hn hrp hrs.le hW he h1 (S.weaken he1) he2
  have he' : Rounded.edges (.exact eps) wn fs = [e] := by rw [← he]; cases fs <;> rfl
  obtain ⟨g, hg⟩ := (Rounded.design_returns_iff (order := n)).mpr (stop_valid hrp hrs.le he' h0 h1)
  obtain ⟨gp, gz⟩ := stop_ex hn he hg
  have key := fun j hj => stop_root_err (j := j) hn hrs S hr h0 h1 hee hfl hh hm hm2 hj
  refine ⟨f, g, hf, ?_, ?_, ?_⟩
  · rw [← C86_exact, Rounded.iirfilter_eq]
    change (Rounded.design (.exact eps) n wn (some rp) (some rs) .lowpass .chebyshevII false fs >>= _) = _
    rw [hg]
    rfl
  · rw [hp, gp]
    exact forall₂_map _ (fun j hj => (key j hj).1)
  · rw [hz, gz]
    refine List.rel_append (forall₂_map _ (fun j hj => ?_)) ?_
    · obtain ⟨a, b⟩ := mem_of_cheb2Ms hj
      exact (key j a).2 b
    · rw [List.forall₂_same]
      intro x _
      rw [sub_self, norm_zero]
      have k1 := (stop_facts hn hrs h0 h1 hh0 hh rfl rfl)
      obtain ⟨f1, -, -, -, -, -, -, -, -, -, -, k, -⟩ := k1
      have : 0 ≤ stopCond n rs := by rw [stopCond]; positivity
      have : 0 < 1 - e := by linarith
      positivity

/-- **C129**, end to end: under the same hypotheses the request for sections is answered, every section is stable, and
filtering any bounded signal with them in a rounded arithmetic of sufficient precision has a bounded error. -/
theorem C129_sections (hr : r.Nearest) (hm : m.Accurate r h) (hm2 : m.AccurateHyp r h) {s : Sorts} (hs : s.Correct)
    (n : ℕ) (hn : n ≠ 0) (rp rs : ℝ) (hrp : 0 ≤ rp) (hrs : 0 < rs) (wn : List ℝ) (hW : ∀ w ∈ wn, r.rnd w = w)
    (fs : Option ℝ) (e : ℝ) (he : Spec.edges wn fs = [e]) (h0 : 0 < e) (h1 : e < 1) (S : Small r h h)
    (hfl : h ≤ rippleFloor rs) (hh : 12288 * (n * (stopCond n rs * h)) ≤ stopMargin n rs e ^ 2) :
    ∃ l : List (Sos ℝ),
      Rounded.iirfilter (.ofRounding r m) s n wn (some rp) (some rs) (some .lowpass) (some .chebyshevII) (some false)
        (some .sos) fs = .ok (.sos l) ∧
      l.length = (n + 1) / 2 ∧ (∀ x ∈ l, Stable x) ∧
      ∃ K u0 : ℝ, 0 < u0 ∧ ∀ (r' : Rounding), r'.u ≤ u0 → ∀ L : ℝ, ∀ x : List ℝ, (∀ v ∈ x, |v| ≤ L) →
        ∀ i (_ : i < x.length),
        |((sosfiltDyn (x.map (Fl.mk (r := r'))) (l.map (flSection r'))).1.getD i 0).val
          - (sosfiltDyn x l).1.getD i 0| ≤ K * (r'.u * L + r'.t) := by
  have hh0 := S.h_nonneg
  obtain ⟨X, hX⟩ : ∃ X, X = stopMargin n rs e := ⟨_, rfl⟩
  obtain ⟨hX0, hX4, he1, he2, hh2, hhX, hhXX, hErr⟩ := stop_cond hn hrs h0 h1 hh0 hh hX
  have hμ := (stop_facts hn hrs h0 h1 hh0 hh rfl rfl).1
  have Se : Small r h e := S.weaken he1
  obtain ⟨f, e', hee, hf, hp, hz⟩ := stop_answer (m := m) hr s hn hrp hrs.le hW he h1 Se he2
  have key := fun j hj => stop_root_err (j := j) hn hrs S hr h0 h1 hee hfl hh hm hm2 hj
  have ht : r.t ≤ h - r.u := by
    have i1 := Se.t_le
    have i2 : (h - r.u) * e ≤ (h - r.u) * 1 := mul_le_mul_of_nonneg_left h1.le (sub_nonneg.mpr Se.u_le)
    linarith
  have hu0 := r.u_nonneg
  have hin : ∀ p ∈ f.p, ‖p‖ ≤ 1 - 0.44 * X := by
    intro p hpm
    rw [hp] at hpm
    obtain ⟨j, hj, rfl⟩ := List.mem_map.mp hpm
    have a1 := (key j hj).1
    obtain ⟨-, a2, -⟩ := stop_margin hn hμ h0 h1 hj hX
    have a3 := norm_add_le (flBilinear r (flSPole r m n rs e' j) -
      (4 + exSPole n rs e j) / (4 - exSPole n rs e j)) ((4 + exSPole n rs e j) / (4 - exSPole n rs e j))
    rw [sub_add_cancel] at a3
    linarith
  have hk : KeepsPairs ((some Band.lowpass).getD .bandpass) ((some FType.chebyshevII).getD .butterworth) := by
    simp [KeepsPairs]
  have him : ∀ {x y : ℂ}, ‖x - y‖ ≤ 0.054 * X → X / 2 ≤ |y.im| → |x.im| ≤ 420 * h → False := by
    intro x y a1 a2 a3
    have a4 := (Complex.abs_im_le_norm _).trans a1
    rw [Complex.sub_im] at a4
    have a5 := abs_sub_abs_le_abs_sub y.im x.im
    rw [abs_sub_comm] at a5
    linarith
  have hnear : ∀ x ∈ f.z ++ f.p, ¬ NearReal (.ofRounding r m) x := by
    intro x hx hN
    rcases List.mem_append.mp hx with hx | hx
    · rw [hz] at hx
      rcases List.mem_append.mp hx with hx | hx
      · obtain ⟨j, hj, rfl⟩ := List.mem_map.mp hx
        obtain ⟨ja, jb⟩ := mem_of_cheb2Ms hj
        obtain ⟨z1, z2⟩ := stop_zero_margin hn hμ h0 h1 ja jb hX
        have a1 := ((key j ja).2 jb).trans hErr
        have a3 := norm_add_le (flBilinear r (flSZero r m n e' j) -
          (4 + exSZero n e j) / (4 - exSZero n e j)) ((4 + exSZero n e j) / (4 - exSZero n e j))
        rw [sub_add_cancel, z1] at a3
        by_cases hbig : ‖flBilinear r (flSZero r m n e' j)‖ ≤ 1.01
        · exact him a1 z2 (nearReal_le Se h1.le hh2 hr hm hbig hN)
        · exact hbig (by linarith)
      · rw [(List.mem_replicate.mp hx).2] at hN
        exact hN.1 (by simp)
    · have hx1 := hin x hx
      have hx2 := nearReal_le Se h1.le hh2 hr hm (by linarith) hN
      rw [hp] at hx
      obtain ⟨j, hj, rfl⟩ := List.mem_map.mp hx
      by_cases hj0 : j = 0
      · subst hj0; exact hN.1 (flStop_real n rs e')
      obtain ⟨-, -, a2⟩ := stop_margin hn hμ h0 h1 hj hX
      exact him ((key j hj).1.trans hErr) (a2 hj0) hx2
  obtain ⟨-, -, hsec⟩ := C86_sections (ofRounding_lawful hr m) hs n hn wn (some rp) (some rs) (some .lowpass)
    (some .chebyshevII) (some false) rfl fs hk hf
  obtain ⟨s0, rest, hl, hlen, -⟩ := hsec hnear
  have hpn : f.p.length = n := by
    rw [hp, List.length_map, stepRange_sym_length]
  refine ⟨_, hl, ?_, ?_⟩
  · rw [← hpn, ← hlen]; simp
  · exact C87_stable_partial hr m hs n hn wn (some rp) (some rs) (some .lowpass) (some .chebyshevII) (some false) rfl fs
      hk hl hf (δ := 0.44 * X) (by positivity) hin (by linarith) (by
        have a1 : (0.44 * X) ^ 2 = 0.1936 * X ^ 2 := by ring
        have a2 : 0 < X ^ 2 := by positivity
        have a3 := Se.u_le
        rw [a1]
        linarith)

/-- **C129** for `f64` with a library accurate to `2^-50`: Chebyshev II low-pass filters with up to 300 dB of
attenuation are returned as stable sections if `n κ ≤ 2^36 X²`, where `X` is the margin. -/
theorem C129_f64 (m : Libm) (hm : m.Accurate binary64 (1 / 2 ^ 50)) (hm2 : m.AccurateHyp binary64 (1 / 2 ^ 50))
    {s : Sorts} (hs : s.Correct) (n : ℕ) (hn : n ≠ 0) (rp rs : ℝ) (hrp : 0 ≤ rp) (hrs : 0 < rs) (hrs2 : rs ≤ 300)
    (wn : List ℝ) (hW : ∀ w ∈ wn, binary64.rnd w = w) (fs : Option ℝ) (e : ℝ) (he : Spec.edges wn fs = [e])
    (h0 : 0 < e) (h1 : e < 1) (hne : n * stopCond n rs ≤ 2 ^ 36 * stopMargin n rs e ^ 2) :
    ∃ l : List (Sos ℝ),
      Rounded.iirfilter (.ofRounding binary64 m) s n wn (some rp) (some rs) (some .lowpass) (some .chebyshevII)
        (some false) (some .sos) fs = .ok (.sos l) ∧
      l.length = (n + 1) / 2 ∧ ∀ x ∈ l, Stable x := by
  have Sh : Small binary64 (1 / 2 ^ 50) (1 / 2 ^ 50) := by
    have h1 : binary64.u = 2 ^ (-53 : ℤ) := rfl
    have h2 : binary64.t = 2 ^ (-1075 : ℤ) := rfl
    have h5 : (2 : ℝ) ^ (-1075 : ℤ) ≤ 2 ^ (-150 : ℤ) := zpow_le_zpow_right₀ (by norm_num) (by norm_num)
    have e1 : (2 : ℝ) ^ (-53 : ℤ) = 1 / 2 ^ 53 := by rw [zpow_neg]; norm_num
    have e3 : (2 : ℝ) ^ (-150 : ℤ) = 1 / 2 ^ 150 := by rw [zpow_neg]; norm_num
    rw [e3] at h5
    refine ⟨by rw [h1, e1]; norm_num, ?_, by norm_num⟩
    rw [h1, h2, e1]
    exact h5.trans (by norm_num)
  have hfl : 1 / 2 ^ 50 ≤ rippleFloor rs := by
    have a : (10 : ℝ) ^ (-15 : ℝ) ≤ (10 : ℝ) ^ (-rs / 20) :=
      Real.rpow_le_rpow_of_exponent_le (by norm_num) (by linarith)
    have b : (10 : ℝ) ^ (-15 : ℝ) = 1 / 10 ^ 15 := by
      rw [Real.rpow_neg (by norm_num), show (15 : ℝ) = (15 : ℕ) by norm_num, Real.rpow_natCast]; norm_num
    rw [b] at a
    exact le_trans (by norm_num) a
  obtain ⟨l, a, b, c, -⟩ := C129_sections binary64_nearest hm hm2 hs n hn rp rs hrp hrs wn hW fs e he h0 h1 Sh hfl (by
    have i1 := sq_nonneg (stopMargin n rs e)
    have i2 : (12288 : ℝ) * (n * (stopCond n rs * (1 / 2 ^ 50))) = 12288 / 2 ^ 50 * (n * stopCond n rs) := by ring
    rw [i2]
    have i3 := mul_le_mul_of_nonneg_left hne (show (0 : ℝ) ≤ 12288 / 2 ^ 50 by norm_num)
    norm_num at i3 ⊢
    linarith)
  exact ⟨l, a, b, c⟩

/-- The parameter of the fourth-order filter with 40 dB of attenuation. -/
theorem forty_decibels : stopCond 4 40 ≤ 120 ∧ 2 / 1000 ≤ stopMargin 4 40 (1 / 50) := by
  have e1 : (10 : ℝ) ^ ((40 : ℝ) / 10) = 10000 := by
    rw [show (40 : ℝ) / 10 = (4 : ℕ) by norm_num, Real.rpow_natCast]; norm_num
  have e2 : (10 : ℝ) ^ (-(40 : ℝ) / 10) = 1 / 10000 := by
    rw [show -(40 : ℝ) / 10 = -((4 : ℕ) : ℝ) by norm_num, Real.rpow_neg (by norm_num), Real.rpow_natCast]; norm_num
  obtain ⟨μ, hμ⟩ : ∃ μ, μ = stopMu 4 40 := ⟨_, rfl⟩
  have s4 : Real.sinh (4 * μ) = √9999 := by
    rw [hμ, stopMu, e1]
    push_cast
    rw [mul_div_cancel₀ _ (by norm_num), Real.sinh_arsinh]
    norm_num
  have μ0 : 0 < μ := by
    have : 0 < Real.sinh (4 * μ) := by rw [s4]; positivity
    have := Real.sinh_pos_iff.mp this
    linarith
  have c4 : Real.cosh (4 * μ) ^ 2 = 10000 := by
    rw [Real.cosh_sq, s4, Real.sq_sqrt (by norm_num)]; norm_num
  have c4' : Real.cosh (4 * μ) = 100 := by
    have := Real.cosh_pos (4 * μ)
    nlinarith
  have d1 : Real.cosh (4 * μ) = 2 * Real.cosh (2 * μ) ^ 2 - 1 := by
    rw [show 4 * μ = 2 * (2 * μ) by ring, Real.cosh_two_mul, Real.sinh_sq]; ring
  have d2 : Real.cosh (2 * μ) = 2 * Real.cosh μ ^ 2 - 1 := by
    rw [Real.cosh_two_mul, Real.sinh_sq]; ring
  have d3 := Real.cosh_pos (2 * μ)
  have d4 : Real.cosh (2 * μ) ≤ 7.11 := by nlinarith
  have d5 : 7.1 ≤ Real.cosh (2 * μ) := by nlinarith
  have d6 := Real.cosh_sq μ
  have d7 : 0 < Real.sinh μ := Real.sinh_pos_iff.mpr μ0
  have d8 : Real.sinh μ ≤ 1.75 := by nlinarith
  have d9 : 1.7 ≤ Real.sinh μ := by nlinarith
  have d10 : μ < Real.sinh μ := Real.self_lt_sinh_iff.mpr μ0
  rw [stopCond, stopMargin, rippleCond, e2, ← hμ]
  constructor
  · rw [div_mul_eq_mul_div, div_le_iff₀ (by norm_num)]
    linarith
  · rw [le_div_iff₀ (by positivity)]
    push_cast
    linarith

/-- The hypotheses hold for a fourth-order filter with 40 dB of attenuation whose stop band begins at 10 Hz of 1 kHz,
in `f64`. -/
example {s : Sorts} (hs : s.Correct) : ∃ l : List (Sos ℝ),
    Rounded.iirfilter (.ofRounding binary64 libm64) s 4 [10] (some 1) (some 40) (some .lowpass) (some .chebyshevII)
      (some false) (some .sos) (some 1000) = .ok (.sos l) ∧ l.length = 2 ∧ ∀ x ∈ l, Stable x := by
  refine C129_f64 libm64 libm64_accurate libm64_accurateHyp hs 4 (by norm_num) 1 40 (by norm_num) (by norm_num)
    (by norm_num) [10] (fun w hw => ?_) (some 1000) (1 / 50) (by simp [Spec.edges]; norm_num) (by norm_num)
    (by norm_num) ?_
  · rw [List.mem_singleton.mp hw]
    have := Binary.rnd_int 53 (-1074) (by norm_num) 10 (by norm_num)
    exact_mod_cast this
  · obtain ⟨h1, h2⟩ := forty_decibels
    have h4 := pow_le_pow_left₀ (by norm_num) h2 2
    push_cast
    norm_num at h4 ⊢
    linarith

end SciRs.Props

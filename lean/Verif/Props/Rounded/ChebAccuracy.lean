import Verif.Lemmas.Rounded.ChebPoles
import Verif.Props.Rounded.ButterAccuracy

/-!
# C97: Chebyshev I low-pass and high-pass filters designed in floating point are accurate and stable

From the request to the sections: no assumption on computed values, only on the order, the ripple, the edge, the
precision of the type and the accuracy of the mathematical library.
-/

namespace SciRs.Props

open SciRs SciRs.Design SciRs.Spec SciRs.Rounded

variable {r : Rounding} {m : Libm} {h : ℝ}

/-- The request is answered, and where its poles lie. -/
theorem cheb_answer (hr : r.Nearest) (s : Sorts) {n : ℕ} (hn : n ≠ 0) {rp : ℝ} (hrp : 0 < rp) {wn : List ℝ}
    (hW : ∀ w ∈ wn, r.rnd w = w) {band : Band} (hb : band = .lowpass ∨ band = .highpass) {fs : Option ℝ} {e : ℝ}
    (he : Spec.edges wn fs = [e]) (h1 : e < 1) (S : Small r h e) (hh : h ≤ (1 - e) / 1024) :
    ∃ f e', |e' - e| ≤ h * e ∧
      Rounded.cheby1 (.ofRounding r m) s n rp wn (some band) (some false) (some .zpk) fs = .ok (.zpk f) ∧
      f.p = (stepRange (-(n : ℤ) + 1) n).map (fun j => flBilinear r (flCAnalog r m n rp band e' j)) := by
  obtain ⟨e', he', hee⟩ := edge_err (m := m) S hr hW he
  have h0 := S.pos
  obtain ⟨a1, a2⟩ := abs_le.mp hee
  have b1 : h * e ≤ (1 - e) / 1024 * e := mul_le_mul_of_nonneg_right hh h0.le
  have hv : Valid (.ofRounding r m) wn (some rp) none band .chebyshevI false fs := by
    refine ⟨⟨?_, ?_, ?_, ?_, by simp, ?_, by simp, .inr (.inl ⟨rfl, rfl⟩)⟩, by simp⟩
    · rw [he', if_pos hb]; rfl
    · rw [he']; simp [Spec.edges]; nlinarith
    · rw [he']; simp [Spec.edges]
    · rw [he']; simp [Spec.edges]; nlinarith
    · rintro x ⟨⟩; exact hrp.le
  obtain ⟨g, hg⟩ := (Rounded.design_returns_iff (order := n)).mpr hv
  refine ⟨g, e', hee, ?_, cheb_poles_fl hn he' hb hg⟩
  rw [Rounded.cheby1, Rounded.iirfilter_eq]
  change (Rounded.design (.ofRounding r m) n wn (some rp) none band .chebyshevI false fs >>= _) = _
  rw [hg]
  rfl

/-- **C97**, the poles: a Chebyshev I low-pass or high-pass request of order `n` with ripple `rp` and its edge at the
fraction `e` of the Nyquist frequency is answered if the precision suffices for it (the last hypothesis), and every
computed pole is within `220 n κ² h / (1 - e)` of the pole of the filter designed without any rounding, where
`κ = rippleCond rp` is the condition of the ripple. -/
theorem C97_poles (hr : r.Nearest) (hm : m.Accurate r h) (hm2 : m.AccurateHyp r h) (eps : ℝ) (s : Sorts) (n : ℕ)
    (hn : n ≠ 0) (rp : ℝ) (hrp : 0 < rp) (wn : List ℝ) (hW : ∀ w ∈ wn, r.rnd w = w) (band : Band)
    (hb : band = .lowpass ∨ band = .highpass) (fs : Option ℝ) (e : ℝ) (he : Spec.edges wn fs = [e]) (h0 : 0 < e)
    (h1 : e < 1) (S : Small r h (e * rippleFloor rp ^ 2 / (4 * n ^ 2 * rippleCond rp)))
    (hh : 4096 * (n * rippleCond rp ^ 2 * h) ≤ 1 - e) :
    ∃ f f0 : Zpk,
      Rounded.cheby1 (.ofRounding r m) s n rp wn (some band) (some false) (some .zpk) fs = .ok (.zpk f) ∧
      Design.cheby1 eps s n rp wn (some band) (some false) (some .zpk) fs = .ok (.zpk f0) ∧
      List.Forall₂ (fun x y => ‖x - y‖ ≤ 220 * (n * rippleCond rp ^ 2 * h) / (1 - e)) f.p f0.p := by
  obtain ⟨-, k1, -, -, -, -, g0, g1, -⟩ := ripple_facts hrp
  have hn1 : (1 : ℝ) ≤ n := by exact_mod_cast Nat.one_le_iff_ne_zero.mpr hn
  have hh0 := S.h_nonneg
  have hκ : 1 ≤ rippleCond rp ^ 2 := one_le_pow₀ k1
  have hhK : h ≤ n * rippleCond rp ^ 2 * h := by
    have : 1 ≤ n * rippleCond rp ^ 2 := by nlinarith
    nlinarith
  have Se : Small r h e := by
    refine S.weaken ?_
    rw [div_le_iff₀ (by positivity)]
    have a1 : rippleFloor rp ^ 2 ≤ 1 := pow_le_one₀ g0.le g1
    have a2 : (1 : ℝ) ≤ n ^ 2 := one_le_pow₀ hn1
    have a3 : 1 ≤ 4 * n ^ 2 * rippleCond rp := by nlinarith
    nlinarith
  obtain ⟨f, e', hee, hf, hp⟩ := cheb_answer (m := m) hr s hn hrp hW hb he h1 Se (by linarith)
  have hv : Valid (.exact eps) wn (some rp) none band .chebyshevI false fs := by
    have he' : Rounded.edges (.exact eps) wn fs = [e] := by rw [← he]; cases fs <;> rfl
    refine ⟨⟨?_, ?_, ?_, ?_, by simp, ?_, by simp, .inr (.inl ⟨rfl, rfl⟩)⟩, by simp⟩
    · rw [he', if_pos hb]; rfl
    · rw [he']; simpa [Spec.edges] using h0
    · rw [he']; simp [Spec.edges]
    · rw [he']; simpa [Spec.edges] using h1
    · rintro x ⟨⟩; exact hrp.le
  obtain ⟨g, hg⟩ := (Rounded.design_returns_iff (order := n)).mpr hv
  refine ⟨f, g, hf, ?_, ?_⟩
  · have := C86_exact eps s n wn (some rp) none (some band) (some .chebyshevI) (some false) (some .zpk) fs
    rw [Design.cheby1, ← this, Rounded.iirfilter_eq]
    change (Rounded.design (.exact eps) n wn (some rp) none band .chebyshevI false fs >>= _) = _
    rw [hg]
    rfl
  · rw [hp, cheb_poles_ex hn he hb hg]
    exact forall₂_map _ (fun j hj => cheb_pole_err hn hrp S hr h0 h1 hee hh hm hm2 hj)

/-- The sections, with the assumption on underflow as the proof uses it. -/
theorem cheb_sections (hr : r.Nearest) (hm : m.Accurate r h) (hm2 : m.AccurateHyp r h) {s : Sorts} (hs : s.Correct)
    (n : ℕ) (hn : n ≠ 0) (rp : ℝ) (hrp : 0 < rp) (wn : List ℝ) (hW : ∀ w ∈ wn, r.rnd w = w) (band : Band)
    (hb : band = .lowpass ∨ band = .highpass) (fs : Option ℝ) (e : ℝ) (he : Spec.edges wn fs = [e]) (h0 : 0 < e)
    (h1 : e < 1) (S : Small r h (e * rippleFloor rp ^ 2 / (4 * n ^ 2 * rippleCond rp))) (hh : 4000 * (n * rippleCond rp ^ 2 * h) ≤ chebMargin n rp e ^ 2) :
    ∃ l : List (Sos ℝ),
      Rounded.cheby1 (.ofRounding r m) s n rp wn (some band) (some false) (some .sos) fs = .ok (.sos l) ∧
      l.length = (n + 1) / 2 ∧ (∀ x ∈ l, Stable x) ∧
      ∃ K u0 : ℝ, 0 < u0 ∧ ∀ (r' : Rounding), r'.u ≤ u0 → ∀ L : ℝ, ∀ x : List ℝ, (∀ v ∈ x, |v| ≤ L) →
        ∀ i (_ : i < x.length),
        |((sosfiltDyn (x.map (Fl.mk (r := r'))) (l.map (flSection r'))).1.getD i 0).val
          - (sosfiltDyn x l).1.getD i 0| ≤ K * (r'.u * L + r'.t) := by
  obtain ⟨-, k1, -, -, -, -, g0, g1, -⟩ := ripple_facts hrp
  have hn1 : (1 : ℝ) ≤ n := by exact_mod_cast Nat.one_le_iff_ne_zero.mpr hn
  have hh0 := S.h_nonneg
  have h1e : 0 < 1 - e := by linarith
  have hκ : 1 ≤ rippleCond rp ^ 2 := one_le_pow₀ k1
  have hhK : h ≤ n * rippleCond rp ^ 2 * h := by
    have : 1 ≤ n * rippleCond rp ^ 2 := by nlinarith
    nlinarith
  have hn2 : (1 : ℝ) ≤ n ^ 2 := one_le_pow₀ hn1
  have hκ0 : 0 < rippleCond rp := by linarith
  have hnκ : 1 ≤ n ^ 2 * rippleCond rp := by nlinarith
  obtain ⟨X, hX⟩ : ∃ X, X = chebMargin n rp e := ⟨_, rfl⟩
  rw [← hX] at hh
  have hXd : X = e * (1 - e) * rippleFloor rp / (n ^ 2 * rippleCond rp) := hX
  have hX0 : 0 < X := by rw [hXd]; positivity
  have hXe' : X ≤ e * (1 - e) * rippleFloor rp := by
    rw [hXd]; exact div_le_self (by positivity) hnκ
  have hXe2 : X ≤ e * (1 - e) := hXe'.trans (mul_le_of_le_one_right (by positivity) g1)
  have hX4 : X ≤ 1 / 4 := by nlinarith [sq_nonneg (e - 1 / 2)]
  have hXe : X ≤ 1 - e := by nlinarith
  have hXX : X ^ 2 ≤ X / 4 := by nlinarith
  have hK : 4096 * (n * rippleCond rp ^ 2 * h) ≤ 1 - e := by linarith
  have hh' : h ≤ (1 - e) / 1024 := by linarith
  have hh2 : h ≤ 1 / 1024 := by linarith
  have hhX : 1000 * h ≤ X / 4 := by linarith
  have hErr : 220 * (n * rippleCond rp ^ 2 * h) / (1 - e) ≤ 0.055 * X := by
    rw [div_le_iff₀ h1e]
    nlinarith
  have Se : Small r h e := by
    refine S.weaken ?_
    rw [div_le_iff₀ (by positivity)]
    have a1 : rippleFloor rp ^ 2 ≤ 1 := pow_le_one₀ g0.le g1
    have a3 : 1 ≤ 4 * n ^ 2 * rippleCond rp := by nlinarith
    nlinarith
  have ht : r.t ≤ h - r.u := by
    have i1 := Se.t_le
    have i2 : (h - r.u) * e ≤ (h - r.u) * 1 := mul_le_mul_of_nonneg_left h1.le (sub_nonneg.mpr Se.u_le)
    linarith
  have hu0 := r.u_nonneg
  obtain ⟨f, e', hee, hf, hp⟩ := cheb_answer (m := m) hr s hn hrp hW hb he h1 Se hh'
  have hin : ∀ p ∈ f.p, ‖p‖ ≤ 1 - 0.44 * X := by
    intro p hpm
    rw [hp] at hpm
    obtain ⟨j, hj, rfl⟩ := List.mem_map.mp hpm
    have a1 := cheb_pole_err (band := band) hn hrp S hr h0 h1 hee hK hm hm2 hj
    obtain ⟨-, a2, -⟩ := cheb_margin hn hrp band h0 h1 hj hX
    have a3 := norm_add_le (flBilinear r (flCAnalog r m n rp band e' j) -
      (4 + exCAnalog n rp band e j) / (4 - exCAnalog n rp band e j))
      ((4 + exCAnalog n rp band e j) / (4 - exCAnalog n rp band e j))
    rw [sub_add_cancel] at a3
    linarith
  have hk : KeepsPairs ((some band).getD .bandpass) ((some FType.chebyshevI).getD .butterworth) := by
    simp [KeepsPairs]
  have hfz : Rounded.iirfilter (.ofRounding r m) s n wn (some rp) none (some band) (some .chebyshevI) (some false)
      (some .zpk) fs = .ok (.zpk f) := hf
  have hnear : ∀ x ∈ f.z ++ f.p, ¬ NearReal (.ofRounding r m) x := by
    intro x hx hN
    rcases List.mem_append.mp hx with hx | hx
    · have hz := C87_zeros hr m s n wn (some rp) none band (some .chebyshevI) (by simp) (some false) rfl fs hfz
      have : x.im = 0 := by
        rcases hb with rfl | rfl
        · rw [hz.1 rfl] at hx; rw [(List.mem_replicate.mp hx).2]; simp
        · rw [hz.2.1 rfl] at hx; rw [(List.mem_replicate.mp hx).2]; simp
      exact hN.1 this
    · have hx1 := hin x hx
      have hx2 := nearReal_le Se h1.le hh2 hr hm (by linarith) hN
      rw [hp] at hx
      obtain ⟨j, hj, rfl⟩ := List.mem_map.mp hx
      by_cases hj0 : j = 0
      · subst hj0; exact hN.1 (flCheb_real n rp band e')
      have a1 := cheb_pole_err (band := band) hn hrp S hr h0 h1 hee hK hm hm2 hj
      obtain ⟨-, -, a2⟩ := cheb_margin hn hrp band h0 h1 hj hX
      have a2 := a2 hj0
      have a3 := (Complex.abs_im_le_norm _).trans a1
      rw [Complex.sub_im] at a3
      obtain ⟨b, hbd⟩ : ∃ b, b = (flBilinear r (flCAnalog r m n rp band e' j)).im := ⟨_, rfl⟩
      obtain ⟨c, hcd⟩ : ∃ c, c = ((4 + exCAnalog n rp band e j) / (4 - exCAnalog n rp band e j)).im := ⟨_, rfl⟩
      rw [← hbd, ← hcd] at a3
      rw [← hcd] at a2
      rw [← hbd] at hx2
      have a4 := abs_sub_abs_le_abs_sub c b
      rw [abs_sub_comm] at a4
      linarith
  obtain ⟨-, -, hsec⟩ := C86_sections (ofRounding_lawful hr m) hs n hn wn (some rp) none (some band)
    (some .chebyshevI) (some false) rfl fs hk hfz
  obtain ⟨s0, rest, hl, hlen, -⟩ := hsec hnear
  have hpn : f.p.length = n := by
    rw [hp, List.length_map, stepRange_sym_length]
  refine ⟨_, hl, ?_, ?_⟩
  · rw [← hpn, ← hlen]; simp
  · exact C87_stable_partial hr m hs n hn wn (some rp) none (some band) (some .chebyshevI) (some false) rfl fs hk hl hfz
      (δ := 0.44 * X) (by positivity) hin (by linarith) (by
        have a1 : (0.44 * X) ^ 2 = 0.1936 * X ^ 2 := by ring
        have a2 : 0 < X ^ 2 := by positivity
        have a3 := Se.u_le
        rw [a1]
        linarith)

/-- **C97**, end to end: if `4000 n κ² h` is at most the square of the margin, the request for sections is answered,
every section is stable, and filtering any bounded signal with them in a rounded arithmetic of sufficient precision
has a bounded error. -/
theorem C97_sections (hr : r.Nearest) (hm : m.Accurate r h) (hm2 : m.AccurateHyp r h) {s : Sorts} (hs : s.Correct)
    (n : ℕ) (hn : n ≠ 0) (rp : ℝ) (hrp : 0 < rp) (wn : List ℝ) (hW : ∀ w ∈ wn, r.rnd w = w) (band : Band)
    (hb : band = .lowpass ∨ band = .highpass) (fs : Option ℝ) (e : ℝ) (he : Spec.edges wn fs = [e]) (h0 : 0 < e)
    (h1 : e < 1) (Sh : Small r h h) (hh : 4000 * (n * rippleCond rp ^ 2 * h) ≤ chebMargin n rp e ^ 2) :
    ∃ l : List (Sos ℝ),
      Rounded.cheby1 (.ofRounding r m) s n rp wn (some band) (some false) (some .sos) fs = .ok (.sos l) ∧
      l.length = (n + 1) / 2 ∧ (∀ x ∈ l, Stable x) ∧
      ∃ K u0 : ℝ, 0 < u0 ∧ ∀ (r' : Rounding), r'.u ≤ u0 → ∀ L : ℝ, ∀ x : List ℝ, (∀ v ∈ x, |v| ≤ L) →
        ∀ i (_ : i < x.length),
        |((sosfiltDyn (x.map (Fl.mk (r := r'))) (l.map (flSection r'))).1.getD i 0).val
          - (sosfiltDyn x l).1.getD i 0| ≤ K * (r'.u * L + r'.t) := by
  obtain ⟨-, k1, -, -, -, -, g0, g1, -⟩ := ripple_facts hrp
  have hn1 : (1 : ℝ) ≤ n := by exact_mod_cast Nat.one_le_iff_ne_zero.mpr hn
  have hh0 := Sh.h_nonneg
  have h1e : 0 < 1 - e := by linarith
  have hκ : 1 ≤ rippleCond rp ^ 2 := one_le_pow₀ k1
  have hhK : h ≤ n * rippleCond rp ^ 2 * h := by
    have : 1 ≤ n * rippleCond rp ^ 2 := by nlinarith
    nlinarith
  have hn2 : (1 : ℝ) ≤ n ^ 2 := one_le_pow₀ hn1
  have hκ0 : 0 < rippleCond rp := by linarith
  have hnκ : 1 ≤ n ^ 2 * rippleCond rp := by nlinarith
  obtain ⟨X, hX⟩ : ∃ X, X = chebMargin n rp e := ⟨_, rfl⟩
  rw [← hX] at hh
  have hXd : X = e * (1 - e) * rippleFloor rp / (n ^ 2 * rippleCond rp) := hX
  have hX0 : 0 < X := by rw [hXd]; positivity
  have hXe' : X ≤ e * (1 - e) * rippleFloor rp := by
    rw [hXd]; exact div_le_self (by positivity) hnκ
  have hXe2 : X ≤ e * (1 - e) := hXe'.trans (mul_le_of_le_one_right (by positivity) g1)
  have hX4 : X ≤ 1 / 4 := by nlinarith [sq_nonneg (e - 1 / 2)]
  have hXe : X ≤ 1 - e := by nlinarith
  have hXX : X ^ 2 ≤ X / 4 := by nlinarith
  have hK : 4096 * (n * rippleCond rp ^ 2 * h) ≤ 1 - e := by linarith
  have hh' : h ≤ (1 - e) / 1024 := by linarith
  have hh2 : h ≤ 1 / 1024 := by linarith
  have hhX : 1000 * h ≤ X / 4 := by linarith
  have hErr : 220 * (n * rippleCond rp ^ 2 * h) / (1 - e) ≤ 0.055 * X := by
    rw [div_le_iff₀ h1e]
    nlinarith
  have S : Small r h (e * rippleFloor rp ^ 2 / (4 * n ^ 2 * rippleCond rp)) := by
    refine Sh.weaken ?_
    have a0 : 0 < n ^ 2 * rippleCond rp := by linarith
    have a1 : X ^ 2 ≤ e * rippleFloor rp ^ 2 / (n ^ 2 * rippleCond rp) := by
      rw [le_div_iff₀ a0]
      have b1 : X * (n ^ 2 * rippleCond rp) = e * (1 - e) * rippleFloor rp := by rw [hXd]; field_simp
      calc X ^ 2 * (n ^ 2 * rippleCond rp) = X * (X * (n ^ 2 * rippleCond rp)) := by ring
        _ ≤ (e * (1 - e) * rippleFloor rp) * (e * (1 - e) * rippleFloor rp) := by
            rw [b1]; exact mul_le_mul_of_nonneg_right hXe' (by positivity)
        _ = e * rippleFloor rp ^ 2 * (e * (1 - e) ^ 2) := by ring
        _ ≤ e * rippleFloor rp ^ 2 * 1 := by
            refine mul_le_mul_of_nonneg_left ?_ (by positivity)
            have : (1 - e) ^ 2 ≤ 1 := pow_le_one₀ h1e.le (by linarith)
            nlinarith
        _ = _ := mul_one _
    have a2 : e * rippleFloor rp ^ 2 / (4 * n ^ 2 * rippleCond rp) = e * rippleFloor rp ^ 2 / (n ^ 2 * rippleCond rp) / 4 := by
      field_simp
    rw [a2]
    linarith
  rw [hX] at hh
  exact cheb_sections hr hm hm2 hs n hn rp hrp wn hW band hb fs e he h0 h1 S hh

/-- **C97**, the assumption on the library can be met: the library that rounds the exact values is accurate. -/
theorem C97_library (hr : r.Nearest) (hu : r.u + r.t ≤ h) (eps : ℝ) (he : 0 ≤ eps) :
    (Libm.rounded r hr eps he).AccurateHyp r h where
  powf := fun y hy => by
    have h1 := r.err ((10 : ℝ) ^ y)
    have h2 : 1 ≤ (10 : ℝ) ^ y := Real.one_le_rpow (by norm_num) hy
    rw [abs_of_pos (by linarith : 0 < (10 : ℝ) ^ y)] at h1
    have h3 := mul_le_mul_of_nonneg_right hu (by linarith : 0 ≤ (10 : ℝ) ^ y)
    have h4 := mul_le_mul_of_nonneg_left h2 r.t_nonneg
    change |r.rnd ((10 : ℝ) ^ y) - (10 : ℝ) ^ y| ≤ _
    linarith
  asinh := fun y hy => by
    have h1 := r.err (Real.arsinh y)
    have h2 : 0 < Real.arsinh y := Real.arsinh_pos_iff.mpr hy
    rw [abs_of_pos h2] at h1
    have h3 := mul_le_mul_of_nonneg_right (by linarith [r.t_nonneg] : r.u ≤ h) h2.le
    exact h1.trans (by linarith)
  sinh := fun y hy => by
    have h1 := r.err (Real.sinh y)
    have h2 : 0 < Real.sinh y := Real.sinh_pos_iff.mpr hy
    rw [abs_of_pos h2] at h1
    have h3 := mul_le_mul_of_nonneg_right (by linarith [r.t_nonneg] : r.u ≤ h) h2.le
    exact h1.trans (by linarith)
  cosh := fun y _ => by
    have h1 := r.err (Real.cosh y)
    have h2 : 1 ≤ Real.cosh y := Real.one_le_cosh y
    rw [abs_of_pos (by linarith : 0 < Real.cosh y)] at h1
    have h3 := mul_le_mul_of_nonneg_right hu (by linarith : 0 ≤ Real.cosh y)
    have h4 := mul_le_mul_of_nonneg_left h2 r.t_nonneg
    change |r.rnd (Real.cosh y) - Real.cosh y| ≤ _
    linarith

/-- **C97** for `f64` with a library accurate to `2^-50`: Chebyshev I low-pass and high-pass filters are returned as
stable sections if `√n κ ≤ 2^19 X`, where `X` is the margin. -/
theorem C97_f64 (m : Libm) (hm : m.Accurate binary64 (1 / 2 ^ 50)) (hm2 : m.AccurateHyp binary64 (1 / 2 ^ 50))
    {s : Sorts} (hs : s.Correct) (n : ℕ) (hn : n ≠ 0) (rp : ℝ) (hrp : 0 < rp) (wn : List ℝ)
    (hW : ∀ w ∈ wn, binary64.rnd w = w) (band : Band) (hb : band = .lowpass ∨ band = .highpass)
    (fs : Option ℝ) (e : ℝ) (he : Spec.edges wn fs = [e]) (h0 : 0 < e) (h1 : e < 1)
    (hne : n * rippleCond rp ^ 2 ≤ 2 ^ 38 * chebMargin n rp e ^ 2) :
    ∃ l : List (Sos ℝ),
      Rounded.cheby1 (.ofRounding binary64 m) s n rp wn (some band) (some false) (some .sos) fs = .ok (.sos l) ∧
      l.length = (n + 1) / 2 ∧ ∀ x ∈ l, Stable x := by
  have Sh : Small binary64 (1 / 2 ^ 50) (1 / 2 ^ 50) := by
    have h1 : binary64.u = 2 ^ (-53 : ℤ) := rfl
    have h2 : binary64.t = 2 ^ (-1075 : ℤ) := rfl
    have h5 : (2 : ℝ) ^ (-1075 : ℤ) ≤ 2 ^ (-150 : ℤ) := zpow_le_zpow_right₀ (by norm_num) (by norm_num)
    have e1 : (2 : ℝ) ^ (-53 : ℤ) = 1 / 2 ^ 53 := by rw [zpow_neg]; norm_num
    have e3 : (2 : ℝ) ^ (-150 : ℤ) = 1 / 2 ^ 150 := by rw [zpow_neg]; norm_num
    rw [e3] at h5
    refine ⟨by rw [h1, e1]; norm_num, ?_, by norm_num⟩
    rw [h1, h2, e1]
    exact h5.trans (by norm_num)
  obtain ⟨l, a, b, c, -⟩ := C97_sections binary64_nearest hm hm2 hs n hn rp hrp wn hW band hb fs e he h0 h1 Sh (by
    have : 0 ≤ n * rippleCond rp ^ 2 := by positivity
    norm_num at hne ⊢
    linarith)
  exact ⟨l, a, b, c⟩

theorem libm64_accurateHyp : libm64.AccurateHyp binary64 (1 / 2 ^ 50) := by
  have h1 : binary64.u = 2 ^ (-53 : ℤ) := rfl
  have h2 : binary64.t = 2 ^ (-1075 : ℤ) := rfl
  have h5 : (2 : ℝ) ^ (-1075 : ℤ) ≤ 2 ^ (-100 : ℤ) := zpow_le_zpow_right₀ (by norm_num) (by norm_num)
  have e1 : (2 : ℝ) ^ (-53 : ℤ) = 1 / 2 ^ 53 := by rw [zpow_neg]; norm_num
  have e3 : (2 : ℝ) ^ (-100 : ℤ) = 1 / 2 ^ 100 := by rw [zpow_neg]; norm_num
  rw [e3] at h5
  refine C97_library binary64_nearest ?_ _ _
  rw [h1, h2, e1]
  refine (add_le_add_right h5 _).trans ?_
  norm_num

/-- The condition and the floor of a ripple of one decibel. -/
theorem one_decibel : rippleCond 1 ≤ 10 ∧ 0.88 ≤ rippleFloor 1 := by
  constructor
  · have : (10 : ℝ) ^ (-1 / 10 : ℝ) ≤ 0.8 := by
      have h1 : ((10 : ℝ) ^ (-1 / 10 : ℝ)) ^ 10 ≤ 0.8 ^ 10 := by
        rw [← Real.rpow_natCast, ← Real.rpow_mul (by norm_num)]
        norm_num
      exact (pow_le_pow_iff_left₀ (by positivity) (by norm_num) (by norm_num)).mp h1
    rw [rippleCond, div_le_iff₀ (by linarith)]
    linarith
  · have h1 : (0.88 : ℝ) ^ 20 ≤ ((10 : ℝ) ^ (-1 / 20 : ℝ)) ^ 20 := by
      rw [← Real.rpow_natCast ((10 : ℝ) ^ _), ← Real.rpow_mul (by norm_num)]
      norm_num
    rw [rippleFloor]
    exact (pow_le_pow_iff_left₀ (by norm_num) (by positivity) (by norm_num)).mp h1

/-- A fourth-order low-pass filter with a ripple of 1 dB and its edge at 10 Hz for signals sampled at 1 kHz, in
`f64`. -/
example {s : Sorts} (hs : s.Correct) : ∃ l : List (Sos ℝ),
    Rounded.cheby1 (.ofRounding binary64 libm64) s 4 1 [10] (some .lowpass) (some false) (some .sos) (some 1000)
      = .ok (.sos l) ∧ l.length = 2 ∧ ∀ x ∈ l, Stable x := by
  refine C97_f64 libm64 libm64_accurate libm64_accurateHyp hs 4 (by norm_num) 1 one_pos [10] (fun w hw => ?_)
    .lowpass (.inl rfl) (some 1000) (1 / 50) (by simp [Spec.edges]; norm_num) (by norm_num) (by norm_num) ?_
  · rw [List.mem_singleton.mp hw]
    have := Binary.rnd_int 53 (-1074) (by norm_num) 10 (by norm_num)
    exact_mod_cast this
  · obtain ⟨h1, h2⟩ := one_decibel
    obtain ⟨-, k1, -⟩ := ripple_facts one_pos
    have h3 : 1 / 10000 ≤ chebMargin 4 1 (1 / 50) := by
      rw [chebMargin, le_div_iff₀ (by push_cast; linarith)]
      push_cast
      linarith
    have h4 := pow_le_pow_left₀ (by norm_num) h3 2
    have h5 := pow_le_pow_left₀ (by linarith) h1 2
    push_cast
    norm_num at h4 ⊢
    linarith

end SciRs.Props

import Verif.Lemmas.Rounded.ChebGain
import Verif.Props.Rounded.ButterResponse
import Verif.Props.Rounded.ChebAccuracy

/-!
# C98: the frequency response of Chebyshev I filters designed in floating point

How far the gain and the frequency response of the computed filter, in both formats, are from those of the filter
designed without rounding, and so from the Chebyshev response.
-/

namespace SciRs.Props

open SciRs SciRs.Design SciRs.Spec SciRs.Rounded

variable {r : Rounding} {m : Libm} {h : ℝ}

/-- Both designs. -/
theorem cheb_both (hr : r.Nearest) (eps : ℝ) (s : Sorts) {n : ℕ} (hn : n ≠ 0) {rp : ℝ} (hrp : 0 < rp) {wn : List ℝ}
    (hW : ∀ w ∈ wn, r.rnd w = w) {band : Band} (hb : band = .lowpass ∨ band = .highpass) {fs : Option ℝ} {e : ℝ}
    (he : Spec.edges wn fs = [e]) (h1 : e < 1) (S : Small r h e) (hh : h ≤ (1 - e) / 1024) :
    ∃ f f0 : Zpk, ∃ e' : ℝ, |e' - e| ≤ h * e ∧
      Rounded.cheby1 (.ofRounding r m) s n rp wn (some band) (some false) (some .zpk) fs = .ok (.zpk f) ∧
      Design.cheby1 eps s n rp wn (some band) (some false) (some .zpk) fs = .ok (.zpk f0) ∧
      f.p = (stepRange (-(n : ℤ) + 1) n).map (fun j => flBilinear r (flCAnalog r m n rp band e' j)) ∧
      f0.p = (stepRange (-(n : ℤ) + 1) n).map (fun j =>
        (4 + exCAnalog n rp band e j) / (4 - exCAnalog n rp band e j)) ∧
      f.z = List.replicate n (((if band = .lowpass then -1 else 1 : ℝ)) : ℂ) ∧ f0.z = f.z ∧
      f.k = flCGain r m n rp band e' ∧ f0.k = exCGain n rp band e := by
  obtain ⟨e', he', hee⟩ := edge_err (m := m) S hr hW he
  have h0 := S.pos
  obtain ⟨a1, a2⟩ := abs_le.mp hee
  have b1 : h * e ≤ (1 - e) / 1024 * e := mul_le_mul_of_nonneg_right hh h0.le
  have hv : Valid (.ofRounding r m) wn (some rp) none band .chebyshevI false fs := by
    refine ⟨⟨?_, ?_, ?_, ?_, by simp, ?_, by simp, .inr (.inl ⟨rfl, rfl⟩)⟩, by simp⟩
    · rw [he', if_pos hb]; rfl
    · rw [he']; simp [Spec.edges]; nlinarith
    · rw [he']; simp [Spec.edges]
    · rw [he']; simp [Spec.edges]; nlinarith
    · rintro x ⟨⟩; exact hrp.le
  obtain ⟨f, hf⟩ := (Rounded.design_returns_iff (order := n)).mpr hv
  have he0 : Rounded.edges (.exact eps) wn fs = [e] := by rw [← he]; cases fs <;> rfl
  have hv0 : Valid (.exact eps) wn (some rp) none band .chebyshevI false fs := by
    refine ⟨⟨?_, ?_, ?_, ?_, by simp, ?_, by simp, .inr (.inl ⟨rfl, rfl⟩)⟩, by simp⟩
    · rw [he0, if_pos hb]; rfl
    · rw [he0]; simpa [Spec.edges] using h0
    · rw [he0]; simp [Spec.edges]
    · rw [he0]; simpa [Spec.edges] using h1
    · rintro x ⟨⟩; exact hrp.le
  obtain ⟨f0, hf0⟩ := (Rounded.design_returns_iff (order := n)).mpr hv0
  have hzk : Rounded.cheby1 (.ofRounding r m) s n rp wn (some band) (some false) (some .zpk) fs = .ok (.zpk f) := by
    rw [Rounded.cheby1, Rounded.iirfilter_eq]
    change (Rounded.design (.ofRounding r m) n wn (some rp) none band .chebyshevI false fs >>= _) = _
    rw [hf]
    rfl
  have hz : f.z = List.replicate n (((if band = .lowpass then -1 else 1 : ℝ)) : ℂ) := by
    have := C87_zeros hr m s n wn (some rp) none band (some .chebyshevI) (by simp) (some false) rfl fs hzk
    rcases hb with rfl | rfl
    · rw [this.1 rfl]; simp
    · rw [this.2.1 rfl]; simp
  refine ⟨f, f0, e', hee, hzk, ?_, cheb_poles_fl hn he' hb hf, cheb_poles_ex hn he hb hf0, hz, ?_,
    cheb_gain_fl hn he' hb hf, cheb_gain_ex hn he hb hf0⟩
  · have := C86_exact eps s n wn (some rp) none (some band) (some .chebyshevI) (some false) (some .zpk) fs
    rw [Design.cheby1, ← this, Rounded.iirfilter_eq]
    change (Rounded.design (.exact eps) n wn (some rp) none band .chebyshevI false fs >>= _) = _
    rw [hf0]
    rfl
  · rw [hz, cheb_zeros hn he0 hb hf0]
    congr 1
    split
    · simp
    · change ((((2 * 2 : ℝ)) : ℂ) + 0) / ((((2 * 2 : ℝ)) : ℂ) - 0) = _
      simp

/-- What the request says about the margin. -/
theorem cheb_margin_sizes {e : ℝ} (h0 : 0 < e) (h1 : e < 1) {n : ℕ} (hn : n ≠ 0) {rp : ℝ} (hrp : 0 < rp) {X : ℝ}
    (hX : X = chebMargin n rp e) : 0 < X ∧ X ≤ 1 / 4 ∧ X ≤ 1 - e ∧ X ≤ e := by
  obtain ⟨-, k1, -, -, -, -, g0, g1, -⟩ := ripple_facts hrp
  have hn1 : (1 : ℝ) ≤ n := by exact_mod_cast Nat.one_le_iff_ne_zero.mpr hn
  have h1e : 0 < 1 - e := by linarith
  have hn2 : (1 : ℝ) ≤ n ^ 2 := one_le_pow₀ hn1
  have hκ0 : 0 < rippleCond rp := by linarith
  have hnκ : 1 ≤ n ^ 2 * rippleCond rp := by nlinarith
  have hXd : X = e * (1 - e) * rippleFloor rp / (n ^ 2 * rippleCond rp) := hX
  have hX0 : 0 < X := by rw [hXd]; positivity
  have hXe' : X ≤ e * (1 - e) * rippleFloor rp := by
    rw [hXd]; exact div_le_self (by positivity) hnκ
  have hXe2 : X ≤ e * (1 - e) := hXe'.trans (mul_le_of_le_one_right (by positivity) g1)
  refine ⟨hX0, ?_, ?_, ?_⟩
  · nlinarith [sq_nonneg (e - 1 / 2)]
  · nlinarith
  · nlinarith

theorem small_edge {σ e : ℝ} {n : ℕ} (hn : n ≠ 0) {rp : ℝ} (hrp : 0 < rp) (h0 : 0 < e) (h1 : e < 1)
    (hσ : σ = (rippleFloor rp * chebMargin n rp e / 20) ^ n) (S : Small r h σ) :
    Small r h (e * rippleFloor rp ^ 2 / (4 * n ^ 2 * rippleCond rp)) ∧ Small r h e ∧ σ ≤ 1 / 4 := by
  obtain ⟨-, k1, -, -, -, -, g0, g1, -⟩ := ripple_facts hrp
  have hn1 : (1 : ℝ) ≤ n := by exact_mod_cast Nat.one_le_iff_ne_zero.mpr hn
  have hw0 : 0 < exWarp e := by
    rw [exWarp]
    have hpi := Real.pi_pos
    have : 0 < Real.tan (Real.pi * e / 2) := Real.tan_pos_of_pos_of_lt_pi_div_two (by positivity) (by nlinarith)
    linarith
  obtain ⟨b1, b2, s3, s4, -⟩ := cheb_sizes h0 h1 hw0 hn hrp rfl rfl hσ
  have s5 : e * rippleFloor rp ^ 2 / (4 * n ^ 2 * rippleCond rp) ≤ e := by
    rw [div_le_iff₀ (by positivity)]
    have a1 : rippleFloor rp ^ 2 ≤ 1 := pow_le_one₀ g0.le g1
    have a2 : (1 : ℝ) ≤ n ^ 2 := one_le_pow₀ hn1
    have a3 : 1 ≤ 4 * n ^ 2 * rippleCond rp := by nlinarith
    nlinarith
  refine ⟨S.weaken s3, S.weaken (s3.trans s5), ?_⟩
  nlinarith

/-- **C98**, the gain: for a Chebyshev I low-pass or high-pass request whose gain does not underflow, the computed
gain has a relative error of at most `640 n² κ² h / (1 - e)`. -/
theorem C98_gain (hr : r.Nearest) (hm : m.Accurate r h) (hm2 : m.AccurateHyp r h) (eps : ℝ) (s : Sorts) (n : ℕ)
    (hn : n ≠ 0) (rp : ℝ) (hrp : 0 < rp) (wn : List ℝ) (hW : ∀ w ∈ wn, r.rnd w = w) (band : Band)
    (hb : band = .lowpass ∨ band = .highpass) (fs : Option ℝ) (e : ℝ) (he : Spec.edges wn fs = [e]) (h0 : 0 < e)
    (h1 : e < 1) (S : Small r h ((rippleFloor rp * chebMargin n rp e / 20) ^ n))
    (hh : 4096 * (n ^ 2 * rippleCond rp ^ 2 * h) ≤ 1 - e) :
    ∃ f f0 : Zpk,
      Rounded.cheby1 (.ofRounding r m) s n rp wn (some band) (some false) (some .zpk) fs = .ok (.zpk f) ∧
      Design.cheby1 eps s n rp wn (some band) (some false) (some .zpk) fs = .ok (.zpk f0) ∧
      f.z = f0.z ∧ f0.k ≠ 0 ∧ |f.k - f0.k| ≤ 640 * (n ^ 2 * rippleCond rp ^ 2 * h) / (1 - e) * |f0.k| := by
  obtain ⟨-, k1, -, -, -, -, g0, g1, -⟩ := ripple_facts hrp
  have hn1 : (1 : ℝ) ≤ n := by exact_mod_cast Nat.one_le_iff_ne_zero.mpr hn
  have hh0 := S.h_nonneg
  have h1e : 0 < 1 - e := by linarith
  obtain ⟨-, Se, -⟩ := small_edge hn hrp h0 h1 rfl S
  have hle : h ≤ n ^ 2 * rippleCond rp ^ 2 * h := by
    have : 1 ≤ n ^ 2 * rippleCond rp ^ 2 := one_le_mul_of_one_le_of_one_le (one_le_pow₀ hn1) (one_le_pow₀ k1)
    nlinarith
  obtain ⟨f, f0, e', hee, hf, hf0, -, -, -, hz, hk, hk0⟩ :=
    cheb_both (m := m) hr eps s hn hrp hW hb he h1 Se (by linarith)
  have e1 : n * (4 * (n * rippleCond rp ^ 2 * h) / (1 - e)) = 4 * (n ^ 2 * rippleCond rp ^ 2 * h) / (1 - e) := by ring
  obtain ⟨q1, q2⟩ := cheb_gain_err (m := m) hn hrp h0 h1 S hr hee hm hm2 hb rfl (by
    rw [e1, div_le_iff₀ h1e]; linarith)
  refine ⟨f, f0, hf, hf0, hz.symm, by rw [hk0]; exact q1, ?_⟩
  rw [hk, hk0]
  refine q2.trans (le_of_eq ?_)
  rw [e1]
  ring

/-- The poles and what follows from the assumption on the order. -/
theorem cheb_close (hr : r.Nearest) (hm : m.Accurate r h) (hm2 : m.AccurateHyp r h) (eps : ℝ) (s : Sorts) {n : ℕ}
    (hn : n ≠ 0) {rp : ℝ} (hrp : 0 < rp) {wn : List ℝ}
    (hW : ∀ w ∈ wn, r.rnd w = w) {band : Band} (hb : band = .lowpass ∨ band = .highpass) {fs : Option ℝ} {e : ℝ}
    (he : Spec.edges wn fs = [e]) (h0 : 0 < e) (h1 : e < 1)
    (S : Small r h ((rippleFloor rp * chebMargin n rp e / 20) ^ n))
    {X : ℝ} (hX : X = chebMargin n rp e) {H : ℝ} (hH : H = 4 * (n * rippleCond rp ^ 2 * h) / (1 - e))
    (hh : 2000 * (n * H) ≤ X) :
    ∃ f f0 : Zpk,
      Rounded.cheby1 (.ofRounding r m) s n rp wn (some band) (some false) (some .zpk) fs = .ok (.zpk f) ∧
      Design.cheby1 eps s n rp wn (some band) (some false) (some .zpk) fs = .ok (.zpk f0) ∧
      f.z = List.replicate n (((if band = .lowpass then -1 else 1 : ℝ)) : ℂ) ∧ f.p.length = n ∧
      (∀ p ∈ f.p, ‖p‖ ≤ 1 - 0.44 * X) ∧
      ∀ x : ℂ, ‖x‖ = 1 → ‖f.eval x - f0.eval x‖ ≤ 185 * (n * H / X) * ‖f0.eval x‖ := by
  obtain ⟨-, k1, -, -, -, -, g0, g1, -⟩ := ripple_facts hrp
  have hn1 : (1 : ℝ) ≤ n := by exact_mod_cast Nat.one_le_iff_ne_zero.mpr hn
  have hh0 := S.h_nonneg
  have h1e : 0 < 1 - e := by linarith
  obtain ⟨S3, Se, -⟩ := small_edge hn hrp h0 h1 rfl S
  obtain ⟨hX0, hX4, hXe, -⟩ := cheb_margin_sizes h0 h1 hn hrp hX
  have hH0 : 0 ≤ H := by rw [hH]; positivity
  have hHη : H ≤ n * H := by nlinarith
  have hK : 4096 * (n * rippleCond rp ^ 2 * h) ≤ 1 - e := by
    have : H ≤ 1 / 1024 := by linarith
    rw [hH, div_le_iff₀ h1e] at this
    linarith
  have hle : h ≤ n * rippleCond rp ^ 2 * h := by
    have : 1 ≤ n * rippleCond rp ^ 2 := one_le_mul_of_one_le_of_one_le hn1 (one_le_pow₀ k1)
    nlinarith
  obtain ⟨f, f0, e', hee, hf, hf0, hp, hp0, hz, hz0, hk, hk0⟩ :=
    cheb_both (m := m) hr eps s hn hrp hW hb he h1 Se (by linarith)
  obtain ⟨-, k2⟩ := cheb_gain_err (m := m) hn hrp h0 h1 S hr hee hm hm2 hb hH (by linarith)
  rw [← hk, ← hk0] at k2
  have perr : ∀ j ∈ stepRange (-(n : ℤ) + 1) n, ‖flBilinear r (flCAnalog r m n rp band e' j) -
      (4 + exCAnalog n rp band e j) / (4 - exCAnalog n rp band e j)‖ ≤ 55 * H := by
    intro j hj
    refine (cheb_pole_err hn hrp S3 hr h0 h1 hee hK hm hm2 hj).trans (le_of_eq ?_)
    rw [hH]; ring
  have pin0 : ∀ j ∈ stepRange (-(n : ℤ) + 1) n,
      ‖(4 + exCAnalog n rp band e j) / (4 - exCAnalog n rp band e j)‖ ≤ 1 - X / 2 := by
    intro j hj
    exact (cheb_margin hn hrp band h0 h1 hj hX).2.1
  have pin : ∀ j ∈ stepRange (-(n : ℤ) + 1) n, ‖flBilinear r (flCAnalog r m n rp band e' j)‖ ≤ 1 - 0.44 * X := by
    intro j hj
    have := norm_add_le (flBilinear r (flCAnalog r m n rp band e' j) -
      (4 + exCAnalog n rp band e j) / (4 - exCAnalog n rp band e j))
      ((4 + exCAnalog n rp band e j) / (4 - exCAnalog n rp band e j))
    rw [sub_add_cancel] at this
    have := perr j hj
    have := pin0 j hj
    linarith
  refine ⟨f, f0, hf, hf0, hz, by rw [hp, List.length_map, stepRange_sym_length], ?_, fun x hx => ?_⟩
  · intro p hpm
    rw [hp] at hpm
    obtain ⟨j, hj, rfl⟩ := List.mem_map.mp hpm
    exact pin j hj
  · obtain ⟨c, hc⟩ : ∃ c, c = 125 * (H / X) := ⟨_, rfl⟩
    have hc0 : 0 ≤ c := by rw [hc]; positivity
    have hcd : 55 * H = c * (0.44 * X) := by rw [hc]; field_simp; ring
    have k := eval_err hz0.symm hp hp0 (x := x) (c := c) (d := 0.44 * X) (a := 160 * (n * H)) hc0 (by positivity)
      (fun j hj => by
        have := norm_sub_norm_le x (flBilinear r (flCAnalog r m n rp band e' j))
        have := pin j hj
        linarith)
      (fun j hj hxe => by
        have := pin0 j hj
        rw [← hxe, hx] at this
        linarith)
      (fun j hj => by rw [← hcd]; exact perr j hj) (by positivity) k2
    rw [stepRange_sym_length] at k
    refine k.trans (mul_le_mul_of_nonneg_right ?_ (norm_nonneg _))
    obtain ⟨ν, hν⟩ : ∃ ν, ν = n * H / X := ⟨_, rfl⟩
    have hν0 : 0 ≤ ν := by rw [hν]; positivity
    have hν1 : 2000 * ν ≤ 1 := by
      rw [hν, mul_div_assoc', div_le_one hX0]
      exact hh
    have hnc : n * c = 125 * ν := by rw [hc, hν]; ring
    have hnH : n * H = ν * X := by rw [hν]; field_simp
    have hp1 := one_add_pow_le hc0 (n := n) (by rw [hnc]; linarith)
    rw [hnc] at hp1
    rw [← hν, hnH]
    have i1 : ν * X ≤ ν * (1 / 4) := mul_le_mul_of_nonneg_left hX4 hν0
    have i0 : 0 ≤ ν * X := by positivity
    have i2 : 160 * (ν * X) * ((1 + c) ^ n - 1) ≤ 160 * (ν * (1 / 4)) * (1.1 * (125 * ν)) :=
      mul_le_mul (by linarith) (by linarith) (sub_nonneg.mpr (one_le_pow₀ (by linarith))) (by positivity)
    nlinarith

/-- **C98**, the frequency response of the zeros, poles and gain: at every frequency the computed filter has the
response of the filter designed without rounding, up to the relative error `740 n² κ² h / ((1 - e) X)`, where `X` is
the margin. -/
theorem C98_zpk_response (hr : r.Nearest) (hm : m.Accurate r h) (hm2 : m.AccurateHyp r h) (eps : ℝ) (s : Sorts)
    (n : ℕ) (hn : n ≠ 0) (rp : ℝ) (hrp : 0 < rp) (wn : List ℝ) (hW : ∀ w ∈ wn, r.rnd w = w) (band : Band)
    (hb : band = .lowpass ∨ band = .highpass) (fs : Option ℝ) (e : ℝ) (he : Spec.edges wn fs = [e]) (h0 : 0 < e)
    (h1 : e < 1) (S : Small r h ((rippleFloor rp * chebMargin n rp e / 20) ^ n))
    (hh : 8000 * (n ^ 2 * rippleCond rp ^ 2 * h) ≤ (1 - e) * chebMargin n rp e) :
    ∃ f f0 : Zpk,
      Rounded.cheby1 (.ofRounding r m) s n rp wn (some band) (some false) (some .zpk) fs = .ok (.zpk f) ∧
      Design.cheby1 eps s n rp wn (some band) (some false) (some .zpk) fs = .ok (.zpk f0) ∧
      ∀ x : ℂ, ‖x‖ = 1 → ‖f.eval x - f0.eval x‖ ≤
        740 * (n ^ 2 * rippleCond rp ^ 2 * h / ((1 - e) * chebMargin n rp e)) * ‖f0.eval x‖ := by
  have h1e : 0 < 1 - e := by linarith
  obtain ⟨f, f0, hf, hf0, -, -, -, H⟩ := cheb_close hr hm hm2 eps s hn hrp hW hb he h0 h1 S rfl rfl (by
    rw [← mul_div_assoc, mul_div_assoc', div_le_iff₀ h1e]
    linarith)
  refine ⟨f, f0, hf, hf0, fun x hx => (H x hx).trans (le_of_eq ?_)⟩
  obtain ⟨hX0, -⟩ := cheb_margin_sizes h0 h1 hn hrp rfl
  congr 1
  field_simp
  ring

set_option maxHeartbeats 800000 in
/-- **C98**, the frequency response of the sections: at every frequency the sections computed in floating point have
the response of the filter designed without rounding, up to the relative error `800 n² κ² h / X²`. -/
theorem C98_sections_response (hr : r.Nearest) (hm : m.Accurate r h) (hm2 : m.AccurateHyp r h) (eps : ℝ) {s : Sorts}
    (hs : s.Correct) (n : ℕ) (hn : n ≠ 0) (rp : ℝ) (hrp : 0 < rp) (wn : List ℝ) (hW : ∀ w ∈ wn, r.rnd w = w)
    (band : Band) (hb : band = .lowpass ∨ band = .highpass)
    (fs : Option ℝ) (e : ℝ) (he : Spec.edges wn fs = [e]) (h0 : 0 < e) (h1 : e < 1)
    (S : Small r h ((rippleFloor rp * chebMargin n rp e / 20) ^ n))
    (hh : 8000 * (n ^ 2 * rippleCond rp ^ 2 * h) ≤ chebMargin n rp e ^ 2) :
    ∃ (l : List (Sos ℝ)) (f0 : Zpk),
      Rounded.cheby1 (.ofRounding r m) s n rp wn (some band) (some false) (some .sos) fs = .ok (.sos l) ∧
      Design.cheby1 eps s n rp wn (some band) (some false) (some .zpk) fs = .ok (.zpk f0) ∧
      (∀ x ∈ l, Stable x) ∧
      ∀ ω : ℝ, ‖freqResponse l ω - f0.eval (Complex.exp (Complex.I * ω))‖ ≤
        800 * (n ^ 2 * rippleCond rp ^ 2 * h / chebMargin n rp e ^ 2) *
          ‖f0.eval (Complex.exp (Complex.I * ω))‖ := by
  obtain ⟨-, k1, -, -, -, -, g0, g1, -⟩ := ripple_facts hrp
  have hn1 : (1 : ℝ) ≤ n := by exact_mod_cast Nat.one_le_iff_ne_zero.mpr hn
  have hn0 : (0 : ℝ) < n := by linarith
  have hh0 := S.h_nonneg
  have h1e : 0 < 1 - e := by linarith
  obtain ⟨S3, -, s1⟩ := small_edge hn hrp h0 h1 rfl S
  obtain ⟨X, hX⟩ : ∃ X, X = chebMargin n rp e := ⟨_, rfl⟩
  obtain ⟨hX0, hX4, hXe, -⟩ := cheb_margin_sizes h0 h1 hn hrp hX
  obtain ⟨K, hK⟩ : ∃ K, K = n * rippleCond rp ^ 2 * h := ⟨_, rfl⟩
  have hnK : n ^ 2 * rippleCond rp ^ 2 * h = n * K := by rw [hK]; ring
  have hK0 : 0 ≤ K := by rw [hK]; positivity
  have hhK : h ≤ K := by
    rw [hK]
    have : 1 ≤ n * rippleCond rp ^ 2 := one_le_mul_of_one_le_of_one_le hn1 (one_le_pow₀ k1)
    nlinarith
  have hKn : K ≤ n * K := by nlinarith
  rw [hnK, ← hX] at hh ⊢
  obtain ⟨μ, hμ⟩ : ∃ μ, μ = n * K / X ^ 2 := ⟨_, rfl⟩
  have hX2 : 0 < X ^ 2 := by positivity
  have hμ' : n * K = μ * X ^ 2 := by rw [hμ]; field_simp
  have hμ0 : 0 ≤ μ := by rw [hμ]; positivity
  have hμ1 : 8000 * μ ≤ 1 := by
    rw [hμ, mul_div_assoc', div_le_one hX2]
    exact hh
  have hnh : n * h ≤ n * K := mul_le_mul_of_nonneg_left hhK hn0.le
  have hν : n * (4 * K / (1 - e)) ≤ 4 * (μ * X) := by
    rw [← mul_div_assoc, div_le_iff₀ h1e]
    have e1 : n * (4 * K) = 4 * (μ * X ^ 2) := by rw [← hμ']; ring
    rw [e1]
    have : μ * X * X ≤ μ * X * (1 - e) := mul_le_mul_of_nonneg_left hXe (by positivity)
    linarith
  obtain ⟨f, f0, hf, hf0, hz, hpn, hin, H⟩ := cheb_close hr hm hm2 eps s hn hrp hW hb he h0 h1 S hX rfl (by
    rw [← hK]
    have : μ * X ≤ 1 / 8000 * X := mul_le_mul_of_nonneg_right (by linarith) hX0.le
    linarith)
  rw [← hK] at H
  obtain ⟨l, hl, -, hst, -⟩ := cheb_sections hr hm hm2 hs n hn rp hrp wn hW band hb fs e he h0 h1 S3 (by
    rw [← hK, ← hX]; linarith)
  refine ⟨l, f0, hl, hf0, hst, fun ω => ?_⟩
  rw [← hμ]
  have hx1 : ‖Complex.exp (Complex.I * ω)‖ = 1 := by rw [mul_comm]; exact Complex.norm_exp_ofReal_mul_I ω
  have A1 := H _ hx1
  have A2 := sections_response S (by linarith) hr hs hn (ftype := .chebyshevI) (by simp [KeepsPairs]) hl hf
    (τ := if band = .lowpass then -1 else 1) (by split <;> simp) hz hpn (δ := 0.44 * X) (by positivity) hin (by
      have : (0.44 * X) ^ 2 = 0.1936 * X ^ 2 := by ring
      rw [this]
      linarith) ω
  obtain ⟨G, hG⟩ : ∃ G, G = f0.eval (Complex.exp (Complex.I * ω)) := ⟨_, rfl⟩
  obtain ⟨F, hF⟩ : ∃ F, F = f.eval (Complex.exp (Complex.I * ω)) := ⟨_, rfl⟩
  rw [← hG] at A1 ⊢
  rw [← hF] at A1 A2
  have hc : 5.16 * h / (0.44 * X) ^ 2 ≤ 26.7 * (h / X ^ 2) := by
    have : (0.44 * X) ^ 2 = 0.1936 * X ^ 2 := by ring
    rw [this, ← mul_div_assoc, div_le_div_iff₀ (by positivity) hX2]
    have : 0 ≤ h * X ^ 2 := by positivity
    linarith
  have hhμ : n * (h / X ^ 2) ≤ μ := by
    rw [mul_div_assoc', hμ]; exact div_le_div_of_nonneg_right hnh hX2.le
  have e1 : n * (26.7 * (h / X ^ 2)) = 26.7 * (n * (h / X ^ 2)) := by ring
  have hp := one_add_pow_le (κ := 26.7 * (h / X ^ 2)) (by positivity) (n := n) (by
    rw [e1]
    linarith)
  rw [e1] at hp
  have hpp : (1 + 5.16 * h / (0.44 * X) ^ 2) ^ n ≤ (1 + 26.7 * (h / X ^ 2)) ^ n :=
    pow_le_pow_left₀ (by positivity) (by linarith) n
  have A3 : ‖freqResponse l ω - F‖ ≤ 29.4 * μ * ‖F‖ :=
    A2.trans (mul_le_mul_of_nonneg_right (by linarith) (norm_nonneg _))
  have A4 : ‖F - G‖ ≤ 740 * μ * ‖G‖ := by
    refine A1.trans (mul_le_mul_of_nonneg_right ?_ (norm_nonneg _))
    have : n * (4 * K / (1 - e)) / X ≤ 4 * μ := by rw [div_le_iff₀ hX0]; linarith
    linarith
  have A5 : ‖F‖ ≤ 1.1 * ‖G‖ := by
    have := norm_add_le (F - G) G
    rw [sub_add_cancel] at this
    have : μ * ‖G‖ ≤ 1 / 8000 * ‖G‖ := mul_le_mul_of_nonneg_right (by linarith) (norm_nonneg _)
    have := norm_nonneg G
    linarith
  have A6 : 29.4 * μ * ‖F‖ ≤ 29.4 * μ * (1.1 * ‖G‖) := mul_le_mul_of_nonneg_left A5 (by positivity)
  have A7 := norm_add_le (freqResponse l ω - F) (F - G)
  rw [sub_add_sub_cancel] at A7
  have A8 : 0 ≤ μ * ‖G‖ := by positivity
  linarith

/-- **C98** for low-pass filters: the amplitude response of the computed sections is the Chebyshev response
`√(cheb1Power n rp (tan(ω/2) / tan(πe/2)))` up to the relative error `800 n² κ² h / X²`. -/
theorem C98_lowpass (hr : r.Nearest) (hm : m.Accurate r h) (hm2 : m.AccurateHyp r h) {s : Sorts} (hs : s.Correct)
    (n : ℕ) (hn : n ≠ 0) (rp : ℝ) (hrp : 0 < rp) (w : ℝ) (hw : r.rnd w = w) (fs : Option ℝ) (e : ℝ)
    (he : Spec.edges [w] fs = [e]) (h0 : 0 < e) (h1 : e < 1)
    (S : Small r h ((rippleFloor rp * chebMargin n rp e / 20) ^ n))
    (hh : 8000 * (n ^ 2 * rippleCond rp ^ 2 * h) ≤ chebMargin n rp e ^ 2) :
    ∃ l : List (Sos ℝ),
      Rounded.cheby1 (.ofRounding r m) s n rp [w] (some .lowpass) (some false) (some .sos) fs = .ok (.sos l) ∧
      (∀ x ∈ l, Stable x) ∧
      ∀ ω : ℝ, |ω| < Real.pi →
        |‖freqResponse l ω‖ - √(cheb1Power n rp (Real.tan (ω / 2) / Real.tan (Real.pi * e / 2)))| ≤
          800 * (n ^ 2 * rippleCond rp ^ 2 * h / chebMargin n rp e ^ 2) *
            √(cheb1Power n rp (Real.tan (ω / 2) / Real.tan (Real.pi * e / 2))) := by
  obtain ⟨l, f0, hl, hf0, hst, H⟩ := C98_sections_response hr hm hm2 0 hs n hn rp hrp [w] (by simpa using hw) .lowpass
    (.inl rfl) fs e he h0 h1 S hh
  obtain ⟨d, hd, -, hD, -⟩ := (C63_lowpass_highpass (eps := 0) (s := s) n hn rp hrp w e fs (some false) (.inr rfl) he
    h0 h1).1
  have : d = f0 := by
    rw [hf0] at hd
    simpa using hd.symm
  subst this
  exact ⟨l, hl, hst, fun ω hω => abs_norm_sub_le (H ω) (hD ω hω)⟩

/-- **C98** for high-pass filters. -/
theorem C98_highpass (hr : r.Nearest) (hm : m.Accurate r h) (hm2 : m.AccurateHyp r h) {s : Sorts} (hs : s.Correct)
    (n : ℕ) (hn : n ≠ 0) (rp : ℝ) (hrp : 0 < rp) (w : ℝ) (hw : r.rnd w = w) (fs : Option ℝ) (e : ℝ)
    (he : Spec.edges [w] fs = [e]) (h0 : 0 < e) (h1 : e < 1)
    (S : Small r h ((rippleFloor rp * chebMargin n rp e / 20) ^ n))
    (hh : 8000 * (n ^ 2 * rippleCond rp ^ 2 * h) ≤ chebMargin n rp e ^ 2) :
    ∃ l : List (Sos ℝ),
      Rounded.cheby1 (.ofRounding r m) s n rp [w] (some .highpass) (some false) (some .sos) fs = .ok (.sos l) ∧
      (∀ x ∈ l, Stable x) ∧
      ∀ ω : ℝ, 0 < |ω| → |ω| < Real.pi →
        |‖freqResponse l ω‖ - √(cheb1Power n rp (Real.tan (Real.pi * e / 2) / Real.tan (ω / 2)))| ≤
          800 * (n ^ 2 * rippleCond rp ^ 2 * h / chebMargin n rp e ^ 2) *
            √(cheb1Power n rp (Real.tan (Real.pi * e / 2) / Real.tan (ω / 2))) := by
  obtain ⟨l, f0, hl, hf0, hst, H⟩ := C98_sections_response hr hm hm2 0 hs n hn rp hrp [w] (by simpa using hw) .highpass
    (.inr rfl) fs e he h0 h1 S hh
  obtain ⟨d, hd, -, hD, -⟩ := (C63_lowpass_highpass (eps := 0) (s := s) n hn rp hrp w e fs (some false) (.inr rfl) he
    h0 h1).2
  have : d = f0 := by
    rw [hf0] at hd
    simpa using hd.symm
  subst this
  exact ⟨l, hl, hst, fun ω hω0 hω => abs_norm_sub_le (H ω) (hD ω hω0 hω)⟩

/-- **C98** for `f64` with a library accurate to `2^-50`: a low-pass filter of order 4 with a ripple of one decibel
and its edge at 100 Hz for signals sampled at 1 kHz has the Chebyshev response up to `0.2 %` at every frequency. -/
theorem C98_example {s : Sorts} (hs : s.Correct) : ∃ l : List (Sos ℝ),
    Rounded.cheby1 (.ofRounding binary64 libm64) s 4 1 [100] (some .lowpass) (some false) (some .sos) (some 1000)
      = .ok (.sos l) ∧ (∀ x ∈ l, Stable x) ∧
      ∀ ω : ℝ, |ω| < Real.pi →
        |‖freqResponse l ω‖ - √(cheb1Power 4 1 (Real.tan (ω / 2) / Real.tan (Real.pi * (1 / 5) / 2)))| ≤
          2 / 1000 * √(cheb1Power 4 1 (Real.tan (ω / 2) / Real.tan (Real.pi * (1 / 5) / 2))) := by
  obtain ⟨h1, h2⟩ := one_decibel
  obtain ⟨-, k1, -⟩ := ripple_facts one_pos
  have h3 : 0.00088 ≤ chebMargin 4 1 (1 / 5) := by
    rw [chebMargin, le_div_iff₀ (by push_cast; linarith)]
    push_cast
    linarith
  have h4 := pow_le_pow_left₀ (by norm_num) h3 2
  have h5 := pow_le_pow_left₀ (by linarith) h1 2
  have hσ : (2 : ℝ) ^ (-1000 : ℤ) ≤ (rippleFloor 1 * chebMargin 4 1 (1 / 5) / 20) ^ 4 := by
    have g1 : (2 : ℝ) ^ (-1000 : ℤ) ≤ 2 ^ (-100 : ℤ) := zpow_le_zpow_right₀ (by norm_num) (by norm_num)
    have g2 : (0.88 * 0.00088 / 20 : ℝ) ≤ rippleFloor 1 * chebMargin 4 1 (1 / 5) / 20 :=
      div_le_div_of_nonneg_right (mul_le_mul h2 h3 (by norm_num) (by linarith)) (by norm_num)
    refine g1.trans (le_trans ?_ (pow_le_pow_left₀ (by norm_num) g2 4))
    rw [zpow_neg]
    norm_num
  have hw : binary64.rnd 100 = 100 := by
    have := Binary.rnd_int 53 (-1074) (by norm_num) 100 (by norm_num)
    exact_mod_cast this
  obtain ⟨l, hl, hst, H⟩ := C98_lowpass binary64_nearest libm64_accurate libm64_accurateHyp hs 4 (by norm_num) 1 one_pos
    100 hw (some 1000) (1 / 5) (by simp [Spec.edges]; norm_num) (by norm_num) (by norm_num) (binary64_small_pow hσ) (by
      push_cast
      norm_num at h4 h5 ⊢
      linarith)
  refine ⟨l, hl, hst, fun ω hω => (H ω hω).trans (mul_le_mul_of_nonneg_right ?_ (Real.sqrt_nonneg _))⟩
  rw [← mul_div_assoc, div_le_iff₀ (by linarith)]
  push_cast
  norm_num at h4 h5 ⊢
  linarith

end SciRs.Props

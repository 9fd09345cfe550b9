import Verif.Lemmas.Rounded.Response
import Verif.Props.Rounded.ButterAccuracy
import Verif.Props.Design.Response
import Verif.Spec.FrequencyResponse

/-!
# C91: the frequency response of Butterworth filters designed in floating point

How far the gain and the frequency response of the computed filter, in both formats, are from those of the filter
designed without rounding, and so from the Butterworth response.
-/

namespace SciRs.Props

open SciRs SciRs.Design SciRs.Spec SciRs.Rounded

variable {r : Rounding} {m : Libm} {h : ℝ}

/-- Both designs. -/
theorem butter_both (hr : r.Nearest) (eps : ℝ) (s : Sorts) {n : ℕ} {wn : List ℝ}
    (hW : ∀ w ∈ wn, r.rnd w = w) {band : Band} (hb : band = .lowpass ∨ band = .highpass) {fs : Option ℝ} {e : ℝ}
    (he : Spec.edges wn fs = [e]) (h1 : e < 1) (S : Small r h e) (hh : h ≤ (1 - e) / 1024) :
    ∃ f f0 : Zpk, ∃ e' : ℝ, |e' - e| ≤ h * e ∧
      Rounded.butter (.ofRounding r m) s n wn (some band) none (some .zpk) fs = .ok (.zpk f) ∧
      Design.butter eps s n wn (some band) none (some .zpk) fs = .ok (.zpk f0) ∧
      f.p = (stepRange (-(n : ℤ) + 1) n).map (fun j => flBilinear r (flAnalog r m n band e' j)) ∧
      f0.p = (stepRange (-(n : ℤ) + 1) n).map (fun j => (4 + exAnalog n band e j) / (4 - exAnalog n band e j)) ∧
      f.z = List.replicate n (((if band = .lowpass then -1 else 1 : ℝ)) : ℂ) ∧ f0.z = f.z ∧
      f.k = flGain r m n band e' ∧ f0.k = exGain n band e := by
  obtain ⟨e', he', hee⟩ := edge_err (m := m) S hr hW he
  have h0 := S.pos
  obtain ⟨a1, a2⟩ := abs_le.mp hee
  have b1 : h * e ≤ (1 - e) / 1024 * e := mul_le_mul_of_nonneg_right hh h0.le
  have hv : Valid (.ofRounding r m) wn none none band .butterworth false fs := by
    refine ⟨⟨?_, ?_, ?_, ?_, by simp, by simp, by simp, .inl rfl⟩, by simp⟩
    · rw [he', if_pos hb]; rfl
    · rw [he']; simp [Spec.edges]; nlinarith
    · rw [he']; simp [Spec.edges]
    · rw [he']; simp [Spec.edges]; nlinarith
  obtain ⟨f, hf⟩ := (Rounded.design_returns_iff (order := n)).mpr hv
  have he0 : Rounded.edges (.exact eps) wn fs = [e] := by rw [← he]; cases fs <;> rfl
  have hv0 : Valid (.exact eps) wn none none band .butterworth false fs := by
    refine ⟨⟨?_, ?_, ?_, ?_, by simp, by simp, by simp, .inl rfl⟩, by simp⟩
    · rw [he0, if_pos hb]; rfl
    · rw [he0]; simpa [Spec.edges] using h0
    · rw [he0]; simp [Spec.edges]
    · rw [he0]; simpa [Spec.edges] using h1
  obtain ⟨f0, hf0⟩ := (Rounded.design_returns_iff (order := n)).mpr hv0
  have hzk : Rounded.butter (.ofRounding r m) s n wn (some band) none (some .zpk) fs = .ok (.zpk f) := by
    rw [Rounded.butter, Rounded.iirfilter_eq]
    change (Rounded.design (.ofRounding r m) n wn none none band .butterworth false fs >>= _) = _
    rw [hf]
    rfl
  have hz : f.z = List.replicate n (((if band = .lowpass then -1 else 1 : ℝ)) : ℂ) := by
    have := C87_zeros hr m s n wn none none band (some .butterworth) (by simp) (some false) rfl fs hzk
    rcases hb with rfl | rfl
    · rw [this.1 rfl]; simp
    · rw [this.2.1 rfl]; simp
  refine ⟨f, f0, e', hee, hzk, ?_, butter_poles_fl he' hb hf, butter_poles_ex he hb hf0, hz, ?_,
    butter_gain_fl he' hb hf, butter_gain_ex he hb hf0⟩
  · have := C86_exact eps s n wn none none (some band) (some .butterworth) (some false) (some .zpk) fs
    rw [Design.butter]
    change Design.iirfilter eps s n wn none none (some band) (some .butterworth) (some false) (some .zpk) fs = _
    rw [← this, Rounded.iirfilter_eq]
    change (Rounded.design (.exact eps) n wn none none band .butterworth false fs >>= _) = _
    rw [hf0]
    rfl
  · rw [hz, butter_zeros he0 hb hf0]
    congr 1
    split
    · simp
    · change ((((2 * 2 : ℝ)) : ℂ) + 0) / ((((2 * 2 : ℝ)) : ℂ) - 0) = _
      simp

/-- The edge parameter of the bounds. -/
theorem margin_sizes {e : ℝ} (h0 : 0 < e) (h1 : e < 1) {n : ℕ} (hn : n ≠ 0) :
    0 < e * (1 - e) / n ∧ e * (1 - e) / n ≤ 1 / 4 ∧ e * (1 - e) / n ≤ 1 - e ∧
      e * (1 - e) / (2 * n) = e * (1 - e) / n / 2 := by
  have hn1 : (1 : ℝ) ≤ n := by exact_mod_cast Nat.one_le_iff_ne_zero.mpr hn
  have h1e : 0 < 1 - e := by linarith
  have hx : 0 < e * (1 - e) := by positivity
  have hle : e * (1 - e) / n ≤ e * (1 - e) := div_le_self hx.le hn1
  refine ⟨by positivity, ?_, ?_, by ring⟩
  · nlinarith [sq_nonneg (e - 1 / 2)]
  · nlinarith

/-- **C91**, the gain: for a Butterworth low-pass or high-pass request whose gain does not underflow, the computed
gain has a relative error of at most `125 n h / (1 - e)`. -/
theorem C91_gain (hr : r.Nearest) (hm : m.Accurate r h) (eps : ℝ) (s : Sorts) (n : ℕ) (hn : n ≠ 0) (wn : List ℝ)
    (hW : ∀ w ∈ wn, r.rnd w = w) (band : Band) (hb : band = .lowpass ∨ band = .highpass) (fs : Option ℝ) (e : ℝ)
    (he : Spec.edges wn fs = [e]) (h0 : 0 < e) (h1 : e < 1) (S : Small r h ((e * (1 - e) / 20) ^ n))
    (hh : 1024 * (n * h) ≤ 1 - e) :
    ∃ f f0 : Zpk,
      Rounded.butter (.ofRounding r m) s n wn (some band) none (some .zpk) fs = .ok (.zpk f) ∧
      Design.butter eps s n wn (some band) none (some .zpk) fs = .ok (.zpk f0) ∧
      f.z = f0.z ∧ f0.k ≠ 0 ∧ |f.k - f0.k| ≤ 125 * n * h / (1 - e) * |f0.k| := by
  have hn1 : (1 : ℝ) ≤ n := by exact_mod_cast Nat.one_le_iff_ne_zero.mpr hn
  have hh0 := S.h_nonneg
  have hw0 : 0 < exWarp e := by
    rw [exWarp]
    have hpi := Real.pi_pos
    have : 0 < Real.tan (Real.pi * e / 2) := Real.tan_pos_of_pos_of_lt_pi_div_two (by positivity) (by nlinarith)
    linarith
  have Se := S.mono (edge_sizes h0 h1 hw0 hn).2.1
  obtain ⟨f, f0, e', hee, hf, hf0, -, -, -, hz, hk, hk0⟩ :=
    butter_both (m := m) (n := n) hr eps s hW hb he h1 Se (by nlinarith)
  obtain ⟨k1, k2⟩ := gain_err (m := m) hn h0 S hr h1 hee hh hm hb
  refine ⟨f, f0, hf, hf0, hz.symm, by rw [hk0]; exact k1, ?_⟩
  rw [hk, hk0]
  refine k2.trans (le_of_eq ?_)
  ring

/-- The poles and what follows from the assumption on the order. -/
theorem butter_close (hr : r.Nearest) (hm : m.Accurate r h) (eps : ℝ) (s : Sorts) {n : ℕ} (hn : n ≠ 0) {wn : List ℝ}
    (hW : ∀ w ∈ wn, r.rnd w = w) {band : Band} (hb : band = .lowpass ∨ band = .highpass) {fs : Option ℝ} {e : ℝ}
    (he : Spec.edges wn fs = [e]) (h0 : 0 < e) (h1 : e < 1) (S : Small r h ((e * (1 - e) / 20) ^ n))
    {X : ℝ} (hX : X = e * (1 - e) / n) (hh : 2000 * (n * (h / (1 - e))) ≤ X) :
    ∃ f f0 : Zpk,
      Rounded.butter (.ofRounding r m) s n wn (some band) none (some .zpk) fs = .ok (.zpk f) ∧
      Design.butter eps s n wn (some band) none (some .zpk) fs = .ok (.zpk f0) ∧
      f.z = List.replicate n (((if band = .lowpass then -1 else 1 : ℝ)) : ℂ) ∧ f.p.length = n ∧
      (∀ p ∈ f.p, ‖p‖ ≤ 1 - 0.44 * X) ∧
      ∀ x : ℂ, ‖x‖ = 1 → ‖f.eval x - f0.eval x‖ ≤ 180 * (n * (h / (1 - e)) / X) * ‖f0.eval x‖ := by
  have hn1 : (1 : ℝ) ≤ n := by exact_mod_cast Nat.one_le_iff_ne_zero.mpr hn
  have hh0 := S.h_nonneg
  have h1e : 0 < 1 - e := by linarith
  have hw0 : 0 < exWarp e := by
    rw [exWarp]
    have hpi := Real.pi_pos
    have : 0 < Real.tan (Real.pi * e / 2) := Real.tan_pos_of_pos_of_lt_pi_div_two (by positivity) (by nlinarith)
    linarith
  have Se := S.mono (edge_sizes h0 h1 hw0 hn).2.1
  obtain ⟨hX0, hX4, hXe, hX2⟩ := margin_sizes h0 h1 hn
  rw [← hX] at hX0 hX4 hXe hX2
  obtain ⟨H, hH⟩ : ∃ H, H = h / (1 - e) := ⟨_, rfl⟩
  rw [← hH] at hh ⊢
  have hHh : H * (1 - e) = h := by rw [hH]; field_simp
  have hH0 : 0 ≤ H := by rw [hH]; positivity
  have hHη : H ≤ n * H := by nlinarith
  have hhn : 1024 * (n * h) ≤ 1 - e := by
    have : n * h = (n * H) * (1 - e) := by rw [← hHh]; ring
    rw [this]
    nlinarith
  have hh1 : h ≤ (1 - e) / 1024 := by nlinarith
  obtain ⟨f, f0, e', hee, hf, hf0, hp, hp0, hz, hz0, hk, hk0⟩ :=
    butter_both (m := m) (n := n) hr eps s hW hb he h1 Se hh1
  obtain ⟨-, k2⟩ := gain_err (m := m) hn h0 S hr h1 hee hhn hm hb
  rw [← hk, ← hk0, ← hH] at k2
  have perr : ∀ j ∈ stepRange (-(n : ℤ) + 1) n, ‖flBilinear r (flAnalog r m n band e' j) -
      (4 + exAnalog n band e j) / (4 - exAnalog n band e j)‖ ≤ 55 * H := by
    intro j hj
    rw [hH]
    exact pole_err Se hr h1 hee hh1 hm hn hj
  have pin0 : ∀ j ∈ stepRange (-(n : ℤ) + 1) n,
      ‖(4 + exAnalog n band e j) / (4 - exAnalog n band e j)‖ ≤ 1 - X / 2 := by
    intro j hj
    rw [← hX2]
    exact (exact_margin hn band h0 h1 hj).2.1
  have pin : ∀ j ∈ stepRange (-(n : ℤ) + 1) n, ‖flBilinear r (flAnalog r m n band e' j)‖ ≤ 1 - 0.44 * X := by
    intro j hj
    have := norm_add_le (flBilinear r (flAnalog r m n band e' j) -
      (4 + exAnalog n band e j) / (4 - exAnalog n band e j)) ((4 + exAnalog n band e j) / (4 - exAnalog n band e j))
    rw [sub_add_cancel] at this
    have := perr j hj
    have := pin0 j hj
    linarith
  refine ⟨f, f0, hf, hf0, hz, by rw [hp, List.length_map, stepRange_sym_length], ?_, fun x hx => ?_⟩
  · intro p hpm
    rw [hp] at hpm
    obtain ⟨j, hj, rfl⟩ := List.mem_map.mp hpm
    exact pin j hj
  · obtain ⟨c, hc⟩ : ∃ c, c = 125 * (H / X) := ⟨_, rfl⟩
    have hc0 : 0 ≤ c := by rw [hc]; positivity
    have hcd : 55 * H = c * (0.44 * X) := by rw [hc]; field_simp; ring
    have k := eval_err hz0.symm hp hp0 (x := x) (c := c) (d := 0.44 * X) (a := 125 * (n * H)) hc0 (by positivity)
      (fun j hj => by
        have := norm_sub_norm_le x (flBilinear r (flAnalog r m n band e' j))
        have := pin j hj
        linarith)
      (fun j hj hxe => by
        have := pin0 j hj
        rw [← hxe, hx] at this
        linarith)
      (fun j hj => by rw [← hcd]; exact perr j hj) (by positivity) k2
    rw [stepRange_sym_length] at k
    refine k.trans (mul_le_mul_of_nonneg_right ?_ (norm_nonneg _))
    obtain ⟨ν, hν⟩ : ∃ ν, ν = n * H / X := ⟨_, rfl⟩
    have hν0 : 0 ≤ ν := by rw [hν]; positivity
    have hν1 : 2000 * ν ≤ 1 := by
      rw [hν, mul_div_assoc', div_le_one hX0]
      exact hh
    have hnc : n * c = 125 * ν := by rw [hc, hν]; ring
    have hnH : n * H = ν * X := by rw [hν]; field_simp
    have hp1 := one_add_pow_le hc0 (n := n) (by rw [hnc]; linarith)
    rw [hnc] at hp1
    rw [← hν, hnH]
    have i1 : ν * X ≤ ν * (1 / 4) := mul_le_mul_of_nonneg_left hX4 hν0
    have i0 : 0 ≤ ν * X := by positivity
    have i2 : 125 * (ν * X) * ((1 + c) ^ n - 1) ≤ 125 * (ν * (1 / 4)) * (1.1 * (125 * ν)) :=
      mul_le_mul (by linarith) (by linarith) (sub_nonneg.mpr (one_le_pow₀ (by linarith))) (by positivity)
    nlinarith

/-- **C91**, the frequency response of the zeros, poles and gain: at every frequency the computed filter has the
response of the filter designed without rounding, up to the relative error `180 n² h / (e (1 - e)²)`. -/
theorem C91_zpk_response (hr : r.Nearest) (hm : m.Accurate r h) (eps : ℝ) (s : Sorts) (n : ℕ) (hn : n ≠ 0)
    (wn : List ℝ) (hW : ∀ w ∈ wn, r.rnd w = w) (band : Band) (hb : band = .lowpass ∨ band = .highpass)
    (fs : Option ℝ) (e : ℝ) (he : Spec.edges wn fs = [e]) (h0 : 0 < e) (h1 : e < 1)
    (S : Small r h ((e * (1 - e) / 20) ^ n)) (hh : 2000 * (n ^ 2 * h) ≤ e * (1 - e) ^ 2) :
    ∃ f f0 : Zpk,
      Rounded.butter (.ofRounding r m) s n wn (some band) none (some .zpk) fs = .ok (.zpk f) ∧
      Design.butter eps s n wn (some band) none (some .zpk) fs = .ok (.zpk f0) ∧
      ∀ x : ℂ, ‖x‖ = 1 → ‖f.eval x - f0.eval x‖ ≤ 180 * (n ^ 2 * h / (e * (1 - e) ^ 2)) * ‖f0.eval x‖ := by
  have hn0 : (0 : ℝ) < n := by exact_mod_cast Nat.pos_of_ne_zero hn
  have h1e : 0 < 1 - e := by linarith
  have e1 : n * (h / (1 - e)) = n ^ 2 * h / (e * (1 - e) ^ 2) * (e * (1 - e) / n) := by field_simp
  have e2 : n * (h / (1 - e)) / (e * (1 - e) / n) = n ^ 2 * h / (e * (1 - e) ^ 2) := by field_simp
  obtain ⟨f, f0, hf, hf0, -, -, -, H⟩ := butter_close hr hm eps s hn hW hb he h0 h1 S rfl (by
    rw [e1, ← mul_assoc]
    have hX0 := (margin_sizes h0 h1 hn).1
    have : 2000 * (n ^ 2 * h / (e * (1 - e) ^ 2)) ≤ 1 := by
      rw [mul_div_assoc', div_le_one (by positivity)]
      exact hh
    nlinarith)
  rw [e2] at H
  exact ⟨f, f0, hf, hf0, H⟩

/-- The sections of a filter whose poles keep a distance `δ` from the unit circle. -/
theorem sections_response {σ : ℝ} (S : Small r h σ) (hσ : σ ≤ 1) (hr : r.Nearest) {s : Sorts} (hs : s.Correct)
    {n : ℕ} (hn : n ≠ 0) {wn : List ℝ} {rp rs : Option ℝ} {band : Band} {ftype : FType} (hkp : KeepsPairs band ftype)
    {fs : Option ℝ} {l : List (Sos ℝ)}
    (hl : Rounded.iirfilter (.ofRounding r m) s n wn rp rs (some band) (some ftype) (some false) (some .sos) fs
      = .ok (.sos l)) {f : Zpk}
    (hf : Rounded.iirfilter (.ofRounding r m) s n wn rp rs (some band) (some ftype) (some false) (some .zpk) fs
      = .ok (.zpk f))
    {τ : ℝ} (hτ : τ = 1 ∨ τ = -1) (hz : f.z = List.replicate n (τ : ℂ)) (hpn : f.p.length = n) {δ : ℝ} (hδ : 0 < δ)
    (hin : ∀ p ∈ f.p, ‖p‖ ≤ 1 - δ) (hδh : 500 * h ≤ δ ^ 2) (ω : ℝ) :
    ‖freqResponse l ω - f.eval (Complex.exp (Complex.I * ω))‖ ≤
      ((1 + 5.16 * h / δ ^ 2) ^ n - 1) * ‖f.eval (Complex.exp (Complex.I * ω))‖ :=
  sections_signs S hσ hr hs hn hkp hl hf (fun z hzm => by
    rw [hz] at hzm
    rw [(List.mem_replicate.mp hzm).2]
    rcases hτ with rfl | rfl
    · exact .inl (by simp)
    · exact .inr (by simp)) (by rw [hpn]; exact Nat.pos_of_ne_zero hn) (by omega) hδ hin hδh ω

/-- **C91**, the frequency response of the sections: at every frequency the sections computed in floating point have
the response of the filter designed without rounding, up to the relative error `250 n³ h / (e (1 - e))²`. -/
theorem C91_sections_response (hr : r.Nearest) (hm : m.Accurate r h) (eps : ℝ) {s : Sorts} (hs : s.Correct) (n : ℕ)
    (hn : n ≠ 0) (wn : List ℝ) (hW : ∀ w ∈ wn, r.rnd w = w) (band : Band) (hb : band = .lowpass ∨ band = .highpass)
    (fs : Option ℝ) (e : ℝ) (he : Spec.edges wn fs = [e]) (h0 : 0 < e) (h1 : e < 1)
    (S : Small r h ((e * (1 - e) / 20) ^ n)) (hh : 3000 * (n ^ 3 * h) ≤ (e * (1 - e)) ^ 2) :
    ∃ (l : List (Sos ℝ)) (f0 : Zpk),
      Rounded.butter (.ofRounding r m) s n wn (some band) none (some .sos) fs = .ok (.sos l) ∧
      Design.butter eps s n wn (some band) none (some .zpk) fs = .ok (.zpk f0) ∧
      (∀ x ∈ l, Stable x) ∧
      ∀ ω : ℝ, ‖freqResponse l ω - f0.eval (Complex.exp (Complex.I * ω))‖ ≤
        250 * (n ^ 3 * h / (e * (1 - e)) ^ 2) * ‖f0.eval (Complex.exp (Complex.I * ω))‖ := by
  have hn1 : (1 : ℝ) ≤ n := by exact_mod_cast Nat.one_le_iff_ne_zero.mpr hn
  have hn0 : (0 : ℝ) < n := by linarith
  have hh0 := S.h_nonneg
  have h1e : 0 < 1 - e := by linarith
  have hw0 : 0 < exWarp e := by
    rw [exWarp]
    have hpi := Real.pi_pos
    have : 0 < Real.tan (Real.pi * e / 2) := Real.tan_pos_of_pos_of_lt_pi_div_two (by positivity) (by nlinarith)
    linarith
  obtain ⟨s1, s2, -, -⟩ := edge_sizes h0 h1 hw0 hn
  have Se := S.mono s2
  obtain ⟨hX0, hX4, hXe, -⟩ := margin_sizes h0 h1 hn
  obtain ⟨X, hX⟩ : ∃ X, X = e * (1 - e) / n := ⟨_, rfl⟩
  rw [← hX] at hX0 hX4 hXe
  have hXn : X * n = e * (1 - e) := by rw [hX]; field_simp
  obtain ⟨μ, hμ⟩ : ∃ μ, μ = n ^ 3 * h / (e * (1 - e)) ^ 2 := ⟨_, rfl⟩
  have hμ' : n * h = μ * X ^ 2 := by rw [hμ, ← hXn]; field_simp
  have hμ0 : 0 ≤ μ := by rw [hμ]; positivity
  have hμ1 : 3000 * μ ≤ 1 := by
    rw [hμ, mul_div_assoc', div_le_one (by positivity)]
    exact hh
  have hX2 : 0 < X ^ 2 := by positivity
  have hhX : 3000 * h ≤ X ^ 2 := by
    have : 3000 * (n * h) ≤ X ^ 2 := by rw [hμ']; nlinarith
    have : h ≤ n * h := by nlinarith
    linarith
  have hν : n * (h / (1 - e)) ≤ μ * X := by
    rw [mul_div_assoc', div_le_iff₀ h1e, hμ']
    have : μ * X * X ≤ μ * X * (1 - e) := mul_le_mul_of_nonneg_left hXe (by positivity)
    linarith
  obtain ⟨f, f0, hf, hf0, hz, hpn, hin, H⟩ := butter_close hr hm eps s hn hW hb he h0 h1 S hX (by nlinarith)
  obtain ⟨l, hl, -, hst, -⟩ := C90_sections hr hm hs n hn wn hW band hb fs e he h1 Se (by rw [← hX]; linarith)
  refine ⟨l, f0, hl, hf0, hst, fun ω => ?_⟩
  rw [← hμ]
  have hx1 : ‖Complex.exp (Complex.I * ω)‖ = 1 := by rw [mul_comm]; exact Complex.norm_exp_ofReal_mul_I ω
  have A1 := H _ hx1
  have A2 := sections_response S (by linarith) hr hs hn (ftype := .butterworth) (by simp [KeepsPairs]) hl hf
    (τ := if band = .lowpass then -1 else 1) (by split <;> simp) hz hpn (δ := 0.44 * X) (by positivity) hin (by
      have : (0.44 * X) ^ 2 = 0.1936 * X ^ 2 := by ring
      rw [this]
      linarith) ω
  obtain ⟨G, hG⟩ : ∃ G, G = f0.eval (Complex.exp (Complex.I * ω)) := ⟨_, rfl⟩
  obtain ⟨F, hF⟩ : ∃ F, F = f.eval (Complex.exp (Complex.I * ω)) := ⟨_, rfl⟩
  rw [← hG] at A1 ⊢
  rw [← hF] at A1 A2
  have hc : 5.16 * h / (0.44 * X) ^ 2 ≤ 26.7 * (h / X ^ 2) := by
    have : (0.44 * X) ^ 2 = 0.1936 * X ^ 2 := by ring
    rw [this, ← mul_div_assoc, div_le_div_iff₀ (by positivity) hX2]
    have : 0 ≤ h * X ^ 2 := by positivity
    linarith
  have hhμ : n * (h / X ^ 2) = μ := by rw [mul_div_assoc', hμ']; field_simp
  have hp := one_add_pow_le (κ := 26.7 * (h / X ^ 2)) (by positivity) (n := n) (by
    have : n * (26.7 * (h / X ^ 2)) = 26.7 * μ := by rw [← hhμ]; ring
    rw [this]
    linarith)
  have e1 : n * (26.7 * (h / X ^ 2)) = 26.7 * μ := by rw [← hhμ]; ring
  rw [e1] at hp
  have hpp : (1 + 5.16 * h / (0.44 * X) ^ 2) ^ n ≤ (1 + 26.7 * (h / X ^ 2)) ^ n :=
    pow_le_pow_left₀ (by positivity) (by linarith) n
  have A3 : ‖freqResponse l ω - F‖ ≤ 29.4 * μ * ‖F‖ :=
    A2.trans (mul_le_mul_of_nonneg_right (by linarith) (norm_nonneg _))
  have A4 : ‖F - G‖ ≤ 180 * μ * ‖G‖ := by
    refine A1.trans (mul_le_mul_of_nonneg_right ?_ (norm_nonneg _))
    have : n * (h / (1 - e)) / X ≤ μ := by rw [div_le_iff₀ hX0]; exact hν
    linarith
  have A5 : ‖F‖ ≤ 1.06 * ‖G‖ := by
    have := norm_add_le (F - G) G
    rw [sub_add_cancel] at this
    have : μ * ‖G‖ ≤ 1 / 3000 * ‖G‖ := mul_le_mul_of_nonneg_right (by linarith) (norm_nonneg _)
    linarith
  have A6 : 29.4 * μ * ‖F‖ ≤ 29.4 * μ * (1.06 * ‖G‖) := mul_le_mul_of_nonneg_left A5 (by positivity)
  have A7 := norm_add_le (freqResponse l ω - F) (F - G)
  rw [sub_add_sub_cancel] at A7
  have A8 : 0 ≤ μ * ‖G‖ := by positivity
  linarith

theorem abs_norm_sub_le {a b : ℂ} {ε : ℝ} (hab : ‖a - b‖ ≤ ε * ‖b‖) {P : ℝ} (hP : ‖b‖ ^ 2 = P) :
    |‖a‖ - √P| ≤ ε * √P := by
  have : ‖b‖ = √P := by rw [← hP, Real.sqrt_sq (norm_nonneg _)]
  rw [← this]
  exact (abs_norm_sub_norm_le a b).trans hab

/-- **C91** for low-pass filters: the amplitude response of the computed sections is the Butterworth response
`1 / √(1 + (tan(ω/2) / tan(πe/2))^(2n))` up to the relative error `250 n³ h / (e (1 - e))²`. -/
theorem C91_lowpass (hr : r.Nearest) (hm : m.Accurate r h) {s : Sorts} (hs : s.Correct) (n : ℕ) (hn : n ≠ 0) (w : ℝ)
    (hw : r.rnd w = w) (fs : Option ℝ) (e : ℝ) (he : Spec.edges [w] fs = [e]) (h0 : 0 < e) (h1 : e < 1)
    (S : Small r h ((e * (1 - e) / 20) ^ n)) (hh : 3000 * (n ^ 3 * h) ≤ (e * (1 - e)) ^ 2) :
    ∃ l : List (Sos ℝ),
      Rounded.butter (.ofRounding r m) s n [w] (some .lowpass) none (some .sos) fs = .ok (.sos l) ∧
      (∀ x ∈ l, Stable x) ∧
      ∀ ω : ℝ, |ω| < Real.pi →
        |‖freqResponse l ω‖ - √(1 / (1 + (Real.tan (ω / 2) / Real.tan (Real.pi * e / 2)) ^ (2 * n)))| ≤
          250 * (n ^ 3 * h / (e * (1 - e)) ^ 2) *
            √(1 / (1 + (Real.tan (ω / 2) / Real.tan (Real.pi * e / 2)) ^ (2 * n))) := by
  obtain ⟨l, f0, hl, hf0, hst, H⟩ := C91_sections_response hr hm 0 hs n hn [w] (by simpa using hw) .lowpass (.inl rfl)
    fs e he h0 h1 S hh
  obtain ⟨d, hd, -, hresp, -⟩ := C56_response 0 s n hn w e fs (some .lowpass) (.inr rfl) none (.inl rfl) he h0 h1
  rw [hf0] at hd
  simp only [Except.ok.injEq, Filter.zpk.injEq] at hd
  subst hd
  exact ⟨l, hl, hst, fun ω hω => abs_norm_sub_le (H ω) (hresp ω hω)⟩

/-- **C91** for high-pass filters. -/
theorem C91_highpass (hr : r.Nearest) (hm : m.Accurate r h) {s : Sorts} (hs : s.Correct) (n : ℕ) (hn : n ≠ 0) (w : ℝ)
    (hw : r.rnd w = w) (fs : Option ℝ) (e : ℝ) (he : Spec.edges [w] fs = [e]) (h0 : 0 < e) (h1 : e < 1)
    (S : Small r h ((e * (1 - e) / 20) ^ n)) (hh : 3000 * (n ^ 3 * h) ≤ (e * (1 - e)) ^ 2) :
    ∃ l : List (Sos ℝ),
      Rounded.butter (.ofRounding r m) s n [w] (some .highpass) none (some .sos) fs = .ok (.sos l) ∧
      (∀ x ∈ l, Stable x) ∧
      ∀ ω : ℝ, 0 < |ω| → |ω| < Real.pi →
        |‖freqResponse l ω‖ - √(1 / (1 + (Real.tan (Real.pi * e / 2) / Real.tan (ω / 2)) ^ (2 * n)))| ≤
          250 * (n ^ 3 * h / (e * (1 - e)) ^ 2) *
            √(1 / (1 + (Real.tan (Real.pi * e / 2) / Real.tan (ω / 2)) ^ (2 * n))) := by
  obtain ⟨l, f0, hl, hf0, hst, H⟩ := C91_sections_response hr hm 0 hs n hn [w] (by simpa using hw) .highpass (.inr rfl)
    fs e he h0 h1 S hh
  obtain ⟨d, hd, -, hresp, -⟩ := C57_response 0 s n hn w e fs none (.inl rfl) he h0 h1
  rw [hf0] at hd
  simp only [Except.ok.injEq, Filter.zpk.injEq] at hd
  subst hd
  exact ⟨l, hl, hst, fun ω hω0 hω => abs_norm_sub_le (H ω) (hresp ω hω0 hω)⟩

theorem binary64_small_pow {σ : ℝ} (hσ : (2 : ℝ) ^ (-1000 : ℤ) ≤ σ) : Small binary64 (1 / 2 ^ 50) σ := by
  have h1 : binary64.u = 2 ^ (-53 : ℤ) := rfl
  have h2 : binary64.t = 2 ^ (-1075 : ℤ) := rfl
  have e1 : (2 : ℝ) ^ (-53 : ℤ) = 1 / 2 ^ 53 := by rw [zpow_neg]; norm_num
  have e2 : (2 : ℝ) ^ (-1075 : ℤ) = 2 ^ (-75 : ℤ) * 2 ^ (-1000 : ℤ) := by
    rw [← zpow_add₀ (by norm_num)]; norm_num
  have e3 : (2 : ℝ) ^ (-75 : ℤ) = 1 / 2 ^ 75 := by rw [zpow_neg]; norm_num
  have h0 : (0 : ℝ) < 2 ^ (-1000 : ℤ) := by positivity
  refine ⟨by rw [h1, e1]; norm_num, ?_, lt_of_lt_of_le h0 hσ⟩
  rw [h1, h2, e1, e2, e3]
  exact mul_le_mul (by norm_num) hσ h0.le (by norm_num)

/-- **C91** for `f64` with a library accurate to `2^-50`: a low-pass filter of order 4 with its edge at 10 Hz for
signals sampled at 1 kHz has the Butterworth response up to `4e-8` at every frequency. -/
theorem C91_example {s : Sorts} (hs : s.Correct) : ∃ l : List (Sos ℝ),
    Rounded.butter (.ofRounding binary64 libm64) s 4 [10] (some .lowpass) none (some .sos) (some 1000) = .ok (.sos l) ∧
      (∀ x ∈ l, Stable x) ∧
      ∀ ω : ℝ, |ω| < Real.pi →
        |‖freqResponse l ω‖ - √(1 / (1 + (Real.tan (ω / 2) / Real.tan (Real.pi * (1 / 50) / 2)) ^ (2 * 4)))| ≤
          4 / 10 ^ 8 * √(1 / (1 + (Real.tan (ω / 2) / Real.tan (Real.pi * (1 / 50) / 2)) ^ (2 * 4))) := by
  have hσ : (2 : ℝ) ^ (-1000 : ℤ) ≤ ((1 / 50 : ℝ) * (1 - 1 / 50) / 20) ^ 4 := by
    have h5 : (2 : ℝ) ^ (-1000 : ℤ) ≤ 2 ^ (-100 : ℤ) := zpow_le_zpow_right₀ (by norm_num) (by norm_num)
    refine h5.trans ?_
    rw [zpow_neg]
    norm_num
  have hw : binary64.rnd 10 = 10 := by
    have := Binary.rnd_int 53 (-1074) (by norm_num) 10 (by norm_num)
    exact_mod_cast this
  obtain ⟨l, hl, hst, H⟩ := C91_lowpass binary64_nearest libm64_accurate hs 4 (by norm_num) 10 hw (some 1000) (1 / 50)
    (by simp [Spec.edges]; norm_num) (by norm_num) (by norm_num) (binary64_small_pow hσ) (by norm_num)
  refine ⟨l, hl, hst, fun ω hω => (H ω hω).trans (mul_le_mul_of_nonneg_right ?_ (Real.sqrt_nonneg _))⟩
  norm_num

end SciRs.Props

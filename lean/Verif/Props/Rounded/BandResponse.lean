import Verif.Lemmas.Rounded.BandGain
import Verif.Props.Rounded.BandAccuracy
import Verif.Props.Rounded.ButterResponse

/-!
# C123: the frequency response of Butterworth band-pass filters designed in floating point

How far the gain and the frequency response of the computed band-pass filter, in both formats, are from those of the
filter designed without rounding, and so from the Butterworth band-pass response.
-/

namespace SciRs.Props

open SciRs SciRs.Design SciRs.Spec SciRs.Rounded

variable {r : Rounding} {m : Libm} {h : ℝ}

/-- Both designs. -/
theorem band_both (hr : r.Nearest) (eps : ℝ) (s : Sorts) {n : ℕ} {e0 e1 κ : ℝ} (R : BandRequest n e0 e1 κ h)
    (S : Small r h (κ ^ 2 * e0 ^ 2 / 2)) {wn : List ℝ} (hW : ∀ w ∈ wn, r.rnd w = w)
    {fs : Option ℝ} (he : Spec.edges wn fs = [e0, e1]) :
    ∃ f g : Zpk, ∃ f0 f1, |f0 - e0| ≤ h * e0 ∧ |f1 - e1| ≤ h * e1 ∧
      Rounded.butter (.ofRounding r m) s n wn (some .bandpass) none (some .zpk) fs = .ok (.zpk f) ∧
      Design.butter eps s n wn (some .bandpass) none (some .zpk) fs = .ok (.zpk g) ∧
      f.p = (bandIdx n).map (fun q => flBandPole r m n .bandpass f0 f1 q.1 q.2) ∧
      g.p = (bandIdx n).map (fun q => exBilin (exBandRoot n .bandpass e0 e1 q.1 q.2)) ∧
      f.z = List.replicate n 1 ++ List.replicate n (-1) ∧ g.z = f.z ∧
      f.k = flBandGain r m n f0 f1 ∧ g.k = exBandGain n e0 e1 := by
  obtain ⟨f, f0, f1, hE, hd, hf0, hf1, hf, hfp, -⟩ := band_answer_edges (m := m) hr s R S hW (.inl rfl) he
  have hpos := R.pos
  have hlt := R.lt
  have hone := R.one
  have hv : Valid (.exact eps) wn none none .bandpass .butterworth false fs := by
    have he' : Rounded.edges (.exact eps) wn fs = [e0, e1] := by rw [← he]; cases fs <;> rfl
    refine ⟨⟨?_, ?_, ?_, ?_, by simp, by simp, by simp, .inl rfl⟩, by simp⟩
    · rw [he']; rfl
    · rw [he']; simp [Spec.edges]; constructor <;> linarith
    · rw [he']; simp [Spec.edges]; linarith
    · rw [he']; simp [Spec.edges]; constructor <;> linarith
  obtain ⟨g, hg⟩ := (Rounded.design_returns_iff (order := n)).mpr hv
  obtain ⟨w0, w01, -⟩ := exWarp_gap hpos hlt hone
  have hWW := (mul_pos w0 (w0.trans w01)).le
  obtain ⟨gk, gz⟩ := band_gain_ex he hWW hg
  have hz : f.z = List.replicate n 1 ++ List.replicate n (-1) :=
    (C87_zeros hr m s n wn none none .bandpass (some .butterworth) (by simp) (some false) rfl fs hf).2.2 rfl
  refine ⟨f, g, f0, f1, hf0, hf1, hf, ?_, ?_, ?_, hz, by rw [hz, gz], band_gain_fl hE hd, gk⟩
  · have := C86_exact eps s n wn none none (some .bandpass) (some .butterworth) (some false) (some .zpk) fs
    rw [Design.butter]
    change Design.iirfilter eps s n wn none none (some .bandpass) (some .butterworth) (some false) (some .zpk) fs = _
    rw [← this, Rounded.iirfilter_eq]
    change (Rounded.design (.exact eps) n wn none none .bandpass .butterworth false fs >>= _) = _
    rw [hg]
    rfl
  · rw [hfp]; simp [bandIdx, Function.comp_def]
  · rw [band_poles_ex he hWW (.inl rfl) hg]
    simp [bandIdx, Function.comp_def, exBandRoot, signed]

/-- **C123**, the gain: for a Butterworth band-pass request whose gain does not underflow, the computed gain has a
relative error of at most `17 n h / ((1 - e1) (e1 - e0)) + 400 n h / ((1 - e1)² κ)`. -/
theorem C123_gain (hr : r.Nearest) (hm : m.Accurate r h) (hp : m.AccuratePolar r h) (eps : ℝ) (s : Sorts) (n : ℕ)
    (e0 e1 κ : ℝ) (R : BandRequest n e0 e1 κ h) (S : Small r h (κ ^ 2 * e0 ^ 2 / 2))
    (S2 : Small r h (((1 - e1) ^ 2 * (e1 - e0) / 20) ^ n)) (wn : List ℝ)
    (hW : ∀ w ∈ wn, r.rnd w = w) (fs : Option ℝ) (he : Spec.edges wn fs = [e0, e1])
    (hh : 10000 * (n * h) ≤ (1 - e1) ^ 2 * κ) (hh2 : 1200 * (n * h) ≤ (1 - e1) * (e1 - e0)) :
    ∃ f g : Zpk,
      Rounded.butter (.ofRounding r m) s n wn (some .bandpass) none (some .zpk) fs = .ok (.zpk f) ∧
      Design.butter eps s n wn (some .bandpass) none (some .zpk) fs = .ok (.zpk g) ∧
      f.z = g.z ∧ g.k ≠ 0 ∧
      |f.k - g.k| ≤ (17 * n * h / ((1 - e1) * (e1 - e0)) + 400 * n * h / ((1 - e1) ^ 2 * κ)) * |g.k| := by
  obtain ⟨f, g, f0, f1, hf0, hf1, hf, hg, -, -, -, hz, hk, hk0⟩ := band_both (m := m) hr eps s R S hW he
  have h1e : 0 < 1 - e1 := by linarith [R.one]
  have hd : 0 < e1 - e0 := by linarith [R.lt]
  have hκ := R.kappa
  obtain ⟨k1, k2⟩ := band_gain_err hr hm hp R S S2 hf0 hf1
    (by rw [mul_div_assoc', mul_div_assoc', div_le_one (by positivity)]; exact hh)
    (by rw [mul_div_assoc', mul_div_assoc', div_le_one (by positivity)]; exact hh2)
  refine ⟨f, g, hf, hg, hz.symm, by rw [hk0]; exact k1, ?_⟩
  rw [hk, hk0]
  refine k2.trans (le_of_eq ?_)
  ring

/-- The sizes of the margin `Δ = κ e0 (1 - e1) (e1 - e0)`. -/
theorem band_margin_sizes {n : ℕ} {e0 e1 κ : ℝ} (R : BandRequest n e0 e1 κ h) (h0 : 0 ≤ h) {X : ℝ}
    (hX : X = κ * (e0 * (1 - e1) * (e1 - e0))) :
    0 < X ∧ X ≤ 1 / 16 ∧ κ ≤ 1 ∧ 0 < κ * (1 - e1) ∧ κ * (1 - e1) ≤ 1 := by
  have c1 := (band_facts R h0).1
  have hpos := R.pos
  have hlt := R.lt
  have hone := R.one
  have h1e : 0 < 1 - e1 := by linarith
  have hE0 : 0 < e0 * (1 - e1) * (e1 - e0) := mul_pos (mul_pos hpos h1e) (by linarith)
  refine ⟨by rw [hX]; exact mul_pos R.kappa hE0, ?_, c1, mul_pos R.kappa h1e, mul_le_one₀ c1 h1e.le (by linarith)⟩
  have i1 : (1 - e1) * (e1 - e0) ≤ 1 / 4 * (1 - e0) := by nlinarith [sq_nonneg (1 - e1 - (e1 - e0))]
  have i2 : e0 * ((1 - e1) * (e1 - e0)) ≤ e0 * (1 / 4 * (1 - e0)) := mul_le_mul_of_nonneg_left i1 hpos.le
  have i3 : e0 * (1 - e0) ≤ 1 / 4 := by nlinarith [sq_nonneg (e0 - 1 / 2)]
  have i4 := mul_le_of_le_one_left hE0.le c1
  rw [hX]
  linarith

/-- The poles, and the response of the zeros, poles and gain. -/
theorem band_close (hr : r.Nearest) (hm : m.Accurate r h) (hp : m.AccuratePolar r h) (eps : ℝ) (s : Sorts) {n : ℕ}
    {e0 e1 κ : ℝ} (R : BandRequest n e0 e1 κ h) (hκn : κ ≤ 1 / n) (S : Small r h (κ ^ 2 * e0 ^ 2 / 2))
    (S2 : Small r h (((1 - e1) ^ 2 * (e1 - e0) / 20) ^ n)) {wn : List ℝ}
    (hW : ∀ w ∈ wn, r.rnd w = w) {fs : Option ℝ} (he : Spec.edges wn fs = [e0, e1]) {X ν : ℝ}
    (hX : X = κ * (e0 * (1 - e1) * (e1 - e0))) (hν : ν = n * (h / ((1 - e1) ^ 2 * κ)) / X) (hν1 : 10000 * ν ≤ 1) :
    ∃ f g : Zpk,
      Rounded.butter (.ofRounding r m) s n wn (some .bandpass) none (some .zpk) fs = .ok (.zpk f) ∧
      Design.butter eps s n wn (some .bandpass) none (some .zpk) fs = .ok (.zpk g) ∧
      f.z = List.replicate n 1 ++ List.replicate n (-1) ∧ f.p.length = 2 * n ∧
      (∀ p ∈ f.p, ‖p‖ ≤ 1 - 0.9 * X) ∧
      ∀ x : ℂ, ‖x‖ = 1 → ‖f.eval x - g.eval x‖ ≤ 820 * ν * ‖g.eval x‖ := by
  have hh0 := S.h_nonneg
  obtain ⟨f, g, f0, f1, hf0, hf1, hf, hg, hpl, hpl0, hz, hz0, hk, hk0⟩ := band_both (m := m) hr eps s R S hW he
  obtain ⟨hX0, hX16, c1, hkE0, hkE1⟩ := band_margin_sizes R hh0 hX
  have c10 := (band_facts R hh0).2.2.2.2.2.2.2.2.2.1
  have hpos := R.pos
  have hlt := R.lt
  have hone := R.one
  have hκ := R.kappa
  have h1e : 0 < 1 - e1 := by linarith
  have hd : 0 < e1 - e0 := by linarith
  have hn1 : (1 : ℝ) ≤ n := by exact_mod_cast Nat.one_le_iff_ne_zero.mpr R.order
  obtain ⟨P, hP⟩ : ∃ P, P = h / ((1 - e1) ^ 2 * κ) := ⟨_, rfl⟩
  have hP0 : 0 ≤ P := by rw [hP]; positivity
  have hν0 : 0 ≤ ν := by rw [hν]; positivity
  have hnP : n * P = ν * X := by rw [hν, hP]; field_simp
  have hPn : P ≤ n * P := by nlinarith
  have hPX : 10000 * P ≤ X := by
    have := mul_le_mul_of_nonneg_right hν1 hX0.le
    linarith
  have hνX : ν * X ≤ ν * (1 / 16) := mul_le_mul_of_nonneg_left hX16 hν0
  have hG : n * (h / ((1 - e1) * (e1 - e0))) ≤ ν := by
    have e : n * (h / ((1 - e1) * (e1 - e0))) = ν * (κ ^ 2 * e0 * (1 - e1) ^ 2) := by
      rw [hν, hX]; field_simp
    rw [e]
    refine mul_le_of_le_one_right hν0 (mul_le_one₀ (mul_le_one₀ (pow_le_one₀ hκ.le c1) hpos.le (by linarith))
      (sq_nonneg _) (pow_le_one₀ h1e.le (by linarith)))
  obtain ⟨-, k2⟩ := band_gain_err hr hm hp R S S2 hf0 hf1 (by rw [← hP, hnP]; linarith) (by linarith)
  rw [← hk, ← hk0, ← hP, hnP] at k2
  have k3 : |f.k - g.k| ≤ 42 * ν * |g.k| := k2.trans (mul_le_mul_of_nonneg_right (by linarith) (abs_nonneg _))
  have perr : ∀ q ∈ bandIdx n, ‖flBandPole r m n .bandpass f0 f1 q.1 q.2 -
      exBilin (exBandRoot n .bandpass e0 e1 q.1 q.2)‖ ≤ 310 * P := by
    intro q hq
    rw [hP]
    exact (band_pole_err (band := .bandpass) hr hm hp R S hf0 hf1 (mem_bandIdx hq) q.2).1
  have pin0 : ∀ q ∈ bandIdx n, ‖exBilin (exBandRoot n .bandpass e0 e1 q.1 q.2)‖ ≤ 1 - X := by
    intro q hq
    rw [hX]
    exact (band_exact_margin R hκn .bandpass (mem_bandIdx hq) q.2).2.1
  have pin : ∀ q ∈ bandIdx n, ‖flBandPole r m n .bandpass f0 f1 q.1 q.2‖ ≤ 1 - 0.9 * X := by
    intro q hq
    have := norm_add_le (flBandPole r m n .bandpass f0 f1 q.1 q.2 - exBilin (exBandRoot n .bandpass e0 e1 q.1 q.2))
      (exBilin (exBandRoot n .bandpass e0 e1 q.1 q.2))
    rw [sub_add_cancel] at this
    have := perr q hq
    have := pin0 q hq
    linarith
  refine ⟨f, g, hf, hg, hz, by rw [hpl, List.length_map, bandIdx_length], ?_, fun x hx => ?_⟩
  · intro p hpm
    rw [hpl] at hpm
    obtain ⟨j, hj, rfl⟩ := List.mem_map.mp hpm
    exact pin j hj
  · obtain ⟨c, hc⟩ : ∃ c, c = 310 / 0.9 * (P / X) := ⟨_, rfl⟩
    have hc0 : 0 ≤ c := by rw [hc]; positivity
    have hcd : 310 * P = c * (0.9 * X) := by rw [hc]; field_simp
    have k := eval_err hz0.symm hpl hpl0 (x := x) (c := c) (d := 0.9 * X) (a := 42 * ν) hc0 (by positivity)
      (fun q hq => by
        have := norm_sub_norm_le x (flBandPole r m n .bandpass f0 f1 q.1 q.2)
        have := pin q hq
        linarith)
      (fun q hq hxe => by
        have := pin0 q hq
        rw [← hxe, hx] at this
        linarith)
      (fun q hq => by rw [← hcd]; exact perr q hq) (by positivity) k3
    rw [bandIdx_length] at k
    refine k.trans (mul_le_mul_of_nonneg_right ?_ (norm_nonneg _))
    have hnc : ((2 * n : ℕ) : ℝ) * c = 620 / 0.9 * ν := by
      rw [hc, hν, ← hP]; push_cast; ring
    have hp1 := one_add_pow_le hc0 (n := 2 * n) (by rw [hnc]; linarith)
    rw [hnc] at hp1
    have i2 : 42 * ν * ((1 + c) ^ (2 * n) - 1) ≤ 42 * ν * (1.1 * (620 / 0.9 * ν)) :=
      mul_le_mul_of_nonneg_left (by linarith) (by positivity)
    have i3 : ν * ν ≤ ν * (1 / 10000) := mul_le_mul_of_nonneg_left (by linarith) hν0
    nlinarith

/-- **C123**, the frequency response of the zeros, poles and gain: at every frequency the computed band-pass filter has
the response of the filter designed without rounding, up to the relative error
`820 n h / (κ² e0 (1 - e1)³ (e1 - e0))`. -/
theorem C123_zpk_response (hr : r.Nearest) (hm : m.Accurate r h) (hp : m.AccuratePolar r h) (eps : ℝ) (s : Sorts)
    (n : ℕ) (e0 e1 κ : ℝ) (R : BandRequest n e0 e1 κ h) (hκn : κ ≤ 1 / n) (S : Small r h (κ ^ 2 * e0 ^ 2 / 2))
    (S2 : Small r h (((1 - e1) ^ 2 * (e1 - e0) / 20) ^ n)) (wn : List ℝ)
    (hW : ∀ w ∈ wn, r.rnd w = w) (fs : Option ℝ) (he : Spec.edges wn fs = [e0, e1])
    (hh : 10000 * (n * h) ≤ κ ^ 2 * e0 * (1 - e1) ^ 3 * (e1 - e0)) :
    ∃ f g : Zpk,
      Rounded.butter (.ofRounding r m) s n wn (some .bandpass) none (some .zpk) fs = .ok (.zpk f) ∧
      Design.butter eps s n wn (some .bandpass) none (some .zpk) fs = .ok (.zpk g) ∧
      ∀ x : ℂ, ‖x‖ = 1 →
        ‖f.eval x - g.eval x‖ ≤ 820 * (n * h / (κ ^ 2 * e0 * (1 - e1) ^ 3 * (e1 - e0))) * ‖g.eval x‖ := by
  have hpos := R.pos
  have hκ := R.kappa
  have h1e : 0 < 1 - e1 := by linarith [R.one]
  have hd : 0 < e1 - e0 := by linarith [R.lt]
  have e : n * h / (κ ^ 2 * e0 * (1 - e1) ^ 3 * (e1 - e0)) =
      n * (h / ((1 - e1) ^ 2 * κ)) / (κ * (e0 * (1 - e1) * (e1 - e0))) := by field_simp
  obtain ⟨f, g, hf, hg, -, -, -, H⟩ := band_close hr hm hp eps s R hκn S S2 hW he rfl e (by
    rw [mul_div_assoc', div_le_one (by positivity)]
    exact hh)
  exact ⟨f, g, hf, hg, H⟩

/-- **C123**, the frequency response of the sections: at every frequency the sections computed in floating point have
the response of the filter designed without rounding, up to a relative error that is given by the order, the edges and
the precision.  With `Δ = κ e0 (1 - e1) (e1 - e0)` it is `820 n h / (κ (1 - e1)² Δ) + 8 n h / Δ²`. -/
theorem C123_sections_response (hr : r.Nearest) (hm : m.Accurate r h) (hp : m.AccuratePolar r h) (eps : ℝ) {s : Sorts}
    (hs : s.Correct) (n : ℕ) (e0 e1 κ : ℝ) (R : BandRequest n e0 e1 κ h) (hκn : κ ≤ 1 / n)
    (S : Small r h (κ ^ 2 * e0 ^ 2 / 2)) (S2 : Small r h (((1 - e1) ^ 2 * (e1 - e0) / 20) ^ n)) (wn : List ℝ)
    (hW : ∀ w ∈ wn, r.rnd w = w) (fs : Option ℝ) (he : Spec.edges wn fs = [e0, e1]) (Δ : ℝ)
    (hΔ : Δ = κ * e0 * (1 - e1) * (e1 - e0)) (hh : 4000 * (n * h) ≤ (κ * (1 - e1) * Δ) ^ 2) :
    ∃ (l : List (Sos ℝ)) (g : Zpk),
      Rounded.butter (.ofRounding r m) s n wn (some .bandpass) none (some .sos) fs = .ok (.sos l) ∧
      Design.butter eps s n wn (some .bandpass) none (some .zpk) fs = .ok (.zpk g) ∧
      l.length = n ∧ (∀ x ∈ l, Stable x) ∧
      ∀ ω : ℝ, ‖freqResponse l ω - g.eval (Complex.exp (Complex.I * ω))‖ ≤
        (820 * (n * h / (κ * (1 - e1) ^ 2 * Δ)) + 8 * (n * h / Δ ^ 2)) *
          ‖g.eval (Complex.exp (Complex.I * ω))‖ := by
  have hh0 := S.h_nonneg
  have hX : Δ = κ * (e0 * (1 - e1) * (e1 - e0)) := by rw [hΔ]; ring
  obtain ⟨hX0, hX16, c1, hkE0, hkE1⟩ := band_margin_sizes R hh0 hX
  have hn1 : (1 : ℝ) ≤ n := by exact_mod_cast Nat.one_le_iff_ne_zero.mpr R.order
  have hpos := R.pos
  have hκ := R.kappa
  have hone := R.one
  have hlt := R.lt
  have h1e : 0 < 1 - e1 := by linarith
  have hd : 0 < e1 - e0 := by linarith
  have hhn : h ≤ n * h := by nlinarith
  have hX2 : 0 < Δ ^ 2 := by positivity
  have hnX : 4000 * (n * h) ≤ Δ ^ 2 := by
    refine hh.trans (pow_le_pow_left₀ (by positivity) ?_ 2)
    exact mul_le_of_le_one_left hX0.le hkE1
  obtain ⟨ν, hν⟩ : ∃ ν, ν = n * h / (κ * (1 - e1) ^ 2 * Δ) := ⟨_, rfl⟩
  obtain ⟨μ, hμ⟩ : ∃ μ, μ = n * h / Δ ^ 2 := ⟨_, rfl⟩
  have hν0 : 0 ≤ ν := by rw [hν]; positivity
  have hμ0 : 0 ≤ μ := by rw [hμ]; positivity
  have hμ1 : 4000 * μ ≤ 1 := by rw [hμ, mul_div_assoc', div_le_one hX2]; exact hnX
  have hν1 : 10000 * ν ≤ 1 := by
    rw [hν, mul_div_assoc', div_le_one (by positivity)]
    have e : (κ * (1 - e1) * Δ) ^ 2 = (κ * (1 - e1) ^ 2 * Δ) * (κ * Δ) := by ring
    have i1 : κ * Δ ≤ 1 / 16 := (mul_le_of_le_one_left hX0.le c1).trans hX16
    have i2 : (κ * (1 - e1) ^ 2 * Δ) * (κ * Δ) ≤ (κ * (1 - e1) ^ 2 * Δ) * (1 / 16) :=
      mul_le_mul_of_nonneg_left i1 (by positivity)
    rw [e] at hh
    linarith
  obtain ⟨f, g, hf, hg, hz, hpn, hin, A1⟩ := band_close (m := m) hr hm hp eps s R hκn S S2 hW he hX
    (by rw [hν]; field_simp) hν1
  obtain ⟨l, hl, hlen, hst, -⟩ := C101_sections hr hm hp hs n e0 e1 κ R hκn S (by
    have e : κ ^ 2 * e0 * (1 - e1) ^ 2 * (e1 - e0) = κ * (1 - e1) * Δ := by rw [hΔ]; ring
    rw [e]
    linarith) wn hW .bandpass (.inl rfl) fs he
  refine ⟨l, g, hl, hg, hlen, hst, fun ω => ?_⟩
  have hke : κ ^ 2 * e0 ^ 2 / 2 ≤ 1 := by
    have i1 := mul_le_one₀ (pow_le_one₀ hκ.le c1 : κ ^ 2 ≤ 1) (sq_nonneg e0) (pow_le_one₀ hpos.le (by linarith) : e0 ^ 2 ≤ 1)
    linarith
  have hkp : KeepsPairs .bandpass .butterworth := by simp [KeepsPairs]
  have A2 := sections_signs S hke hr hs R.order hkp hl hf (fun z hzm => by
      rw [hz] at hzm
      rcases List.mem_append.mp hzm with k | k
      · exact .inl (List.mem_replicate.mp k).2
      · exact .inr (List.mem_replicate.mp k).2)
    (by rw [hpn]; have := Nat.pos_of_ne_zero R.order; omega) hpn.le (δ := 0.9 * Δ) (by positivity) hin (by
      have : (0.9 * Δ) ^ 2 = 0.81 * Δ ^ 2 := by ring
      rw [this]
      linarith) ω
  have hx1 : ‖Complex.exp (Complex.I * ω)‖ = 1 := by rw [mul_comm]; exact Complex.norm_exp_ofReal_mul_I ω
  have A1 := A1 _ hx1
  obtain ⟨G, hG⟩ : ∃ G, G = g.eval (Complex.exp (Complex.I * ω)) := ⟨_, rfl⟩
  obtain ⟨F, hF⟩ : ∃ F, F = f.eval (Complex.exp (Complex.I * ω)) := ⟨_, rfl⟩
  rw [← hG] at A1 ⊢
  rw [← hF] at A1 A2
  rw [← hν, ← hμ]
  have hc : 5.16 * h / (0.9 * Δ) ^ 2 = 5.16 / 0.81 * (h / Δ ^ 2) := by
    have : (0.9 * Δ) ^ 2 = 0.81 * Δ ^ 2 := by ring
    rw [this]; field_simp
  have e1 : n * (5.16 / 0.81 * (h / Δ ^ 2)) = 5.16 / 0.81 * μ := by rw [hμ]; ring
  have hp1 := one_add_pow_le (κ := 5.16 / 0.81 * (h / Δ ^ 2)) (by positivity) (n := n) (by rw [e1]; linarith)
  rw [e1] at hp1
  rw [hc] at A2
  have A3 : ‖freqResponse l ω - F‖ ≤ 7.1 * μ * ‖F‖ :=
    A2.trans (mul_le_mul_of_nonneg_right (by linarith) (norm_nonneg _))
  have A5 : ‖F‖ ≤ 1.082 * ‖G‖ := by
    have := norm_add_le (F - G) G
    rw [sub_add_cancel] at this
    have : ν * ‖G‖ ≤ 1 / 10000 * ‖G‖ := mul_le_mul_of_nonneg_right (by linarith) (norm_nonneg _)
    linarith
  have A6 : 7.1 * μ * ‖F‖ ≤ 7.1 * μ * (1.082 * ‖G‖) := mul_le_mul_of_nonneg_left A5 (by positivity)
  have A7 := norm_add_le (freqResponse l ω - F) (F - G)
  rw [sub_add_sub_cancel] at A7
  have A8 : 0 ≤ μ * ‖G‖ := by positivity
  linarith

/-- **C123**, the Butterworth response: with `t = tan(ω/2)`, `α = tan(π e0/2)` and `β = tan(π e1/2)`, the amplitude
response of the computed sections is `1 / √(1 + ((t² - αβ) / (t (β - α)))^(2n))` up to that relative error. -/
theorem C123_bandpass (hr : r.Nearest) (hm : m.Accurate r h) (hp : m.AccuratePolar r h) {s : Sorts}
    (hs : s.Correct) (n : ℕ) (e0 e1 κ : ℝ) (R : BandRequest n e0 e1 κ h) (hκn : κ ≤ 1 / n)
    (S : Small r h (κ ^ 2 * e0 ^ 2 / 2)) (S2 : Small r h (((1 - e1) ^ 2 * (e1 - e0) / 20) ^ n)) (a b : ℝ)
    (ha : r.rnd a = a) (hb : r.rnd b = b) (fs : Option ℝ) (he : Spec.edges [a, b] fs = [e0, e1]) (Δ : ℝ)
    (hΔ : Δ = κ * e0 * (1 - e1) * (e1 - e0)) (hh : 4000 * (n * h) ≤ (κ * (1 - e1) * Δ) ^ 2) (α β : ℝ)
    (hα : α = Real.tan (Real.pi * e0 / 2)) (hβ : β = Real.tan (Real.pi * e1 / 2)) :
    ∃ l : List (Sos ℝ),
      Rounded.butter (.ofRounding r m) s n [a, b] (some .bandpass) none (some .sos) fs = .ok (.sos l) ∧
      l.length = n ∧ (∀ x ∈ l, Stable x) ∧ freqResponse l 0 = 0 ∧ freqResponse l Real.pi = 0 ∧
      ∀ ω t P : ℝ, 0 < |ω| → |ω| < Real.pi → t = Real.tan (ω / 2) →
        P = 1 / (1 + ((t ^ 2 - α * β) / (t * (β - α))) ^ (2 * n)) →
        |‖freqResponse l ω‖ - √P| ≤ (820 * (n * h / (κ * (1 - e1) ^ 2 * Δ)) + 8 * (n * h / Δ ^ 2)) * √P := by
  obtain ⟨l, g, hl, hg, hlen, hst, H⟩ := C123_sections_response hr hm hp 0 hs n e0 e1 κ R hκn S S2 [a, b] (by
    intro w hw
    rcases List.mem_cons.mp hw with rfl | hw
    · exact ha
    · rw [List.mem_singleton.mp hw]; exact hb) fs he Δ hΔ hh
  obtain ⟨d, hd, -, hresp, hd0, hd1, -, -⟩ := C64_bandpass_response 0 s n R.order a b e0 e1 fs none (.inl rfl) he R.pos
    R.lt R.one
  have hdg : d = g := by
    rw [hg] at hd
    simpa using hd.symm
  subst hdg
  have z : ∀ ω : ℝ, d.eval (Complex.exp (Complex.I * ω)) = 0 → freqResponse l ω = 0 := by
    intro ω h0
    have := H ω
    rw [h0, norm_zero, mul_zero, sub_zero] at this
    exact norm_le_zero_iff.mp this
  refine ⟨l, hl, hlen, hst, z 0 (by simpa using hd0), z Real.pi ?_, fun ω t P h0 h1 ht hP => ?_⟩
  · rw [mul_comm, Complex.exp_pi_mul_I]; exact hd1
  · refine abs_norm_sub_le (H ω) ?_
    rw [hresp ω h0 h1, hP, ht, hα, hβ]

/-- **C123** for `f64` with a library accurate to `2^-50`: a band-pass filter of order 4 from 8 Hz to 12 Hz for signals
sampled at 1 kHz is returned as four stable sections that have the Butterworth response up to `3e-5` at every
frequency. -/
theorem C123_example {s : Sorts} (hs : s.Correct) (α β : ℝ) (hα : α = Real.tan (Real.pi * (2 / 125) / 2))
    (hβ : β = Real.tan (Real.pi * (3 / 125) / 2)) : ∃ l : List (Sos ℝ),
    Rounded.butter (.ofRounding binary64 libm64) s 4 [8, 12] (some .bandpass) none (some .sos) (some 1000) =
      .ok (.sos l) ∧
      l.length = 4 ∧ (∀ x ∈ l, Stable x) ∧
      ∀ ω t P : ℝ, 0 < |ω| → |ω| < Real.pi → t = Real.tan (ω / 2) →
        P = 1 / (1 + ((t ^ 2 - α * β) / (t * (β - α))) ^ (2 * 4)) →
        |‖freqResponse l ω‖ - √P| ≤ 3 / 10 ^ 5 * √P := by
  have hint : ∀ k : ℤ, |k| ≤ 100 → binary64.rnd k = k := by
    intro k hk
    refine Binary.rnd_int 53 (-1074) (by norm_num) k (hk.trans_lt (by norm_num))
  have hσ : (2 : ℝ) ^ (-1000 : ℤ) ≤ (((1 - 3 / 125 : ℝ)) ^ 2 * (3 / 125 - 2 / 125) / 20) ^ 4 := by
    have h5 : (2 : ℝ) ^ (-1000 : ℤ) ≤ 2 ^ (-100 : ℤ) := zpow_le_zpow_right₀ (by norm_num) (by norm_num)
    refine h5.trans ?_
    rw [zpow_neg]
    norm_num
  have R : BandRequest 4 (2 / 125) (3 / 125) (1 / 4) (1 / 2 ^ 50) :=
    ⟨by norm_num, by norm_num, by norm_num, by norm_num, by norm_num, by norm_num, by norm_num, by norm_num⟩
  obtain ⟨l, hl, hlen, hst, -, -, H⟩ := C123_bandpass binary64_nearest libm64_accurate libm64_polar hs 4 (2 / 125)
    (3 / 125) (1 / 4) R (by norm_num) (binary64_small_40 (by norm_num)) (binary64_small_pow hσ) 8 12
    (by exact_mod_cast hint 8 (by norm_num)) (by exact_mod_cast hint 12 (by norm_num)) (some 1000)
    (by simp [Spec.edges]; norm_num) _ rfl (by norm_num) α β hα hβ
  refine ⟨l, hl, hlen, hst, fun ω t P h0 h1 ht hP =>
    (H ω t P h0 h1 ht hP).trans (mul_le_mul_of_nonneg_right ?_ (Real.sqrt_nonneg _))⟩
  norm_num

end SciRs.Props

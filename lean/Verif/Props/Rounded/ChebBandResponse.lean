import Verif.Lemmas.Rounded.ChebBandGain
import Verif.Props.Rounded.ChebBand
import Verif.Props.Rounded.BandResponse

/-!
# C133: the frequency response of Chebyshev I band-pass filters designed in floating point

How far the gain and the frequency response of the computed band-pass filter, in both formats, are from those of the
filter designed without rounding, and so from the Chebyshev band-pass response.
-/

namespace SciRs.Props

open SciRs SciRs.Design SciRs.Spec SciRs.Rounded

variable {r : Rounding} {m : Libm} {h : ℝ}

/-- Both designs. -/
theorem cheb_band_both (hr : r.Nearest) (eps : ℝ) (s : Sorts) {n : ℕ} {rp e0 e1 κ Λ : ℝ}
    (R : ChebBandRequest n rp e0 e1 κ Λ h (isStop .bandpass)) (S : Small r h (chebBandFloor n rp e0 κ Λ)) {wn : List ℝ}
    (hW : ∀ w ∈ wn, r.rnd w = w) {fs : Option ℝ} (he : Spec.edges wn fs = [e0, e1]) :
    ∃ f g : Zpk, ∃ f0 f1, |f0 - e0| ≤ h * e0 ∧ |f1 - e1| ≤ h * e1 ∧
      Rounded.cheby1 (.ofRounding r m) s n rp wn (some .bandpass) (some false) (some .zpk) fs = .ok (.zpk f) ∧
      Design.cheby1 eps s n rp wn (some .bandpass) (some false) (some .zpk) fs = .ok (.zpk g) ∧
      f.p = (bandIdx n).map (fun q => (Arith.ofRounding r m).cpole n rp .bandpass f0 f1 q.1 q.2) ∧
      g.p = (bandIdx n).map (fun q => exBilin (exCRoot n rp .bandpass e0 e1 q.1 q.2)) ∧
      f.z = List.replicate n 1 ++ List.replicate n (-1) ∧ g.z = f.z ∧
      f.k = flCBandGain r m n rp f0 f1 ∧ g.k = exCBandGain n rp e0 e1 := by
  obtain ⟨f, f0, f1, hf0, hf1, hf, hfp, -, hE, hd⟩ := cheb_band_answer (m := m) hr s R S hW (.inl rfl) he
  have hpos := R.pos
  have hlt := R.lt
  have hone := R.one
  have hv : Valid (.exact eps) wn (some rp) none .bandpass .chebyshevI false fs := by
    have he' : Rounded.edges (.exact eps) wn fs = [e0, e1] := by rw [← he]; cases fs <;> rfl
    refine ⟨⟨?_, ?_, ?_, ?_, by simp, ?_, by simp, .inr (.inl ⟨rfl, rfl⟩)⟩, by simp⟩
    · rw [he']; rfl
    · rw [he']; simp [Spec.edges]; constructor <;> linarith
    · rw [he']; simp [Spec.edges]; linarith
    · rw [he']; simp [Spec.edges]; constructor <;> linarith
    · rintro x ⟨⟩; exact R.ripple.le
  obtain ⟨g, hg⟩ := (Rounded.design_returns_iff (order := n)).mpr hv
  obtain ⟨w0, w01, -⟩ := exWarp_gap hpos hlt hone
  have hWW := (mul_pos w0 (w0.trans w01)).le
  obtain ⟨gk, gz⟩ := cheb_band_gain_ex R.order he hWW hg
  have hz : f.z = List.replicate n 1 ++ List.replicate n (-1) :=
    (C87_zeros hr m s n wn (some rp) none .bandpass (some .chebyshevI) (by simp) (some false) rfl fs hf).2.2 rfl
  refine ⟨f, g, f0, f1, hf0, hf1, hf, ?_, ?_, ?_, hz, by rw [hz, gz], cheb_band_gain_fl R.order hE hd, gk⟩
  · have := C86_exact eps s n wn (some rp) none (some .bandpass) (some .chebyshevI) (some false) (some .zpk) fs
    rw [Design.cheby1, ← this, Rounded.iirfilter_eq]
    change (Rounded.design (.exact eps) n wn (some rp) none .bandpass .chebyshevI false fs >>= _) = _
    rw [hg]
    rfl
  · rw [hfp]; simp [bandIdx, Function.comp_def]
  · rw [cheb_band_poles_ex R.order he hWW (.inl rfl) hg]
    simp [bandIdx, Function.comp_def]

/-- The sizes of the margin `X`, and the request for the edges alone. -/
theorem cheb_band_sizes {n : ℕ} {rp e0 e1 κ Λ : ℝ} {stop : Bool} (R : ChebBandRequest n rp e0 e1 κ Λ h stop)
    (S : Small r h (chebBandFloor n rp e0 κ Λ)) {X : ℝ} (hX : X = κ * (e0 * (1 - e1) * (e1 - e0)) / Λ ^ 3)
    (hh : 4000 * h ≤ X ^ 2) :
    0 < X ∧ X ≤ 1 / 16 ∧ 1 ≤ Λ ∧ BandRequest 2 e0 e1 κ h ∧ Small r h (κ ^ 2 * e0 ^ 2 / 2) := by
  have hpos := R.pos
  have hlt := R.lt
  have hone := R.one
  have hκ := R.kappa
  have hκh := R.kappa_half
  have h1e : 0 < 1 - e1 := by linarith
  have hΛ : 1 ≤ Λ := (Real.one_le_cosh _).trans R.size
  have hΛ3 : 1 ≤ Λ ^ 3 := one_le_pow₀ hΛ
  obtain ⟨-, -, s3, -, -⟩ := chebBandFloor_le R
  obtain ⟨E, hE⟩ : ∃ E, E = e0 * (1 - e1) * (e1 - e0) := ⟨_, rfl⟩
  have hE0 : 0 < E := by rw [hE]; exact mul_pos (mul_pos hpos h1e) (by linarith)
  have hEs : E ≤ 1 / 16 := by
    have i1 : (1 - e1) * (e1 - e0) ≤ 1 / 4 * (1 - e0) := by nlinarith [sq_nonneg (1 - e1 - (e1 - e0))]
    have i2 : e0 * ((1 - e1) * (e1 - e0)) ≤ e0 * (1 / 4 * (1 - e0)) := mul_le_mul_of_nonneg_left i1 hpos.le
    have i3 : e0 * (1 - e0) ≤ 1 / 4 := by nlinarith [sq_nonneg (e0 - 1 / 2)]
    have i4 : E = e0 * ((1 - e1) * (e1 - e0)) := by rw [hE]; ring
    linarith
  have hXκ : X ≤ κ * E := by rw [hX, ← hE]; exact div_le_self (by positivity) hΛ3
  have hXE : X ≤ E := hXκ.trans (mul_le_of_le_one_left hE0.le (by linarith))
  have hX0 : 0 < X := by rw [hX, ← hE]; positivity
  refine ⟨hX0, hXE.trans hEs, hΛ, ⟨hpos, hlt, hone, by norm_num, hκ, ?_, by norm_num, hh.trans ?_⟩, S.anti ?_⟩
  · have hκ2 : κ ^ 2 ≤ 1 / 4 := by nlinarith
    push_cast; linarith
  · refine pow_le_pow_left₀ hX0.le (hXκ.trans (le_of_eq_of_le (by rw [hE]; ring : _ = κ * (e1 - e0) * (1 - e1) * e0) ?_)) 2
    exact mul_le_of_le_one_right (mul_nonneg (mul_nonneg hκ.le (by linarith)) h1e.le) (by linarith)
  · have := mul_nonneg (sq_nonneg κ) (sq_nonneg e0)
    linarith

/-- **C133**, the gain: for a Chebyshev I band-pass request whose gain does not underflow, the computed gain has a
relative error of at most `20 n h / ((1 - e1) (e1 - e0)) + 1800 n² c² Λ² h / (κ (1 - e1)²)`, where `c = rippleCond rp`
is the condition of the ripple. -/
theorem C133_gain (hr : r.Nearest) (hm : m.Accurate r h) (hm2 : m.AccurateHyp r h) (hp : m.AccuratePolar r h)
    (eps : ℝ) (s : Sorts) (n : ℕ) (rp e0 e1 κ Λ : ℝ) (R : ChebBandRequest n rp e0 e1 κ Λ h false)
    (S : Small r h (chebBandFloor n rp e0 κ Λ))
    (S2 : Small r h ((rippleFloor rp ^ 2 * (1 - e1) ^ 2 * (e1 - e0) / (20 * n ^ 2 * Λ)) ^ n)) (X : ℝ)
    (hX : X = κ * (e0 * (1 - e1) * (e1 - e0)) / Λ ^ 3) (hh : 4000 * h ≤ X ^ 2)
    (hh2 : 40000 * (n ^ 2 * rippleCond rp ^ 2 * Λ ^ 2 * h) ≤ κ * (1 - e1) ^ 2)
    (hh3 : 1200 * (n * h) ≤ (1 - e1) * (e1 - e0))
    (wn : List ℝ) (hW : ∀ w ∈ wn, r.rnd w = w) (fs : Option ℝ) (he : Spec.edges wn fs = [e0, e1]) :
    ∃ f g : Zpk,
      Rounded.cheby1 (.ofRounding r m) s n rp wn (some .bandpass) (some false) (some .zpk) fs = .ok (.zpk f) ∧
      Design.cheby1 eps s n rp wn (some .bandpass) (some false) (some .zpk) fs = .ok (.zpk g) ∧
      f.z = g.z ∧ g.k ≠ 0 ∧
      |f.k - g.k| ≤ (20 * (n * h / ((1 - e1) * (e1 - e0))) +
        1800 * (n ^ 2 * rippleCond rp ^ 2 * Λ ^ 2 * h / (κ * (1 - e1) ^ 2))) * |g.k| := by
  obtain ⟨f, g, f0, f1, hf0, hf1, hf, hg, -, -, -, hz, hk, hk0⟩ := cheb_band_both (m := m) hr eps s R S hW he
  obtain ⟨-, -, -, R2, S3⟩ := cheb_band_sizes R S hX hh
  have h1e : 0 < 1 - e1 := by linarith [R.one]
  have hd : 0 < e1 - e0 := by linarith [R.lt]
  have hκ := R.kappa
  have eP : (n : ℝ) * (4 * (n * rippleCond rp ^ 2 * Λ ^ 2 * h) / (κ * (1 - e1) ^ 2)) =
      4 * (n ^ 2 * rippleCond rp ^ 2 * Λ ^ 2 * h) / (κ * (1 - e1) ^ 2) := by ring
  obtain ⟨k1, k2⟩ := cheb_band_gain_err hr hm hm2 hp R S S2 R2 S3 hf0 hf1 rfl rfl
    (by rw [eP, mul_div_assoc', div_le_one (by positivity)]; linarith)
    (by rw [mul_div_assoc', mul_div_assoc', div_le_one (by positivity)]; exact hh3)
  refine ⟨f, g, hf, hg, hz.symm, by rw [hk0]; exact k1, ?_⟩
  rw [hk, hk0]
  refine k2.trans (le_of_eq ?_)
  rw [eP]
  ring

/-- The poles, and the response of the zeros, poles and gain. -/
theorem cheb_band_close (hr : r.Nearest) (hm : m.Accurate r h) (hm2 : m.AccurateHyp r h) (hp : m.AccuratePolar r h)
    (eps : ℝ) (s : Sorts) {n : ℕ} {rp e0 e1 κ Λ : ℝ} (R : ChebBandRequest n rp e0 e1 κ Λ h (isStop .bandpass))
    (S : Small r h (chebBandFloor n rp e0 κ Λ))
    (S2 : Small r h ((rippleFloor rp ^ 2 * (1 - e1) ^ 2 * (e1 - e0) / (20 * n ^ 2 * Λ)) ^ n)) {wn : List ℝ}
    (hW : ∀ w ∈ wn, r.rnd w = w) {fs : Option ℝ} (he : Spec.edges wn fs = [e0, e1]) {X ν : ℝ}
    (hX : X = κ * (e0 * (1 - e1) * (e1 - e0)) / Λ ^ 3) (hh : 4000 * h ≤ X ^ 2)
    (hν : ν = 4 * (n ^ 2 * rippleCond rp ^ 2 * Λ ^ 2 * h) / (κ * (1 - e1) ^ 2 * X)) (hν1 : 10000 * ν ≤ 1) :
    ∃ f g : Zpk,
      Rounded.cheby1 (.ofRounding r m) s n rp wn (some .bandpass) (some false) (some .zpk) fs = .ok (.zpk f) ∧
      Design.cheby1 eps s n rp wn (some .bandpass) (some false) (some .zpk) fs = .ok (.zpk g) ∧
      f.z = List.replicate n 1 ++ List.replicate n (-1) ∧ f.p.length = 2 * n ∧
      (∀ p ∈ f.p, ‖p‖ ≤ 1 - 0.9 * X) ∧
      ∀ x : ℂ, ‖x‖ = 1 → ‖f.eval x - g.eval x‖ ≤ 820 * ν * ‖g.eval x‖ := by
  have hh0 := S.h_nonneg
  obtain ⟨f, g, f0, f1, hf0, hf1, hf, hg, hpl, hpl0, hz, hz0, hk, hk0⟩ := cheb_band_both (m := m) hr eps s R S hW he
  obtain ⟨hX0, hX16, c1, R2, S3⟩ := cheb_band_sizes R S hX hh
  obtain ⟨-, kc, -⟩ := ripple_facts R.ripple
  have hpos := R.pos
  have hlt := R.lt
  have hone := R.one
  have hκ := R.kappa
  have hκ1 : κ ≤ 1 := by linarith [R.kappa_half]
  have h1e : 0 < 1 - e1 := by linarith
  have hd : 0 < e1 - e0 := by linarith
  have hn1 : (1 : ℝ) ≤ n := by exact_mod_cast Nat.one_le_iff_ne_zero.mpr R.order
  obtain ⟨P, hP⟩ : ∃ P, P = 4 * (n * rippleCond rp ^ 2 * Λ ^ 2 * h) / (κ * (1 - e1) ^ 2) := ⟨_, rfl⟩
  have hP0 : 0 ≤ P := by rw [hP]; positivity
  have hν0 : 0 ≤ ν := by rw [hν]; positivity
  have hnP : n * P = ν * X := by rw [hν, hP]; field_simp
  have hPn : P ≤ n * P := by nlinarith
  have hPX : 10000 * P ≤ X := by
    have := mul_le_mul_of_nonneg_right hν1 hX0.le
    linarith
  have hνX : ν * X ≤ ν * (1 / 16) := mul_le_mul_of_nonneg_left hX16 hν0
  have hG : n * (h / ((1 - e1) * (e1 - e0))) ≤ ν := by
    have hC : 1 ≤ n * rippleCond rp ^ 2 * Λ ^ 2 := one_le_mul_of_one_le_of_one_le
      (one_le_mul_of_one_le_of_one_le hn1 (one_le_pow₀ kc)) (one_le_pow₀ c1)
    have i1 : n * h ≤ n ^ 2 * rippleCond rp ^ 2 * Λ ^ 2 * h := by
      have := le_mul_of_one_le_left (by positivity : 0 ≤ n * h) hC
      linarith
    have i2 : κ * (1 - e1) ^ 2 * X ≤ (1 - e1) * (e1 - e0) := by
      have hΛ3 : 1 ≤ Λ ^ 3 := one_le_pow₀ c1
      have j1 : X ≤ κ * (e0 * (1 - e1) * (e1 - e0)) := by rw [hX]; exact div_le_self (by positivity) hΛ3
      have j2 : κ * (e0 * (1 - e1) * (e1 - e0)) = κ * e0 * ((1 - e1) * (e1 - e0)) := by ring
      have j3 : κ * e0 * ((1 - e1) * (e1 - e0)) ≤ (1 - e1) * (e1 - e0) :=
        mul_le_of_le_one_left (by positivity) (mul_le_one₀ hκ1 hpos.le (by linarith))
      have j4 : κ * (1 - e1) ^ 2 * X ≤ X := mul_le_of_le_one_left hX0.le
        (mul_le_one₀ hκ1 (sq_nonneg _) (pow_le_one₀ h1e.le (by linarith)))
      linarith
    rw [mul_div_assoc', hν, div_le_div_iff₀ (by positivity) (by positivity)]
    have i3 := mul_le_mul i1 i2 (by positivity) (by positivity)
    have i4 : 0 ≤ n ^ 2 * rippleCond rp ^ 2 * Λ ^ 2 * h * ((1 - e1) * (e1 - e0)) := by positivity
    linarith
  obtain ⟨-, k2⟩ := cheb_band_gain_err hr hm hm2 hp R S S2 R2 S3 hf0 hf1 hP rfl (by rw [hnP]; linarith) (by linarith)
  rw [← hk, ← hk0, hnP] at k2
  have k3 : |f.k - g.k| ≤ 49 * ν * |g.k| := k2.trans (mul_le_mul_of_nonneg_right (by linarith) (abs_nonneg _))
  have perr : ∀ q ∈ bandIdx n, ‖(Arith.ofRounding r m).cpole n rp .bandpass f0 f1 q.1 q.2 -
      exBilin (exCRoot n rp .bandpass e0 e1 q.1 q.2)‖ ≤ 310 * P := by
    intro q hq
    refine (cheb_band_pole_err hr hm hm2 hp R S hf0 hf1 (mem_bandIdx hq) q.2).1.trans (le_of_eq ?_)
    rw [hP]; ring
  have pin0 : ∀ q ∈ bandIdx n, ‖exBilin (exCRoot n rp .bandpass e0 e1 q.1 q.2)‖ ≤ 1 - X := by
    intro q hq
    exact (cheb_band_margin R (mem_bandIdx hq) q.2 hX).2.1
  have pin : ∀ q ∈ bandIdx n, ‖(Arith.ofRounding r m).cpole n rp .bandpass f0 f1 q.1 q.2‖ ≤ 1 - 0.9 * X := by
    intro q hq
    have := norm_add_le ((Arith.ofRounding r m).cpole n rp .bandpass f0 f1 q.1 q.2 -
      exBilin (exCRoot n rp .bandpass e0 e1 q.1 q.2)) (exBilin (exCRoot n rp .bandpass e0 e1 q.1 q.2))
    rw [sub_add_cancel] at this
    have := perr q hq
    have := pin0 q hq
    linarith
  refine ⟨f, g, hf, hg, hz, by rw [hpl, List.length_map, bandIdx_length], ?_, fun x hx => ?_⟩
  · intro p hpm
    rw [hpl] at hpm
    obtain ⟨j, hj, rfl⟩ := List.mem_map.mp hpm
    exact pin j hj
  · obtain ⟨c, hc⟩ : ∃ c, c = 310 / 0.9 * (P / X) := ⟨_, rfl⟩
    have hc0 : 0 ≤ c := by rw [hc]; positivity
    have hcd : 310 * P = c * (0.9 * X) := by rw [hc]; field_simp
    have k := eval_err hz0.symm hpl hpl0 (x := x) (c := c) (d := 0.9 * X) (a := 49 * ν) hc0 (by positivity)
      (fun q hq => by
        have := norm_sub_norm_le x ((Arith.ofRounding r m).cpole n rp .bandpass f0 f1 q.1 q.2)
        have := pin q hq
        linarith)
      (fun q hq hxe => by
        have := pin0 q hq
        rw [← hxe, hx] at this
        linarith)
      (fun q hq => by rw [← hcd]; exact perr q hq) (by positivity) k3
    rw [bandIdx_length] at k
    refine k.trans (mul_le_mul_of_nonneg_right ?_ (norm_nonneg _))
    have hnc : ((2 * n : ℕ) : ℝ) * c = 620 / 0.9 * ν := by
      have e : ν = n * P / X := by rw [hnP]; field_simp
      rw [hc, e]; push_cast; ring
    have hp1 := one_add_pow_le hc0 (n := 2 * n) (by rw [hnc]; linarith)
    rw [hnc] at hp1
    have i2 : 49 * ν * ((1 + c) ^ (2 * n) - 1) ≤ 49 * ν * (1.1 * (620 / 0.9 * ν)) :=
      mul_le_mul_of_nonneg_left (by linarith) (by positivity)
    have i3 : ν * ν ≤ ν * (1 / 10000) := mul_le_mul_of_nonneg_left (by linarith) hν0
    nlinarith

/-- **C133**, the frequency response of the zeros, poles and gain: at every frequency the computed band-pass filter has
the response of the filter designed without rounding, up to the relative error
`3280 n² c² Λ² h / (κ (1 - e1)² X)`, with the margin `X = κ e0 (1 - e1) (e1 - e0) / Λ³` of C131. -/
theorem C133_zpk_response (hr : r.Nearest) (hm : m.Accurate r h) (hm2 : m.AccurateHyp r h) (hp : m.AccuratePolar r h)
    (eps : ℝ) (s : Sorts) (n : ℕ) (rp e0 e1 κ Λ : ℝ) (R : ChebBandRequest n rp e0 e1 κ Λ h false)
    (S : Small r h (chebBandFloor n rp e0 κ Λ))
    (S2 : Small r h ((rippleFloor rp ^ 2 * (1 - e1) ^ 2 * (e1 - e0) / (20 * n ^ 2 * Λ)) ^ n)) (X : ℝ)
    (hX : X = κ * (e0 * (1 - e1) * (e1 - e0)) / Λ ^ 3) (hh : 4000 * h ≤ X ^ 2)
    (hh2 : 40000 * (n ^ 2 * rippleCond rp ^ 2 * Λ ^ 2 * h) ≤ κ * (1 - e1) ^ 2 * X)
    (wn : List ℝ) (hW : ∀ w ∈ wn, r.rnd w = w) (fs : Option ℝ) (he : Spec.edges wn fs = [e0, e1]) :
    ∃ f g : Zpk,
      Rounded.cheby1 (.ofRounding r m) s n rp wn (some .bandpass) (some false) (some .zpk) fs = .ok (.zpk f) ∧
      Design.cheby1 eps s n rp wn (some .bandpass) (some false) (some .zpk) fs = .ok (.zpk g) ∧
      ∀ x : ℂ, ‖x‖ = 1 → ‖f.eval x - g.eval x‖ ≤
        3280 * (n ^ 2 * rippleCond rp ^ 2 * Λ ^ 2 * h / (κ * (1 - e1) ^ 2 * X)) * ‖g.eval x‖ := by
  obtain ⟨hX0, -⟩ := cheb_band_sizes R S hX hh
  have hκ := R.kappa
  have h1e : 0 < 1 - e1 := by linarith [R.one]
  obtain ⟨f, g, hf, hg, -, -, -, H⟩ := cheb_band_close hr hm hm2 hp eps s R S S2 hW he hX hh rfl (by
    rw [mul_div_assoc', div_le_one (by positivity)]
    linarith)
  refine ⟨f, g, hf, hg, fun x hx => (H x hx).trans (le_of_eq ?_)⟩
  ring

/-- **C133**, the frequency response of the sections: at every frequency the sections computed in floating point have
the response of the filter designed without rounding, up to the relative error
`3280 n² c² Λ² h / (κ (1 - e1)² X) + 8 n h / X²`. -/
theorem C133_sections_response (hr : r.Nearest) (hm : m.Accurate r h) (hm2 : m.AccurateHyp r h)
    (hp : m.AccuratePolar r h) (eps : ℝ) {s : Sorts} (hs : s.Correct) (n : ℕ) (rp e0 e1 κ Λ : ℝ)
    (R : ChebBandRequest n rp e0 e1 κ Λ h false) (S : Small r h (chebBandFloor n rp e0 κ Λ))
    (S2 : Small r h ((rippleFloor rp ^ 2 * (1 - e1) ^ 2 * (e1 - e0) / (20 * n ^ 2 * Λ)) ^ n)) (X : ℝ)
    (hX : X = κ * (e0 * (1 - e1) * (e1 - e0)) / Λ ^ 3) (hh : 4000 * (n * h) ≤ X ^ 2)
    (hh2 : 40000 * (n ^ 2 * rippleCond rp ^ 2 * Λ ^ 2 * h) ≤ κ * (1 - e1) ^ 2 * X)
    (wn : List ℝ) (hW : ∀ w ∈ wn, r.rnd w = w) (fs : Option ℝ) (he : Spec.edges wn fs = [e0, e1]) :
    ∃ (l : List (Sos ℝ)) (g : Zpk),
      Rounded.cheby1 (.ofRounding r m) s n rp wn (some .bandpass) (some false) (some .sos) fs = .ok (.sos l) ∧
      Design.cheby1 eps s n rp wn (some .bandpass) (some false) (some .zpk) fs = .ok (.zpk g) ∧
      l.length = n ∧ (∀ x ∈ l, Stable x) ∧
      ∀ ω : ℝ, ‖freqResponse l ω - g.eval (Complex.exp (Complex.I * ω))‖ ≤
        (3280 * (n ^ 2 * rippleCond rp ^ 2 * Λ ^ 2 * h / (κ * (1 - e1) ^ 2 * X)) + 8 * (n * h / X ^ 2)) *
          ‖g.eval (Complex.exp (Complex.I * ω))‖ := by
  have hh0 := S.h_nonneg
  have hn1 : (1 : ℝ) ≤ n := by exact_mod_cast Nat.one_le_iff_ne_zero.mpr R.order
  have hhn : h ≤ n * h := by nlinarith
  obtain ⟨hX0, hX16, c1, -, S3⟩ := cheb_band_sizes R S hX (by linarith)
  have hpos := R.pos
  have hκ := R.kappa
  have hone := R.one
  have hlt := R.lt
  have h1e : 0 < 1 - e1 := by linarith
  have hX2 : 0 < X ^ 2 := by positivity
  obtain ⟨μ, hμ⟩ : ∃ μ, μ = n * h / X ^ 2 := ⟨_, rfl⟩
  have hμ0 : 0 ≤ μ := by rw [hμ]; positivity
  have hμ1 : 4000 * μ ≤ 1 := by rw [hμ, mul_div_assoc', div_le_one hX2]; exact hh
  obtain ⟨ν, hν⟩ : ∃ ν, ν = 4 * (n ^ 2 * rippleCond rp ^ 2 * Λ ^ 2 * h) / (κ * (1 - e1) ^ 2 * X) := ⟨_, rfl⟩
  have hν0 : 0 ≤ ν := by rw [hν]; positivity
  have hν1 : 10000 * ν ≤ 1 := by
    rw [hν, mul_div_assoc', div_le_one (by positivity)]; linarith
  obtain ⟨f, g, hf, hg, hz, hpn, hin, A1⟩ := cheb_band_close (m := m) hr hm hm2 hp eps s R S S2 hW he hX (by linarith)
    hν hν1
  have hQ : n * rippleCond rp ^ 2 * Λ ^ 2 * h ≤ n ^ 2 * rippleCond rp ^ 2 * Λ ^ 2 * h := by
    have := le_mul_of_one_le_left (by positivity : 0 ≤ n * rippleCond rp ^ 2 * Λ ^ 2 * h) hn1
    linarith
  obtain ⟨l, hl, hlen, hst, -⟩ := C131_sections hr hm hm2 hp hs n rp e0 e1 κ Λ .bandpass (.inl rfl) R S
    (by rw [← hX]; linarith) (by rw [← hX]; linarith) wn hW fs he
  refine ⟨l, g, hl, hg, hlen, hst, fun ω => ?_⟩
  have hke : κ ^ 2 * e0 ^ 2 / 2 ≤ 1 := by
    have i1 := mul_le_one₀ (pow_le_one₀ hκ.le (by linarith [R.kappa_half]) : κ ^ 2 ≤ 1) (sq_nonneg e0)
      (pow_le_one₀ hpos.le (by linarith) : e0 ^ 2 ≤ 1)
    linarith
  have hkp : KeepsPairs .bandpass .chebyshevI := by simp [KeepsPairs]
  have A2 := sections_signs S3 hke hr hs R.order hkp hl hf (fun z hzm => by
      rw [hz] at hzm
      rcases List.mem_append.mp hzm with k | k
      · exact .inl (List.mem_replicate.mp k).2
      · exact .inr (List.mem_replicate.mp k).2)
    (by rw [hpn]; have := Nat.pos_of_ne_zero R.order; omega) hpn.le (δ := 0.9 * X) (by positivity) hin (by
      have : (0.9 * X) ^ 2 = 0.81 * X ^ 2 := by ring
      rw [this]
      linarith) ω
  have hx1 : ‖Complex.exp (Complex.I * ω)‖ = 1 := by rw [mul_comm]; exact Complex.norm_exp_ofReal_mul_I ω
  have A1 := A1 _ hx1
  obtain ⟨G, hG⟩ : ∃ G, G = g.eval (Complex.exp (Complex.I * ω)) := ⟨_, rfl⟩
  obtain ⟨F, hF⟩ : ∃ F, F = f.eval (Complex.exp (Complex.I * ω)) := ⟨_, rfl⟩
  rw [← hG] at A1 ⊢
  rw [← hF] at A1 A2
  have eν : 3280 * (n ^ 2 * rippleCond rp ^ 2 * Λ ^ 2 * h / (κ * (1 - e1) ^ 2 * X)) = 820 * ν := by rw [hν]; ring
  rw [eν, ← hμ]
  have hc : 5.16 * h / (0.9 * X) ^ 2 = 5.16 / 0.81 * (h / X ^ 2) := by
    have : (0.9 * X) ^ 2 = 0.81 * X ^ 2 := by ring
    rw [this]; field_simp
  have e1 : n * (5.16 / 0.81 * (h / X ^ 2)) = 5.16 / 0.81 * μ := by rw [hμ]; ring
  have hp1 := one_add_pow_le (κ := 5.16 / 0.81 * (h / X ^ 2)) (by positivity) (n := n) (by rw [e1]; linarith)
  rw [e1] at hp1
  rw [hc] at A2
  have A3 : ‖freqResponse l ω - F‖ ≤ 7.1 * μ * ‖F‖ :=
    A2.trans (mul_le_mul_of_nonneg_right (by linarith) (norm_nonneg _))
  have A5 : ‖F‖ ≤ 1.082 * ‖G‖ := by
    have := norm_add_le (F - G) G
    rw [sub_add_cancel] at this
    have : ν * ‖G‖ ≤ 1 / 10000 * ‖G‖ := mul_le_mul_of_nonneg_right (by linarith) (norm_nonneg _)
    linarith
  have A6 : 7.1 * μ * ‖F‖ ≤ 7.1 * μ * (1.082 * ‖G‖) := mul_le_mul_of_nonneg_left A5 (by positivity)
  have A7 := norm_add_le (freqResponse l ω - F) (F - G)
  rw [sub_add_sub_cancel] at A7
  have A8 : 0 ≤ μ * ‖G‖ := by positivity
  linarith

/-- **C133**, the Chebyshev response: with `t = tan(ω/2)`, `α = tan(π e0/2)` and `β = tan(π e1/2)`, the amplitude
response of the computed sections is `1 / √(1 + ε² Tₙ((t² - αβ) / (t (β - α)))²)` up to that relative error, where
`ε² = 10^(rp/10) - 1`. -/
theorem C133_bandpass (hr : r.Nearest) (hm : m.Accurate r h) (hm2 : m.AccurateHyp r h) (hp : m.AccuratePolar r h)
    {s : Sorts} (hs : s.Correct) (n : ℕ) (rp e0 e1 κ Λ : ℝ) (R : ChebBandRequest n rp e0 e1 κ Λ h false)
    (S : Small r h (chebBandFloor n rp e0 κ Λ))
    (S2 : Small r h ((rippleFloor rp ^ 2 * (1 - e1) ^ 2 * (e1 - e0) / (20 * n ^ 2 * Λ)) ^ n)) (X : ℝ)
    (hX : X = κ * (e0 * (1 - e1) * (e1 - e0)) / Λ ^ 3) (hh : 4000 * (n * h) ≤ X ^ 2)
    (hh2 : 40000 * (n ^ 2 * rippleCond rp ^ 2 * Λ ^ 2 * h) ≤ κ * (1 - e1) ^ 2 * X) (a b : ℝ)
    (ha : r.rnd a = a) (hb : r.rnd b = b) (fs : Option ℝ) (he : Spec.edges [a, b] fs = [e0, e1]) (α β : ℝ)
    (hα : α = Real.tan (Real.pi * e0 / 2)) (hβ : β = Real.tan (Real.pi * e1 / 2)) :
    ∃ l : List (Sos ℝ),
      Rounded.cheby1 (.ofRounding r m) s n rp [a, b] (some .bandpass) (some false) (some .sos) fs = .ok (.sos l) ∧
      l.length = n ∧ (∀ x ∈ l, Stable x) ∧ freqResponse l 0 = 0 ∧ freqResponse l Real.pi = 0 ∧
      ∀ ω t P : ℝ, 0 < |ω| → |ω| < Real.pi → t = Real.tan (ω / 2) →
        P = 1 / (1 + ((10 : ℝ) ^ (rp / 10) - 1) *
          (Polynomial.Chebyshev.T ℝ n).eval ((t ^ 2 - α * β) / (t * (β - α))) ^ 2) →
        |‖freqResponse l ω‖ - √P| ≤
          (3280 * (n ^ 2 * rippleCond rp ^ 2 * Λ ^ 2 * h / (κ * (1 - e1) ^ 2 * X)) + 8 * (n * h / X ^ 2)) * √P := by
  obtain ⟨l, g, hl, hg, hlen, hst, H⟩ := C133_sections_response hr hm hm2 hp 0 hs n rp e0 e1 κ Λ R S S2 X hX hh hh2
    [a, b] (by
      intro w hw
      rcases List.mem_cons.mp hw with rfl | hw
      · exact ha
      · rw [List.mem_singleton.mp hw]; exact hb) fs he
  obtain ⟨⟨d, hd, -, hresp, hd0, hd1⟩, -⟩ := C63_bandpass_bandstop 0 s n R.order rp R.ripple a b e0 e1 fs (some false)
    (.inr rfl) he R.pos R.lt R.one
  have hdg : d = g := by
    rw [hg] at hd
    simpa using hd.symm
  subst hdg
  have z : ∀ ω : ℝ, d.eval (Complex.exp (Complex.I * ω)) = 0 → freqResponse l ω = 0 := by
    intro ω h0
    have := H ω
    rw [h0, norm_zero, mul_zero, sub_zero] at this
    exact norm_le_zero_iff.mp this
  refine ⟨l, hl, hlen, hst, z 0 (by simpa using hd0), z Real.pi ?_, fun ω t P h0 h1 ht hP => ?_⟩
  · rw [mul_comm, Complex.exp_pi_mul_I]; exact hd1
  · refine abs_norm_sub_le (H ω) ?_
    rw [hresp ω h0 h1, hP, ht, hα, hβ, cheb1Power]

/-- **C133** for `f64` with a library accurate to `2^-50`: a band-pass filter of order 2 with a ripple of 1 dB from
125 Hz to 250 Hz for signals sampled at 1 kHz is returned as two stable sections that have the Chebyshev response up to
`3e-4` at every frequency. -/
theorem C133_example {s : Sorts} (hs : s.Correct) (α β : ℝ) (hα : α = Real.tan (Real.pi * (1 / 4) / 2))
    (hβ : β = Real.tan (Real.pi * (1 / 2) / 2)) : ∃ l : List (Sos ℝ),
    Rounded.cheby1 (.ofRounding binary64 libm64) s 2 1 [125, 250] (some .bandpass) (some false) (some .sos) (some 1000)
      = .ok (.sos l) ∧ l.length = 2 ∧ (∀ x ∈ l, Stable x) ∧
      ∀ ω t P : ℝ, 0 < |ω| → |ω| < Real.pi → t = Real.tan (ω / 2) →
        P = 1 / (1 + ((10 : ℝ) ^ ((1 : ℝ) / 10) - 1) *
          (Polynomial.Chebyshev.T ℝ 2).eval ((t ^ 2 - α * β) / (t * (β - α))) ^ 2) →
        |‖freqResponse l ω‖ - √P| ≤ 3 / 10 ^ 4 * √P := by
  obtain ⟨h1, h2⟩ := one_decibel
  obtain ⟨-, k1, -, -, -, -, -, g1, -⟩ := ripple_facts one_pos
  obtain ⟨-, m1, -, m2, m3, -⟩ := mu_facts (n := 2) (by norm_num) one_pos
  have e : passMu 2 1 = exMu 2 1 := rfl
  have hc : rippleCond 1 ^ 2 ≤ 100 := by
    have := pow_le_pow_left₀ (by linarith) h1 2
    norm_num at this
    exact this
  have hc0 : 0 ≤ rippleCond 1 ^ 2 := sq_nonneg _
  have hint : ∀ k : ℤ, |k| ≤ 1000 → binary64.rnd k = k := by
    intro k hk
    refine Binary.rnd_int 53 (-1074) (by norm_num) k (hk.trans_lt (by norm_num))
  have R : ChebBandRequest 2 1 (1 / 4) (1 / 2) (1 / 2) (16 / 5) (1 / 2 ^ 50) false := by
    refine ⟨by norm_num, by norm_num, by norm_num, by norm_num, one_pos, by norm_num, by norm_num, by norm_num, ?_, ?_,
      fun h => by norm_num at h, ?_, ?_⟩
    · rw [e]
      exact abs_le_of_sq_le_sq' (m3.trans (by linarith)) (by norm_num) |>.2
    · rw [e]
      have i1 := Real.self_le_sinh_iff.mpr m1.le
      push_cast at m2
      have i2 : (0.44 : ℝ) ≤ rippleFloor 1 / 2 := by rw [le_div_iff₀ (by norm_num)]; norm_num at h2 ⊢; linarith
      norm_num at i2
      linarith
    · push_cast
      norm_num
      linarith
    · push_cast
      norm_num
      linarith
  have S : Small binary64 (1 / 2 ^ 50) (chebBandFloor 2 1 (1 / 4) (1 / 2) (16 / 5)) := by
    refine binary64_small_40 ?_
    rw [chebBandFloor, le_div_iff₀ (by push_cast; linarith)]
    push_cast
    norm_num at h2 ⊢
    linarith
  have hσ : (2 : ℝ) ^ (-1000 : ℤ) ≤
      (rippleFloor 1 ^ 2 * (1 - 1 / 2) ^ 2 * (1 / 2 - 1 / 4) / (20 * (2 : ℕ) ^ 2 * (16 / 5))) ^ 2 := by
    have g1 : (2 : ℝ) ^ (-1000 : ℤ) ≤ 2 ^ (-100 : ℤ) := zpow_le_zpow_right₀ (by norm_num) (by norm_num)
    have g2 : (0.0001 : ℝ) ≤ rippleFloor 1 ^ 2 * (1 - 1 / 2) ^ 2 * (1 / 2 - 1 / 4) / (20 * (2 : ℕ) ^ 2 * (16 / 5)) := by
      have := pow_le_pow_left₀ (by norm_num) h2 2
      push_cast
      norm_num at this ⊢
      linarith
    refine g1.trans (le_trans ?_ (pow_le_pow_left₀ (by norm_num) g2 2))
    rw [zpow_neg]
    norm_num
  obtain ⟨l, hl, hlen, hst, -, -, H⟩ := C133_bandpass binary64_nearest libm64_accurate libm64_accurateHyp libm64_polar
    hs 2 1 (1 / 4) (1 / 2) (1 / 2) (16 / 5) R S (binary64_small_pow hσ) _ rfl (by norm_num)
    (by push_cast; norm_num; linarith) 125 250
    (by exact_mod_cast hint 125 (by norm_num)) (by exact_mod_cast hint 250 (by norm_num)) (some 1000)
    (by simp [Spec.edges]; norm_num) α β hα hβ
  refine ⟨l, hl, hlen, hst, fun ω t P h0 h1 ht hP =>
    (H ω t P h0 h1 ht (by exact_mod_cast hP)).trans (mul_le_mul_of_nonneg_right ?_ (Real.sqrt_nonneg _))⟩
  push_cast
  norm_num
  linarith

end SciRs.Props

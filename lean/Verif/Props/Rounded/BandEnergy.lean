import Verif.Props.Design.DesignEnergy
import Verif.Props.Rounded.BandResponse
import Verif.Props.Rounded.StopResponse

/-!
# C128: signals filtered with band-pass and band-stop filters designed in floating point
-/

namespace SciRs.Props

open SciRs SciRs.Design SciRs.Spec SciRs.Rounded

variable {r : Rounding} {m : Libm} {h : ℝ}

/-- The sections of a Butterworth band filter designed in floating point are normalised and at rest. -/
theorem band_sections_rest (hr : r.Nearest) {s : Sorts} (hs : s.Correct) {n : ℕ} (hn : n ≠ 0) {wn : List ℝ}
    {band : Band} {fs : Option ℝ} {l : List (Sos ℝ)}
    (hl : Rounded.butter (.ofRounding r m) s n wn (some band) none (some .sos) fs = .ok (.sos l)) :
    (∀ c ∈ l, c.a0 = 1) ∧ AtRest l := by
  obtain ⟨f', -, -, -, -, -, q0, qs, hl', -⟩ := C87_coefficients hr m hs n hn wn none none (some band)
    (some .butterworth) (some false) rfl fs (by simp [KeepsPairs]) hl
  rw [hl']
  constructor
  · intro c hc
    rcases List.mem_cons.mp hc with rfl | hc
    · rfl
    · obtain ⟨q, -, rfl⟩ := List.mem_map.mp hc
      rfl
  · intro c hc
    rcases List.mem_cons.mp hc with rfl | hc
    · exact ⟨rfl, rfl⟩
    · obtain ⟨q, -, rfl⟩ := List.mem_map.mp hc
      exact ⟨rfl, rfl⟩

/-- **C128** Filter a signal with the sections of a Butterworth band-pass or band-stop filter computed in floating
point, and with the sections the design gives without rounding.  The difference of the outputs has at most `bound²`
times the energy of the signal, and the first output at most `(1 + bound)²` times that energy, where
`bound = 1600 n h / (κ (1 - e1)² Δ) + 9 n h / Δ²` with `Δ = κ e0 (1 - e1) (e1 - e0)`. -/
theorem C128_band_energy (hr : r.Nearest) (hm : m.Accurate r h) (hp : m.AccuratePolar r h) (eps : ℝ) (heps : 0 ≤ eps)
    {s : Sorts} (hs : s.Correct) (n : ℕ) (e0 e1 κ : ℝ) (R : BandRequest n e0 e1 κ h) (hκn : κ ≤ 1 / n)
    (S : Small r h (κ ^ 2 * e0 ^ 2 / 2)) (S2 : Small r h (((1 - e1) ^ 2 * (e1 - e0) / 20) ^ n)) (a b : ℝ)
    (ha : r.rnd a = a) (hb : r.rnd b = b) (band : Band) (hband : band = .bandpass ∨ band = .bandstop)
    (fs : Option ℝ) (he : Spec.edges [a, b] fs = [e0, e1]) (Δ : ℝ)
    (hΔ : Δ = κ * e0 * (1 - e1) * (e1 - e0)) (hh : 4000 * (n * h) ≤ (κ * (1 - e1) * Δ) ^ 2) (bound : ℝ)
    (hbd : bound = 1600 * (n * h / (κ * (1 - e1) ^ 2 * Δ)) + 9 * (n * h / Δ ^ 2))
    (l0 : List (Sos ℝ)) (hl0 : Design.butter eps s n [a, b] (some band) none (some .sos) fs = .ok (.sos l0)) :
    ∃ l : List (Sos ℝ), Rounded.butter (.ofRounding r m) s n [a, b] (some band) none (some .sos) fs = .ok (.sos l) ∧
      ∀ x : List ℝ, energy (signalDiff (sosfiltDyn x l).1 (sosfiltDyn x l0).1) ≤ bound ^ 2 * energy x ∧
        energy (sosfiltDyn x l).1 ≤ (1 + bound) ^ 2 * energy x := by
  have hW : ∀ w ∈ [a, b], r.rnd w = w := by
    intro w hw
    rcases List.mem_cons.mp hw with rfl | hw
    · exact ha
    · rw [List.mem_singleton.mp hw]; exact hb
  have hh0 := S.h_nonneg
  have hpos := R.pos
  have hκ := R.kappa
  have h1e : 0 < 1 - e1 := by linarith [R.one]
  have hd : 0 < e1 - e0 := by linarith [R.lt]
  have hΔ0 : 0 < Δ := by rw [hΔ]; positivity
  have hv : ValidRequest [a, b] none none band .butterworth false fs :=
    valid_pair hband he R.pos R.lt R.one (by simp) (by simp) (.inl rfl)
  obtain ⟨a1, a2, a3, d, hd', a4⟩ := design_sections eps s heps hs n R.order [a, b] none none (some band)
    (some .butterworth) (some false) (.inr rfl) fs hv ⟨by simp, by simp⟩ (by simp) l0 hl0
  have key : ∃ l : List (Sos ℝ),
      Rounded.butter (.ofRounding r m) s n [a, b] (some band) none (some .sos) fs = .ok (.sos l) ∧
      (∀ x ∈ l, Stable x) ∧ ∀ ω : ℝ, |ω| < Real.pi → ‖freqResponse l ω - freqResponse l0 ω‖ ≤ bound := by
    have same : ∀ g : Zpk, Design.butter eps s n [a, b] (some band) none (some .zpk) fs = .ok (.zpk g) → d = g := by
      intro g hg
      have : iirfilter eps s n [a, b] none none (some band) (some .butterworth) (some false) (some .zpk) fs =
        .ok (.zpk g) := hg
      rw [this] at hd'
      simpa using hd'.symm
    rcases hband with rfl | rfl
    · obtain ⟨l, g, hl, hg, -, hst, H⟩ := C123_sections_response hr hm hp eps hs n e0 e1 κ R hκn S S2 [a, b] hW fs he
        Δ hΔ hh
      obtain rfl := same g hg
      refine ⟨l, hl, hst, fun ω hω => ?_⟩
      have h5 := a3 ω hω
      rw [a4] at h5 ⊢
      refine (H ω).trans ((mul_le_of_le_one_right (by positivity) h5).trans ?_)
      have i1 : 0 ≤ n * h / (κ * (1 - e1) ^ 2 * Δ) := by positivity
      have i2 : 0 ≤ n * h / Δ ^ 2 := by positivity
      rw [hbd]
      linarith
    · obtain ⟨l, g, hl, hg, -, hst, H⟩ := C127_sections_response hr hm hp eps hs n e0 e1 κ R hκn S S2 a b hW fs he
        Δ hΔ hh
      obtain rfl := same g hg
      refine ⟨l, hl, hst, fun ω hω => ?_⟩
      rw [a4, hbd]
      exact H ω
  obtain ⟨l, hl, hst, H⟩ := key
  obtain ⟨c1, c2⟩ := band_sections_rest hr hs R.order hl
  refine ⟨l, hl, fun x => ⟨C92_distance l l0 (fun c hc => ⟨c1 c hc, hst c hc⟩) a1 c2 a2 _ H x,
    C92_energy l (fun c hc => ⟨c1 c hc, hst c hc⟩) c2 _ (fun ω hω => ?_) x⟩⟩
  have i1 := H ω hω
  have i2 := a3 ω hω
  have i3 := norm_sub_norm_le (freqResponse l ω) (freqResponse l0 ω)
  linarith

/-- **C128** for `f64` with a library accurate to `2^-50`: band-pass and band-stop filters of order 4 from 8 Hz to
12 Hz for signals sampled at 1 kHz.  The relative error of the output, measured by its energy, is at most `5e-5`. -/
theorem C128_example {s : Sorts} (hs : s.Correct) (band : Band) (hband : band = .bandpass ∨ band = .bandstop) :
    ∃ l l0 : List (Sos ℝ),
    Rounded.butter (.ofRounding binary64 libm64) s 4 [8, 12] (some band) none (some .sos) (some 1000) = .ok (.sos l) ∧
    Design.butter 0 s 4 [8, 12] (some band) none (some .sos) (some 1000) = .ok (.sos l0) ∧
      ∀ x : List ℝ, energy (signalDiff (sosfiltDyn x l).1 (sosfiltDyn x l0).1) ≤ (5 / 10 ^ 5) ^ 2 * energy x := by
  have hint : ∀ k : ℤ, |k| ≤ 100 → binary64.rnd k = k := by
    intro k hk
    refine Binary.rnd_int 53 (-1074) (by norm_num) k (hk.trans_lt (by norm_num))
  have hσ : (2 : ℝ) ^ (-1000 : ℤ) ≤ (((1 - 3 / 125 : ℝ)) ^ 2 * (3 / 125 - 2 / 125) / 20) ^ 4 := by
    have h5 : (2 : ℝ) ^ (-1000 : ℤ) ≤ 2 ^ (-100 : ℤ) := zpow_le_zpow_right₀ (by norm_num) (by norm_num)
    refine h5.trans ?_
    rw [zpow_neg]
    norm_num
  have R : BandRequest 4 (2 / 125) (3 / 125) (1 / 4) (1 / 2 ^ 50) :=
    ⟨by norm_num, by norm_num, by norm_num, by norm_num, by norm_num, by norm_num, by norm_num, by norm_num⟩
  have hW : Spec.edges [(8 : ℝ), 12] (some 1000) = [2 / 125, 3 / 125] := by simp [Spec.edges]; norm_num
  have hpi := Real.pi_pos
  have hsin : ∀ x : ℝ, 0 < x → x < 1 → 0 < Real.sin (Real.pi * x) := fun x h0 h1 =>
    Real.sin_pos_of_pos_of_lt_pi (by positivity) (by nlinarith)
  have hL : 0 < Real.sin (leastAngle 4) := by
    rw [leastAngle, if_pos rfl, show Real.pi / (2 * ((4 : ℕ) : ℝ)) = Real.pi * (1 / 8) by push_cast; ring]
    exact hsin _ (by norm_num) (by norm_num)
  have htan : ∀ x : ℝ, 0 < x → x < 1 → 0 < Real.tan (Real.pi * x / 2) := fun x h0 h1 =>
    Real.tan_pos_of_pos_of_lt_pi_div_two (by positivity) (by nlinarith)
  have hret : Returns (Design.butter 0 s 4 [8, 12] (some band) none (some .sos) (some 1000)) := by
    refine C84_butter_band 0 s le_rfl hs 4 (by norm_num) band hband 8 12 (2 / 125) (3 / 125) (some 1000) hW
      (by norm_num) (by norm_num) (by norm_num) _ _ rfl rfl (.inr ?_) (.inr ?_) (by norm_num) (fun _ => ?_)
    · rw [zero_mul]; exact mul_pos (hsin _ (by norm_num) (by norm_num)) hL
    · rw [zero_mul]; exact mul_pos (hsin _ (by norm_num) (by norm_num)) hL
    · rw [zero_mul, zero_mul]
      have := mul_pos (htan (2 / 125) (by norm_num) (by norm_num)) (htan (3 / 125) (by norm_num) (by norm_num))
      positivity
  obtain ⟨l0, hl0⟩ := C84_format 0 s 4 [8, 12] none none (some band) (some .butterworth) (some false) (some 1000) hret
  obtain ⟨l, hl, H⟩ := C128_band_energy binary64_nearest libm64_accurate libm64_polar 0 le_rfl hs 4 (2 / 125)
    (3 / 125) (1 / 4) R (by norm_num) (binary64_small_40 (by norm_num)) (binary64_small_pow hσ) 8 12
    (by exact_mod_cast hint 8 (by norm_num)) (by exact_mod_cast hint 12 (by norm_num)) band hband (some 1000) hW _ rfl
    (by norm_num) _ rfl l0 hl0
  refine ⟨l, l0, hl, hl0, fun x => (H x).1.trans (mul_le_mul_of_nonneg_right ?_ ?_)⟩
  · refine pow_le_pow_left₀ (by norm_num) (by norm_num) 2
  · exact List.sum_nonneg (by simp [sq_nonneg])

end SciRs.Props

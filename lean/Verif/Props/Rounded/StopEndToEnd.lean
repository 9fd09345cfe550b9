import Verif.Lemmas.Rounded.NotchSections
import Verif.Props.Rounded.BandEndToEnd
import Verif.Props.Rounded.ChebStopResponse

/-!
# C136: designing band-stop filters and filtering with them in floating point, from end to end

The counterpart for Butterworth and Chebyshev I band-stop filters of C124, C132 and C134.
-/

namespace SciRs.Props

open SciRs SciRs.Design SciRs.Spec SciRs.Rounded

variable {r : Rounding} {m : Libm} {h : ℝ}

/-- **C136**, the energy: filter a signal with the sections of a Chebyshev I band-stop filter computed in floating
point, and with the sections the design gives without rounding.  The difference of the outputs has at most `E²` times
the energy of the signal, and the first output at most `(1 + E)²` times that energy, where
`E = 4080 n² c² Λ² h / (κ (1 - e1)² X) + 8 n h / X²` is the error of the response that C135 gives. -/
theorem C136_energy (hr : r.Nearest) (hm : m.Accurate r h) (hm2 : m.AccurateHyp r h) (hp : m.AccuratePolar r h)
    {s : Sorts} (hs : s.Correct) (n : ℕ) (rp e0 e1 κ Λ : ℝ) (R : ChebBandRequest n rp e0 e1 κ Λ h true)
    (S : Small r h (chebBandFloor n rp e0 κ Λ))
    (S2 : Small r h ((rippleFloor rp ^ 2 * (1 - e1) ^ 2 * (e1 - e0) / (20 * n ^ 2 * Λ)) ^ n)) (X : ℝ)
    (hX : X = κ * (e0 * (1 - e1) * (e1 - e0)) / Λ ^ 3) (hh : 4000 * (n * h) ≤ X ^ 2)
    (hh2 : 40000 * (n ^ 2 * rippleCond rp ^ 2 * Λ ^ 2 * h) ≤ κ * (1 - e1) ^ 2 * X) (a b : ℝ)
    (ha : r.rnd a = a) (hb : r.rnd b = b) (fs : Option ℝ) (he : Spec.edges [a, b] fs = [e0, e1]) (E : ℝ)
    (hE : E = 4080 * (n ^ 2 * rippleCond rp ^ 2 * Λ ^ 2 * h / (κ * (1 - e1) ^ 2 * X)) + 8 * (n * h / X ^ 2)) :
    ∃ l l0 : List (Sos ℝ),
      Rounded.cheby1 (.ofRounding r m) s n rp [a, b] (some .bandstop) (some false) (some .sos) fs = .ok (.sos l) ∧
      Design.cheby1 0 s n rp [a, b] (some .bandstop) (some false) (some .sos) fs = .ok (.sos l0) ∧
      ∀ x : List ℝ, energy (signalDiff (sosfiltDyn x l).1 (sosfiltDyn x l0).1) ≤ E ^ 2 * energy x ∧
        energy (sosfiltDyn x l).1 ≤ (1 + E) ^ 2 * energy x := by
  have hh0 := S.h_nonneg
  have hn1 : (1 : ℝ) ≤ n := by exact_mod_cast Nat.one_le_iff_ne_zero.mpr R.order
  have hκ := R.kappa
  have h1e : 0 < 1 - e1 := by linarith [R.one]
  obtain ⟨hX0, -⟩ := cheb_band_sizes R S hX (by nlinarith)
  have hE0 : 0 ≤ E := by rw [hE]; positivity
  obtain ⟨l, g, hl, hg, -, hst, H⟩ := C135_sections_response hr hm hm2 hp 0 hs n rp e0 e1 κ Λ R S S2 X hX hh hh2
    a b (by
      intro w hw
      rcases List.mem_cons.mp hw with rfl | hw
      · exact ha
      · rw [List.mem_singleton.mp hw]; exact hb) fs he
  obtain ⟨l0, hl0⟩ := cheb_band_exact_sections (n := n) hs R.ripple (.inr rfl) he R.pos R.lt R.one
  rw [← hE] at H
  have hv : ValidRequest [a, b] (some rp) none .bandstop .chebyshevI false fs :=
    valid_pair (.inr rfl) he R.pos R.lt R.one (by rintro x ⟨⟩; exact R.ripple.le) (by simp) (.inr (.inl ⟨rfl, rfl⟩))
  obtain ⟨a1, a2, a3, d, hd, a4⟩ := design_sections 0 s le_rfl hs n R.order [a, b] (some rp) none (some .bandstop)
    (some .chebyshevI) (some false) (.inr rfl) fs hv ⟨by rintro - x ⟨⟩; exact R.ripple, by simp⟩ (by simp) l0 hl0
  have hdf : d = g := by
    have : iirfilter 0 s n [a, b] (some rp) none (some .bandstop) (some .chebyshevI) (some false) (some .zpk) fs =
      .ok (.zpk g) := hg
    rw [this] at hd
    simpa using hd.symm
  subst hdf
  obtain ⟨c1, c2⟩ := cheb_sections_rest hr hs R.order hl
  have key : ∀ ω : ℝ, |ω| < Real.pi → ‖freqResponse l ω - freqResponse l0 ω‖ ≤ E := by
    intro ω hω
    rw [a4]
    exact H ω
  refine ⟨l, l0, hl, hl0, fun x => ⟨C92_distance l l0 (fun c hc => ⟨c1 c hc, hst c hc⟩) a1 c2 a2 _ key x,
    C92_energy l (fun c hc => ⟨c1 c hc, hst c hc⟩) c2 _ (fun ω hω => ?_) x⟩⟩
  have i1 := key ω hω
  have i2 := a3 ω hω
  have i3 := norm_sub_norm_le (freqResponse l ω) (freqResponse l0 ω)
  linarith

set_option maxHeartbeats 1600000 in
/-- **C136**, from end to end: design a Chebyshev I band-stop filter of order `n` in floating point and filter a signal
with its sections in the same arithmetic.  With `X` and `E` as above and `δ = 0.8 X`, every sample of the output is
within `E √(energy of the signal)` (from the design) and `((1 + 15 u / δ²)^n - 1) k (4.2 / δ²)^n L` (from the filtering,
computed gain `k`, signal of level `L`), plus an underflow term, of the output of the exact filter in exact arithmetic.
The gain is at most 1.2. -/
theorem C136_cheby1 (hr : r.Nearest) (hm : m.Accurate r h) (hm2 : m.AccurateHyp r h) (hp : m.AccuratePolar r h)
    {s : Sorts} (hs : s.Correct) (n : ℕ) (rp e0 e1 κ Λ : ℝ) (R : ChebBandRequest n rp e0 e1 κ Λ h true)
    (S : Small r h (chebBandFloor n rp e0 κ Λ))
    (S2 : Small r h ((rippleFloor rp ^ 2 * (1 - e1) ^ 2 * (e1 - e0) / (20 * n ^ 2 * Λ)) ^ n)) (X : ℝ)
    (hX : X = κ * (e0 * (1 - e1) * (e1 - e0)) / Λ ^ 3) (hh : 4000 * (n * h) ≤ X ^ 2)
    (hh2 : 40000 * (n ^ 2 * rippleCond rp ^ 2 * Λ ^ 2 * h) ≤ κ * (1 - e1) ^ 2 * X) (a b : ℝ)
    (ha : r.rnd a = a) (hb : r.rnd b = b) (fs : Option ℝ) (he : Spec.edges [a, b] fs = [e0, e1]) (E δ : ℝ)
    (hE : E = 4080 * (n ^ 2 * rippleCond rp ^ 2 * Λ ^ 2 * h / (κ * (1 - e1) ^ 2 * X)) + 8 * (n * h / X ^ 2))
    (hδ : δ = 0.8 * X) :
    ∃ (l l0 : List (Sos ℝ)) (f : Zpk),
      Rounded.cheby1 (.ofRounding r m) s n rp [a, b] (some .bandstop) (some false) (some .sos) fs = .ok (.sos l) ∧
      Design.cheby1 0 s n rp [a, b] (some .bandstop) (some false) (some .sos) fs = .ok (.sos l0) ∧
      Rounded.cheby1 (.ofRounding r m) s n rp [a, b] (some .bandstop) (some false) (some .zpk) fs = .ok (.zpk f) ∧
      |f.k| ≤ 1.2 ∧
      ∀ (L : ℝ) (x : List ℝ), (∀ v ∈ x, |v| ≤ L) → ∀ i (_ : i < x.length),
        |((sosfiltDyn (x.map (Fl.mk (r := r))) (l.map (flSection r))).1.getD i 0).val
          - (sosfiltDyn x l0).1.getD i 0| ≤
          E * √(energy x) + ((1 + 15 * (r.u / δ ^ 2)) ^ n - 1) * (|f.k| * (4.2 / δ ^ 2) ^ n * L) +
          n * (10 * r.t / δ ^ 2) * (1 + 15 * (r.u / δ ^ 2)) ^ n * (1.2 * (4.2 / δ ^ 2) ^ n) := by
  have hh0 := S.h_nonneg
  have hn1 : (1 : ℝ) ≤ n := by exact_mod_cast Nat.one_le_iff_ne_zero.mpr R.order
  have hhn : h ≤ n * h := by nlinarith
  have hpos := R.pos
  have hκ := R.kappa
  have hone := R.one
  have hlt := R.lt
  have h1e : 0 < 1 - e1 := by linarith
  obtain ⟨hX0, hX16, c1, -, S3⟩ := cheb_band_sizes R S hX (by linarith)
  have hX2 : 0 < X ^ 2 := by positivity
  have hE0 : 0 ≤ E := by rw [hE]; positivity
  have hW : ∀ w ∈ [a, b], r.rnd w = w := by
    intro w hw
    rcases List.mem_cons.mp hw with rfl | hw
    · exact ha
    · rw [List.mem_singleton.mp hw]; exact hb
  obtain ⟨l, l0, hl, hl0, H⟩ := C136_energy hr hm hm2 hp hs n rp e0 e1 κ Λ R S S2 X hX hh hh2 a b ha hb fs he E hE
  obtain ⟨l', g', hl', -, hlen, -⟩ := C135_sections_response hr hm hm2 hp 0 hs n rp e0 e1 κ Λ R S S2 X hX hh hh2
    a b hW fs he
  have hll : l' = l := by rw [hl] at hl'; simpa using hl'.symm
  subst hll
  have hν1 : 10000 * (4 * (n ^ 2 * rippleCond rp ^ 2 * Λ ^ 2 * h) / (κ * (1 - e1) ^ 2 * X)) ≤ 1 := by
    rw [mul_div_assoc', div_le_one (by positivity)]; linarith
  obtain ⟨-, kc, -⟩ := ripple_facts R.ripple
  obtain ⟨f, g, z, z1, z2, hf, hg, hpn, hin, hz, d1, d2, hzn, hzi, hk0, hkσ, hkc, -⟩ := cheb_stop_close (m := m) hr hm hm2
    hp 0 s R S S2 hW he hX (by linarith) rfl hν1
  have hke : κ ^ 2 * e0 ^ 2 / 2 ≤ 1 := by
    have i1 := mul_le_one₀ (pow_le_one₀ hκ.le (by linarith [R.kappa_half]) : κ ^ 2 ≤ 1) (sq_nonneg e0)
      (pow_le_one₀ hpos.le (by linarith) : e0 ^ 2 ≤ 1)
    linarith
  obtain ⟨P, hP⟩ : ∃ P, P = h / ((1 - e1) ^ 2 * κ) := ⟨_, rfl⟩
  have hP0 : 0 ≤ P := by rw [hP]; positivity
  have hP1 : 10000 * P ≤ X := by
    rw [hP, mul_div_assoc', div_le_iff₀ (by positivity)]
    have i1 : h ≤ n ^ 2 * rippleCond rp ^ 2 * Λ ^ 2 * h := le_mul_of_one_le_left hh0 (one_le_mul_of_one_le_of_one_le
      (one_le_mul_of_one_le_of_one_le (one_le_pow₀ hn1) (one_le_pow₀ kc)) (one_le_pow₀ c1))
    linarith
  rw [← hP] at d1 d2
  have hη : 310 * P < |z.im| := by
    have i2 : X ≤ e0 * (1 - e1) * (e1 - e0) := by
      have j1 : 0 < e0 * (1 - e1) * (e1 - e0) := mul_pos (mul_pos hpos h1e) (by linarith)
      rw [hX]
      exact (div_le_self (by positivity) (one_le_pow₀ c1)).trans
        (mul_le_of_le_one_left j1.le (by linarith [R.kappa_half]))
    have : 0 < X := hX0
    linarith
  have fk : 0.9 * |g.k| ≤ |f.k| := by
    have i1 := abs_sub_abs_le_abs_sub g.k f.k
    rw [abs_sub_comm] at i1
    have := hkc.trans (mul_le_mul_of_nonneg_right (by linarith : _ ≤ (0.1 : ℝ)) hk0.le)
    linarith
  obtain ⟨b1, b3, bk, s0, rest, b4, b5, b6⟩ := notch_bounds S3 hke hr hs R.order (ftype := .chebyshevI)
    (by simp [KeepsPairs]) hl hf (Nat.pos_of_ne_zero R.order) hpn hzn (η := 310 * P) (by linarith) hη (fun y hy => by
      rw [hz] at hy
      rcases List.mem_append.mp hy with k | k
      · left; rw [(List.mem_replicate.mp k).2]; exact d1
      · right; rw [(List.mem_replicate.mp k).2]; exact d2) S2 (by linarith) (δ := 0.9 * X) (by positivity) hin (by
      have : (0.9 * X) ^ 2 = 0.81 * X ^ 2 := by ring
      rw [this]
      linarith)
  have hk : |f.k| ≤ 1.2 := by
    have i1 := gain_le_energy hE0 bk fun x => (H x).2
    have i2 : n * h / X ^ 2 ≤ 1 / 4000 := by rw [div_le_iff₀ hX2]; linarith
    have i3 : 4080 * (n ^ 2 * rippleCond rp ^ 2 * Λ ^ 2 * h / (κ * (1 - e1) ^ 2 * X)) =
        1020 * (4 * (n ^ 2 * rippleCond rp ^ 2 * Λ ^ 2 * h) / (κ * (1 - e1) ^ 2 * X)) := by ring
    rw [hE, i3] at i1
    linarith
  refine ⟨l', l0, f, hl, hl0, hf, hk, fun L x hx i hi => ?_⟩
  refine filtering_error hlen b1 (by rw [hδ]; positivity) (by rw [hδ]; linarith) (by norm_num) (by norm_num)
    (fun c hc z hzr => ?_) b4 b5 b6 hk ?_ hE0 (fun x => (H x).1) L x hx i hi
  · have := b3 c hc z hzr
    rw [hδ]
    linarith
  · have : δ ^ 2 = 0.64 * X ^ 2 := by rw [hδ]; ring
    rw [this]
    have := S.u_le
    linarith

set_option maxHeartbeats 1600000 in
/-- **C136**, from end to end for Butterworth band-stop filters: with `Δ = κ e0 (1 - e1) (e1 - e0)`, `δ = 0.8 Δ` and the
error `E` of C128, every sample of the output of the filter designed and run in floating point is within
`E √(energy of the signal) + ((1 + 15 u / δ²)^n - 1) k (4.2 / δ²)^n L`, plus an underflow term, of the output of the exact
filter in exact arithmetic, where the computed gain `k` is at most 1.2 and the signal is of level `L`. -/
theorem C136_butter (hr : r.Nearest) (hm : m.Accurate r h) (hp : m.AccuratePolar r h) {s : Sorts} (hs : s.Correct)
    (n : ℕ) (e0 e1 κ : ℝ) (R : BandRequest n e0 e1 κ h) (hκn : κ ≤ 1 / n)
    (S : Small r h (κ ^ 2 * e0 ^ 2 / 2)) (S2 : Small r h (((1 - e1) ^ 2 * (e1 - e0) / 20) ^ n)) (a b : ℝ)
    (ha : r.rnd a = a) (hb : r.rnd b = b) (fs : Option ℝ) (he : Spec.edges [a, b] fs = [e0, e1]) (Δ : ℝ)
    (hΔ : Δ = κ * e0 * (1 - e1) * (e1 - e0)) (hh : 4000 * (n * h) ≤ (κ * (1 - e1) * Δ) ^ 2) (E δ : ℝ)
    (hE : E = 1600 * (n * h / (κ * (1 - e1) ^ 2 * Δ)) + 9 * (n * h / Δ ^ 2)) (hδ : δ = 0.8 * Δ) :
    ∃ (l l0 : List (Sos ℝ)) (f : Zpk),
      Rounded.butter (.ofRounding r m) s n [a, b] (some .bandstop) none (some .sos) fs = .ok (.sos l) ∧
      Design.butter 0 s n [a, b] (some .bandstop) none (some .sos) fs = .ok (.sos l0) ∧
      Rounded.butter (.ofRounding r m) s n [a, b] (some .bandstop) none (some .zpk) fs = .ok (.zpk f) ∧
      |f.k| ≤ 1.2 ∧
      ∀ (L : ℝ) (x : List ℝ), (∀ v ∈ x, |v| ≤ L) → ∀ i (_ : i < x.length),
        |((sosfiltDyn (x.map (Fl.mk (r := r))) (l.map (flSection r))).1.getD i 0).val
          - (sosfiltDyn x l0).1.getD i 0| ≤
          E * √(energy x) + ((1 + 15 * (r.u / δ ^ 2)) ^ n - 1) * (|f.k| * (4.2 / δ ^ 2) ^ n * L) +
          n * (10 * r.t / δ ^ 2) * (1 + 15 * (r.u / δ ^ 2)) ^ n * (1.2 * (4.2 / δ ^ 2) ^ n) := by
  have hh0 := S.h_nonneg
  have hX : Δ = κ * (e0 * (1 - e1) * (e1 - e0)) := by rw [hΔ]; ring
  obtain ⟨hX0, hX16, c1, hkE0, hkE1⟩ := band_margin_sizes R hh0 hX
  have hn1 : (1 : ℝ) ≤ n := by exact_mod_cast Nat.one_le_iff_ne_zero.mpr R.order
  have hpos := R.pos
  have hκ := R.kappa
  have hone := R.one
  have hlt := R.lt
  have h1e : 0 < 1 - e1 := by linarith
  have hd0 : 0 < e1 - e0 := by linarith
  have hhn : h ≤ n * h := by nlinarith
  have hX2 : 0 < Δ ^ 2 := by positivity
  have hnX : 4000 * (n * h) ≤ Δ ^ 2 := by
    refine hh.trans (pow_le_pow_left₀ (by positivity) ?_ 2)
    exact mul_le_of_le_one_left hX0.le hkE1
  have hE0 : 0 ≤ E := by rw [hE]; positivity
  have hW : ∀ w ∈ [a, b], r.rnd w = w := by
    intro w hw
    rcases List.mem_cons.mp hw with rfl | hw
    · exact ha
    · rw [List.mem_singleton.mp hw]; exact hb
  obtain ⟨ν, hν⟩ : ∃ ν, ν = n * h / (κ * (1 - e1) ^ 2 * Δ) := ⟨_, rfl⟩
  have hν1 : 10000 * ν ≤ 1 := by
    rw [hν, mul_div_assoc', div_le_one (by positivity)]
    have e : (κ * (1 - e1) * Δ) ^ 2 = (κ * (1 - e1) ^ 2 * Δ) * (κ * Δ) := by ring
    have i1 : κ * Δ ≤ 1 / 16 := (mul_le_of_le_one_left hX0.le c1).trans hX16
    have i2 : (κ * (1 - e1) ^ 2 * Δ) * (κ * Δ) ≤ (κ * (1 - e1) ^ 2 * Δ) * (1 / 16) :=
      mul_le_mul_of_nonneg_left i1 (by positivity)
    rw [e] at hh
    linarith
  obtain ⟨l0, hl0⟩ := band_exact_sections (n := n) hs (.inr rfl) he R.pos R.lt R.one
  obtain ⟨l, hl, H⟩ := C128_band_energy hr hm hp 0 le_rfl hs n e0 e1 κ R hκn S S2 a b ha hb .bandstop (.inr rfl) fs he Δ
    hΔ hh E hE l0 hl0
  obtain ⟨l', g', hl', -, hlen, -⟩ := C127_sections_response hr hm hp 0 hs n e0 e1 κ R hκn S S2 a b hW fs he Δ hΔ hh
  have hll : l' = l := by rw [hl] at hl'; simpa using hl'.symm
  subst hll
  obtain ⟨f, g, z, z1, z2, hf, hg, hpn, hin, hz, d1, d2, hzn, hzi, hk0, hkσ, hkc, -⟩ := stop_close (m := m) hr hm hp 0 s R
    hκn S S2 hW he hX (by rw [hν]; field_simp) hν1
  have hke : κ ^ 2 * e0 ^ 2 / 2 ≤ 1 := by
    have i1 := mul_le_one₀ (pow_le_one₀ hκ.le c1 : κ ^ 2 ≤ 1) (sq_nonneg e0)
      (pow_le_one₀ hpos.le (by linarith) : e0 ^ 2 ≤ 1)
    linarith
  obtain ⟨P, hP⟩ : ∃ P, P = h / ((1 - e1) ^ 2 * κ) := ⟨_, rfl⟩
  have hP0 : 0 ≤ P := by rw [hP]; positivity
  have hP1 : 10000 * P ≤ Δ := by
    have hnP : n * P = ν * Δ := by rw [hν, hP]; field_simp
    have hPn : P ≤ n * P := by nlinarith
    have := mul_le_mul_of_nonneg_right hν1 hX0.le
    linarith
  rw [← hP] at d1 d2
  have hη : 310 * P < |z.im| := by
    have i2 : Δ ≤ e0 * (1 - e1) * (e1 - e0) := by
      have j1 : 0 < e0 * (1 - e1) * (e1 - e0) := mul_pos (mul_pos hpos h1e) (by linarith)
      rw [hX]
      exact mul_le_of_le_one_left j1.le c1
    have : 0 < Δ := hX0
    linarith
  have fk : 0.9 * |g.k| ≤ |f.k| := by
    have i1 := abs_sub_abs_le_abs_sub g.k f.k
    rw [abs_sub_comm] at i1
    have := hkc.trans (mul_le_mul_of_nonneg_right (by linarith : _ ≤ (0.1 : ℝ)) hk0.le)
    linarith
  obtain ⟨b1, b3, bk, s0, rest, b4, b5, b6⟩ := notch_bounds S hke hr hs R.order (ftype := .butterworth)
    (by simp [KeepsPairs]) hl hf (Nat.pos_of_ne_zero R.order) hpn hzn (η := 310 * P) (by linarith) hη (fun y hy => by
      rw [hz] at hy
      rcases List.mem_append.mp hy with k | k
      · left; rw [(List.mem_replicate.mp k).2]; exact d1
      · right; rw [(List.mem_replicate.mp k).2]; exact d2) S2 (by linarith) (δ := 0.9 * Δ) (by positivity) hin (by
      have : (0.9 * Δ) ^ 2 = 0.81 * Δ ^ 2 := by ring
      rw [this]
      linarith)
  have hk : |f.k| ≤ 1.2 := by
    have i1 := gain_le_energy hE0 bk fun x => (H x).2
    have i2 : n * h / Δ ^ 2 ≤ 1 / 4000 := by rw [div_le_iff₀ hX2]; linarith
    rw [hE, ← hν] at i1
    linarith
  refine ⟨l', l0, f, hl, hl0, hf, hk, fun L x hx i hi => ?_⟩
  refine filtering_error hlen b1 (by rw [hδ]; positivity) (by rw [hδ]; linarith) (by norm_num) (by norm_num)
    (fun c hc z hzr => ?_) b4 b5 b6 hk ?_ hE0 (fun x => (H x).1) L x hx i hi
  · have := b3 c hc z hzr
    rw [hδ]
    linarith
  · have : δ ^ 2 = 0.64 * Δ ^ 2 := by rw [hδ]; ring
    rw [this]
    have := S.u_le
    linarith

set_option maxHeartbeats 800000 in
/-- **C136**, an instance for Butterworth filters: the second-order band-stop filter from 125 Hz to 250 Hz for signals
sampled at 1000 Hz, designed in binary64 and run in binary64 on a signal of level `L`.  Every output sample is within
`2e-9 √(energy of the signal) + L / 40 + 1e-50` of that of the exact filter. -/
theorem C136_example {s : Sorts} (hs : s.Correct) : ∃ l l0 : List (Sos ℝ),
    Rounded.butter (.ofRounding binary64 libm64) s 2 [125, 250] (some .bandstop) none (some .sos) (some 1000)
      = .ok (.sos l) ∧
    Design.butter 0 s 2 [125, 250] (some .bandstop) none (some .sos) (some 1000) = .ok (.sos l0) ∧
      ∀ (L : ℝ) (x : List ℝ), (∀ v ∈ x, |v| ≤ L) → ∀ i (_ : i < x.length),
        |((sosfiltDyn (x.map (Fl.mk (r := binary64))) (l.map (flSection binary64))).1.getD i 0).val
          - (sosfiltDyn x l0).1.getD i 0| ≤ 2 / 10 ^ 9 * √(energy x) + L / 40 + 1 / 10 ^ 50 := by
  have hint : ∀ k : ℤ, |k| ≤ 1000 → binary64.rnd k = k := by
    intro k hk
    refine Binary.rnd_int 53 (-1074) (by norm_num) k (hk.trans_lt (by norm_num))
  have hσ : (2 : ℝ) ^ (-1000 : ℤ) ≤ (((1 - 1 / 2 : ℝ)) ^ 2 * (1 / 2 - 1 / 4) / 20) ^ 2 := by
    have h5 : (2 : ℝ) ^ (-1000 : ℤ) ≤ 2 ^ (-100 : ℤ) := zpow_le_zpow_right₀ (by norm_num) (by norm_num)
    refine h5.trans ?_
    rw [zpow_neg]
    norm_num
  have R : BandRequest 2 (1 / 4) (1 / 2) (1 / 2) (1 / 2 ^ 50) :=
    ⟨by norm_num, by norm_num, by norm_num, by norm_num, by norm_num, by norm_num, by norm_num, by norm_num⟩
  obtain ⟨l, l0, f, hl, hl0, -, hk, H⟩ := C136_butter binary64_nearest libm64_accurate libm64_polar hs 2 (1 / 4) (1 / 2)
    (1 / 2) R (by norm_num) (binary64_small_40 (by norm_num)) (binary64_small_pow hσ) 125 250
    (by exact_mod_cast hint 125 (by norm_num)) (by exact_mod_cast hint 250 (by norm_num)) (some 1000)
    (by simp [Spec.edges]; norm_num) (1 / 64) (by norm_num) (by norm_num) _ (1 / 80) rfl (by norm_num)
  refine ⟨l, l0, hl, hl0, fun L x hx i hi => (H L x hx i hi).trans ?_⟩
  have hL : 0 ≤ L := (abs_nonneg _).trans (hx x[i] (List.getElem_mem hi))
  have h1' : binary64.u = 2 ^ (-53 : ℤ) := rfl
  have h3' : binary64.t ≤ 1 / 10 ^ 74 := by
    have h5 : (2 : ℝ) ^ (-1075 : ℤ) ≤ 2 ^ (-250 : ℤ) := zpow_le_zpow_right₀ (by norm_num) (by norm_num)
    refine (show binary64.t = 2 ^ (-1075 : ℤ) from rfl).le.trans (h5.trans ?_)
    rw [zpow_neg]
    norm_num
  have ht0 := binary64.t_nonneg
  have t1 : (1600 * (((2 : ℕ) : ℝ) * (1 / 2 ^ 50) / (1 / 2 * (1 - 1 / 2) ^ 2 * (1 / 64))) +
      9 * (((2 : ℕ) : ℝ) * (1 / 2 ^ 50) / (1 / 64) ^ 2)) * √(energy x) ≤ 2 / 10 ^ 9 * √(energy x) :=
    mul_le_mul_of_nonneg_right (by norm_num) (Real.sqrt_nonneg _)
  have t2 : ((1 + 15 * (binary64.u / (1 / 80) ^ 2)) ^ 2 - 1) * (|f.k| * (4.2 / (1 / 80) ^ 2) ^ 2 * L) ≤ L / 40 := by
    have a1 : (1 + 15 * (binary64.u / (1 / 80) ^ 2)) ^ 2 - 1 ≤ 22 / 10 ^ 12 := by rw [h1']; norm_num
    have a2 : |f.k| * (4.2 / (1 / 80) ^ 2) ^ 2 * L ≤ 1.2 * (4.2 / (1 / 80) ^ 2) ^ 2 * L :=
      mul_le_mul_of_nonneg_right (mul_le_mul_of_nonneg_right hk (by norm_num)) hL
    have a3 := mul_le_mul a1 a2 (by positivity) (by norm_num)
    norm_num at a3 ⊢
    linarith
  have t3 : ((2 : ℕ) : ℝ) * (10 * binary64.t / (1 / 80) ^ 2) * (1 + 15 * (binary64.u / (1 / 80) ^ 2)) ^ 2 *
      (1.2 * (4.2 / (1 / 80) ^ 2) ^ 2) ≤ 1 / 10 ^ 50 := by
    have a1 : (1 + 15 * (binary64.u / (1 / 80) ^ 2)) ^ 2 ≤ 2 := by rw [h1']; norm_num
    have a2 : ((2 : ℕ) : ℝ) * (10 * binary64.t / (1 / 80) ^ 2) ≤ 2 * (10 * (1 / 10 ^ 74) / (1 / 80) ^ 2) := by
      push_cast
      norm_num at h3' ⊢
      linarith
    have a3 := mul_le_mul (mul_le_mul a2 a1 (by positivity) (by norm_num))
      (le_refl (1.2 * (4.2 / (1 / 80) ^ 2) ^ 2 : ℝ)) (by norm_num) (by norm_num)
    refine a3.trans ?_
    norm_num
  linarith

set_option maxHeartbeats 800000 in
/-- **C136**, an instance for Chebyshev I filters: the second-order band-stop filter with a ripple of 1 dB from 125 Hz to
250 Hz for signals sampled at 1000 Hz, designed in binary64.  The relative error of the output, measured by its energy,
is at most `4e-4`. -/
theorem C136_cheby1_example {s : Sorts} (hs : s.Correct) : ∃ l l0 : List (Sos ℝ),
    Rounded.cheby1 (.ofRounding binary64 libm64) s 2 1 [125, 250] (some .bandstop) (some false) (some .sos) (some 1000)
      = .ok (.sos l) ∧
    Design.cheby1 0 s 2 1 [125, 250] (some .bandstop) (some false) (some .sos) (some 1000) = .ok (.sos l0) ∧
      ∀ x : List ℝ, energy (signalDiff (sosfiltDyn x l).1 (sosfiltDyn x l0).1) ≤ (4 / 10 ^ 4) ^ 2 * energy x := by
  obtain ⟨h1, h2⟩ := one_decibel
  obtain ⟨-, k1, -, -, -, -, -, g1, -⟩ := ripple_facts one_pos
  obtain ⟨-, m1, -, m2, m3, -⟩ := mu_facts (n := 2) (by norm_num) one_pos
  have e : passMu 2 1 = exMu 2 1 := rfl
  have hc : rippleCond 1 ^ 2 ≤ 100 := by
    have := pow_le_pow_left₀ (by linarith) h1 2
    norm_num at this
    exact this
  have hc0 : 0 ≤ rippleCond 1 ^ 2 := sq_nonneg _
  have hint : ∀ k : ℤ, |k| ≤ 1000 → binary64.rnd k = k := by
    intro k hk
    refine Binary.rnd_int 53 (-1074) (by norm_num) k (hk.trans_lt (by norm_num))
  have R : ChebBandRequest 2 1 (1 / 4) (1 / 2) (1 / 2) (16 / 5) (1 / 2 ^ 50) true := by
    refine ⟨by norm_num, by norm_num, by norm_num, by norm_num, one_pos, by norm_num, by norm_num, by norm_num, ?_, ?_,
      fun h => by norm_num at h, ?_, ?_⟩
    · rw [e]
      exact abs_le_of_sq_le_sq' (m3.trans (by linarith)) (by norm_num) |>.2
    · rw [e]
      have i1 := Real.self_le_sinh_iff.mpr m1.le
      push_cast at m2
      have i2 : (0.44 : ℝ) ≤ rippleFloor 1 / 2 := by rw [le_div_iff₀ (by norm_num)]; norm_num at h2 ⊢; linarith
      norm_num at i2
      linarith
    · push_cast
      norm_num
      linarith
    · push_cast
      norm_num
      linarith
  have S : Small binary64 (1 / 2 ^ 50) (chebBandFloor 2 1 (1 / 4) (1 / 2) (16 / 5)) := by
    refine binary64_small_40 ?_
    rw [chebBandFloor, le_div_iff₀ (by push_cast; linarith)]
    push_cast
    norm_num at h2 ⊢
    linarith
  have hσ : (2 : ℝ) ^ (-1000 : ℤ) ≤
      (rippleFloor 1 ^ 2 * (1 - 1 / 2) ^ 2 * (1 / 2 - 1 / 4) / (20 * (2 : ℕ) ^ 2 * (16 / 5))) ^ 2 := by
    have g1 : (2 : ℝ) ^ (-1000 : ℤ) ≤ 2 ^ (-100 : ℤ) := zpow_le_zpow_right₀ (by norm_num) (by norm_num)
    have g2 : (0.0001 : ℝ) ≤ rippleFloor 1 ^ 2 * (1 - 1 / 2) ^ 2 * (1 / 2 - 1 / 4) / (20 * (2 : ℕ) ^ 2 * (16 / 5)) := by
      have := pow_le_pow_left₀ (by norm_num) h2 2
      push_cast
      norm_num at this ⊢
      linarith
    refine g1.trans (le_trans ?_ (pow_le_pow_left₀ (by norm_num) g2 2))
    rw [zpow_neg]
    norm_num
  obtain ⟨E, hE⟩ : ∃ E, E = 4080 * (((2 : ℕ) : ℝ) ^ 2 * rippleCond 1 ^ 2 * (16 / 5) ^ 2 * (1 / 2 ^ 50) /
      (1 / 2 * (1 - 1 / 2) ^ 2 * (1 / 2 * (1 / 4 * (1 - 1 / 2) * (1 / 2 - 1 / 4)) / (16 / 5) ^ 3))) +
      8 * (((2 : ℕ) : ℝ) * (1 / 2 ^ 50) / (1 / 2 * (1 / 4 * (1 - 1 / 2) * (1 / 2 - 1 / 4)) / (16 / 5) ^ 3) ^ 2) :=
    ⟨_, rfl⟩
  obtain ⟨l, l0, hl, hl0, H⟩ := C136_energy binary64_nearest libm64_accurate libm64_accurateHyp libm64_polar
    hs 2 1 (1 / 4) (1 / 2) (1 / 2) (16 / 5) R S (binary64_small_pow hσ) _ rfl (by norm_num)
    (by push_cast; norm_num; linarith) 125 250
    (by exact_mod_cast hint 125 (by norm_num)) (by exact_mod_cast hint 250 (by norm_num)) (some 1000)
    (by simp [Spec.edges]; norm_num) E hE
  have hE0 : 0 ≤ E := by
    rw [hE]
    push_cast
    norm_num
    linarith
  have hE1 : E ≤ 4 / 10 ^ 4 := by
    rw [hE]
    push_cast
    norm_num
    linarith
  refine ⟨l, l0, hl, hl0, fun x => (H x).1.trans (mul_le_mul_of_nonneg_right ?_ ?_)⟩
  · exact pow_le_pow_left₀ hE0 hE1 2
  · exact List.sum_nonneg (by simp [sq_nonneg])

end SciRs.Props

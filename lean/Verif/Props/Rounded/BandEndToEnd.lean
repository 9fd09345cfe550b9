import Verif.Props.Rounded.BandEnergy
import Verif.Props.Rounded.ChebBandResponse
import Verif.Props.Rounded.ChebEndToEnd

/-!
# C134: designing band-pass filters and filtering with them in floating point, from end to end

The counterpart for Butterworth and Chebyshev I band-pass filters of C124 and C132.
-/

namespace SciRs.Props

open SciRs SciRs.Design SciRs.Spec SciRs.Rounded

variable {r : Rounding} {m : Libm} {h : ℝ}

/-- The gain of a filter with as many zeros at 1 as at -1, and twice as many poles inside the circle, from its response
at a quarter of the sampling rate. -/
theorem gain_le_quarter {f : Zpk} {n : ℕ} (hz : f.z = List.replicate n 1 ++ List.replicate n (-1))
    (hp : f.p.length = 2 * n) (hin : ∀ p ∈ f.p, ‖p‖ < 1) :
    |f.k| ^ 2 ≤ ‖f.eval Complex.I‖ * ‖f.eval (-Complex.I)‖ := by
  have gen : ∀ L : List ℂ, (∀ p ∈ L, ‖p‖ < 1) →
      0 < ‖(L.map fun p => Complex.I - p).prod‖ ∧ 0 < ‖(L.map fun p => -Complex.I - p).prod‖ ∧
      ‖(L.map fun p => Complex.I - p).prod‖ * ‖(L.map fun p => -Complex.I - p).prod‖ ≤ 2 ^ L.length := by
    intro L
    induction L with
    | nil => simp
    | cons a L ih =>
      intro H
      obtain ⟨i1, i2, i3⟩ := ih fun p hp => H p (by simp [hp])
      have ha := H a (by simp)
      have u1 := norm_sub_norm_le Complex.I a
      have u2 := norm_sub_norm_le (-Complex.I) a
      rw [norm_neg] at u2
      rw [Complex.norm_I] at u1 u2
      have u3 : ‖Complex.I - a‖ * ‖-Complex.I - a‖ ≤ 2 := by
        rw [← norm_mul]
        have e : (Complex.I - a) * (-Complex.I - a) = 1 + a ^ 2 := by linear_combination -Complex.I_sq
        have k := norm_add_le 1 (a ^ 2)
        have k2 : ‖a‖ ^ 2 ≤ 1 := pow_le_one₀ (norm_nonneg a) ha.le
        rw [norm_one, norm_pow] at k
        rw [e]
        linarith
      rw [List.map_cons, List.map_cons, List.prod_cons, List.prod_cons, norm_mul, norm_mul, List.length_cons,
        pow_succ' (2 : ℝ)]
      refine ⟨mul_pos (by linarith) i1, mul_pos (by linarith) i2, ?_⟩
      rw [mul_mul_mul_comm]
      exact mul_le_mul u3 i3 (by positivity) (by norm_num)
  obtain ⟨d1, d2, d3⟩ := gen f.p hin
  rw [hp] at d3
  have hnum : ∀ x : ℂ, x ^ 2 = -1 → ‖f.num x‖ = |f.k| * 2 ^ n := by
    intro x hx
    have e : (x - 1) ^ n * (x - (-1)) ^ n = (-2) ^ n := by
      rw [← mul_pow]
      congr 1
      linear_combination hx
    rw [Zpk.num, hz, List.map_append, List.map_replicate, List.map_replicate, List.prod_append, List.prod_replicate,
      List.prod_replicate, e, norm_mul, norm_pow]
    simp
  rw [Zpk.eval, Zpk.eval, norm_div, norm_div, hnum _ Complex.I_sq, hnum _ (by rw [neg_sq, Complex.I_sq]), Zpk.den,
    Zpk.den, div_mul_div_comm, le_div_iff₀ (mul_pos d1 d2)]
  have := mul_le_mul_of_nonneg_left d3 (sq_nonneg |f.k|)
  refine this.trans (le_of_eq ?_)
  ring

/-- The gain of such a filter is at most 1.1 if its response is close to one that is at most 1 on the circle. -/
theorem gain_le_close {f g : Zpk} {n : ℕ} (hz : f.z = List.replicate n 1 ++ List.replicate n (-1))
    (hp : f.p.length = 2 * n) (hin : ∀ p ∈ f.p, ‖p‖ < 1) {c : ℝ} (hc : c ≤ 0.1)
    (H : ∀ x : ℂ, ‖x‖ = 1 → ‖f.eval x - g.eval x‖ ≤ c * ‖g.eval x‖)
    (hone : ∀ ω : ℝ, ‖g.eval (Complex.exp (Complex.I * ω))‖ ≤ 1) : |f.k| ≤ 1.1 := by
  have e1 : Complex.exp (Complex.I * ((Real.pi / 2 : ℝ) : ℂ)) = Complex.I := by
    rw [mul_comm]; push_cast; exact Complex.exp_pi_div_two_mul_I
  have e2 : Complex.exp (Complex.I * ((-(Real.pi / 2) : ℝ) : ℂ)) = -Complex.I := by
    rw [mul_comm]; push_cast
    rw [neg_mul, Complex.exp_neg, Complex.exp_pi_div_two_mul_I, Complex.inv_I]
  have bd : ∀ x : ℂ, ‖x‖ = 1 → ‖g.eval x‖ ≤ 1 → ‖f.eval x‖ ≤ 1.1 := by
    intro x hx h1
    have b1 := H x hx
    have b2 := mul_le_mul hc h1 (norm_nonneg _) (by norm_num)
    have b3 := norm_sub_norm_le (f.eval x) (g.eval x)
    linarith
  have b1 := bd Complex.I Complex.norm_I (by rw [← e1]; exact hone _)
  have b2 := bd (-Complex.I) (by rw [norm_neg, Complex.norm_I]) (by rw [← e2]; exact hone _)
  have := gain_le_quarter hz hp hin
  refine abs_le_of_sq_le_sq' (?_ : _ ^ 2 ≤ _ ^ 2) (by norm_num) |>.2
  refine this.trans ((mul_le_mul b1 b2 (norm_nonneg _) (by norm_num)).trans (by norm_num))

/-- From the energy of the difference and the bounds of the sections to the error of every sample. -/
theorem filtering_error {l l0 : List (Sos ℝ)} {N : ℕ} (hlen : l.length = N) (b1 : AtRest l) {δ k E K B : ℝ}
    (hδ0 : 0 < δ)
    (hδ1 : δ ≤ 1) (hK : 1 ≤ K) (hB : 1 ≤ B)
    (b3 : ∀ c ∈ l, ∀ z : ℂ, z ^ 2 + c.a1 * z + c.a2 = 0 → ‖z‖ ≤ 1 - δ)
    {s0 : Sos ℝ} {rest : List (Sos ℝ)}
    (b4 : l = s0 :: rest) (b5 : numSize s0 ≤ K * k) (b6 : ∀ c ∈ rest, numSize c ≤ K) (hk : k ≤ B)
    (hu : 206 * r.u ≤ δ ^ 2) (hE0 : 0 ≤ E)
    (H : ∀ x : List ℝ, energy (signalDiff (sosfiltDyn x l).1 (sosfiltDyn x l0).1) ≤ E ^ 2 * energy x) (L : ℝ)
    (x : List ℝ) (hx : ∀ v ∈ x, |v| ≤ L) (i : ℕ) (hi : i < x.length) :
    |((sosfiltDyn (x.map (Fl.mk (r := r))) (l.map (flSection r))).1.getD i 0).val - (sosfiltDyn x l0).1.getD i 0| ≤
      E * √(energy x) + ((1 + 15 * (r.u / δ ^ 2)) ^ N - 1) * (k * (K / δ ^ 2) ^ N * L) +
        N * (10 * r.t / δ ^ 2) * (1 + 15 * (r.u / δ ^ 2)) ^ N * (B * (K / δ ^ 2) ^ N) := by
  have hu0 := r.u_nonneg
  have ht0 := r.t_nonneg
  have hL : 0 ≤ L := (abs_nonneg _).trans (hx x[i] (List.getElem_mem hi))
  have A := (C124_error l b1 δ hδ0 b3 r hu L x hx).2 i hi
  have Bs := sample_le_energy (by rw [(C24_length x l).1, (C24_length x l0).1]) (H x) i
  rw [Real.sqrt_mul (sq_nonneg _), Real.sqrt_sq hE0] at Bs
  have C := abs_add_le (((sosfiltDyn (x.map (Fl.mk (r := r))) (l.map (flSection r))).1.getD i 0).val -
    (sosfiltDyn x l).1.getD i 0) ((sosfiltDyn x l).1.getD i 0 - (sosfiltDyn x l0).1.getD i 0)
  rw [sub_add_sub_cancel] at C
  obtain ⟨q1, q2⟩ := sizes_prod (δ := δ) hδ0 hδ1 hK b5 b6
  rw [← b4] at q1 q2
  have hr1 : rest.length + 1 = N := by rw [← hlen, b4]; simp
  rw [hr1] at q1 q2
  rw [hlen] at A
  obtain ⟨c, hc⟩ : ∃ c, c = 15 * (r.u / δ ^ 2) := ⟨_, rfl⟩
  have hc0 : 0 ≤ c := by rw [hc]; positivity
  rw [← hc] at A ⊢
  have hcp : 0 ≤ (1 + c) ^ N - 1 := sub_nonneg.mpr (one_le_pow₀ (by linarith))
  have D1 : ((1 + c) ^ N - 1) * ((l.map fun s => numSize s / δ ^ 2).prod * L) ≤
      ((1 + c) ^ N - 1) * (k * (K / δ ^ 2) ^ N * L) :=
    mul_le_mul_of_nonneg_left (mul_le_mul_of_nonneg_right q1 hL) hcp
  have D2 : (N : ℝ) * (10 * r.t / δ ^ 2) * (1 + c) ^ N * (l.map fun s => max 1 (numSize s / δ ^ 2)).prod ≤
      (N : ℝ) * (10 * r.t / δ ^ 2) * (1 + c) ^ N * (B * (K / δ ^ 2) ^ N) := by
    refine mul_le_mul_of_nonneg_left (q2.trans (mul_le_mul_of_nonneg_right ?_ (by positivity))) (by positivity)
    exact max_le hB hk
  linarith

/-- Without rounding, every Chebyshev I band request is answered with sections. -/
theorem cheb_band_exact_sections {s : Sorts} (hs : s.Correct) {n : ℕ} {rp : ℝ} (hrp : 0 < rp) {a b : ℝ} {band : Band}
    (hb : band = .bandpass ∨ band = .bandstop) {fs : Option ℝ} {e0 e1 : ℝ} (he : Spec.edges [a, b] fs = [e0, e1])
    (h0 : 0 < e0) (h01 : e0 < e1) (h1 : e1 < 1) :
    ∃ l0, Design.cheby1 0 s n rp [a, b] (some band) (some false) (some .sos) fs = .ok (.sos l0) := by
  have hv : ValidRequest [a, b] (some rp) none band .chebyshevI false fs :=
    valid_pair hb he h0 h01 h1 (by rintro x ⟨⟩; exact hrp.le) (by simp) (.inr (.inl ⟨rfl, rfl⟩))
  obtain ⟨d, -, hR, -⟩ := C84_returns_iff 0 s le_rfl hs n [a, b] (some rp) none (some band) (some .chebyshevI)
    (some false) (.inr rfl) fs hv ⟨by rintro - x ⟨⟩; exact hrp, by simp⟩ (by simp)
  have sep : ∀ L : List ℂ, Spec.Separated (0 * 100) L := by
    intro L x _
    rw [zero_mul, zero_mul]
    exact (eq_or_ne x.im 0).imp id abs_pos.mpr
  exact C84_format 0 s n [a, b] (some rp) none (some band) (some .chebyshevI) (some false) fs (hR.mpr ⟨sep _, sep _⟩)

/-- Without rounding, every Butterworth band request is answered with sections. -/
theorem band_exact_sections {s : Sorts} (hs : s.Correct) {n : ℕ} {a b : ℝ} {band : Band}
    (hb : band = .bandpass ∨ band = .bandstop) {fs : Option ℝ} {e0 e1 : ℝ} (he : Spec.edges [a, b] fs = [e0, e1])
    (h0 : 0 < e0) (h01 : e0 < e1) (h1 : e1 < 1) :
    ∃ l0, Design.butter 0 s n [a, b] (some band) none (some .sos) fs = .ok (.sos l0) := by
  have hv : ValidRequest [a, b] none none band .butterworth false fs :=
    valid_pair hb he h0 h01 h1 (by simp) (by simp) (.inl rfl)
  obtain ⟨d, -, hR, -⟩ := C84_returns_iff 0 s le_rfl hs n [a, b] none none (some band) (some .butterworth)
    (some false) (.inr rfl) fs hv ⟨by simp, by simp⟩ (by simp)
  have sep : ∀ L : List ℂ, Spec.Separated (0 * 100) L := by
    intro L x _
    rw [zero_mul, zero_mul]
    exact (eq_or_ne x.im 0).imp id abs_pos.mpr
  exact C84_format 0 s n [a, b] none none (some band) (some .butterworth) (some false) fs (hR.mpr ⟨sep _, sep _⟩)

/-- **C134**, the energy: filter a signal with the sections of a Chebyshev I band-pass filter computed in floating
point, and with the sections the design gives without rounding.  The difference of the outputs has at most `E²` times
the energy of the signal, and the first output at most `(1 + E)²` times that energy, where
`E = 3280 n² c² Λ² h / (κ (1 - e1)² X) + 8 n h / X²` is the error of the response that C133 gives. -/
theorem C134_energy (hr : r.Nearest) (hm : m.Accurate r h) (hm2 : m.AccurateHyp r h) (hp : m.AccuratePolar r h)
    {s : Sorts} (hs : s.Correct) (n : ℕ) (rp e0 e1 κ Λ : ℝ) (R : ChebBandRequest n rp e0 e1 κ Λ h false)
    (S : Small r h (chebBandFloor n rp e0 κ Λ))
    (S2 : Small r h ((rippleFloor rp ^ 2 * (1 - e1) ^ 2 * (e1 - e0) / (20 * n ^ 2 * Λ)) ^ n)) (X : ℝ)
    (hX : X = κ * (e0 * (1 - e1) * (e1 - e0)) / Λ ^ 3) (hh : 4000 * (n * h) ≤ X ^ 2)
    (hh2 : 40000 * (n ^ 2 * rippleCond rp ^ 2 * Λ ^ 2 * h) ≤ κ * (1 - e1) ^ 2 * X) (a b : ℝ)
    (ha : r.rnd a = a) (hb : r.rnd b = b) (fs : Option ℝ) (he : Spec.edges [a, b] fs = [e0, e1]) (E : ℝ)
    (hE : E = 3280 * (n ^ 2 * rippleCond rp ^ 2 * Λ ^ 2 * h / (κ * (1 - e1) ^ 2 * X)) + 8 * (n * h / X ^ 2)) :
    ∃ l l0 : List (Sos ℝ),
      Rounded.cheby1 (.ofRounding r m) s n rp [a, b] (some .bandpass) (some false) (some .sos) fs = .ok (.sos l) ∧
      Design.cheby1 0 s n rp [a, b] (some .bandpass) (some false) (some .sos) fs = .ok (.sos l0) ∧
      ∀ x : List ℝ, energy (signalDiff (sosfiltDyn x l).1 (sosfiltDyn x l0).1) ≤ E ^ 2 * energy x ∧
        energy (sosfiltDyn x l).1 ≤ (1 + E) ^ 2 * energy x := by
  have hh0 := S.h_nonneg
  have hn1 : (1 : ℝ) ≤ n := by exact_mod_cast Nat.one_le_iff_ne_zero.mpr R.order
  have hκ := R.kappa
  have h1e : 0 < 1 - e1 := by linarith [R.one]
  obtain ⟨hX0, -⟩ := cheb_band_sizes R S hX (by nlinarith)
  have hE0 : 0 ≤ E := by rw [hE]; positivity
  obtain ⟨l, g, hl, hg, -, hst, H⟩ := C133_sections_response hr hm hm2 hp 0 hs n rp e0 e1 κ Λ R S S2 X hX hh hh2
    [a, b] (by
      intro w hw
      rcases List.mem_cons.mp hw with rfl | hw
      · exact ha
      · rw [List.mem_singleton.mp hw]; exact hb) fs he
  obtain ⟨l0, hl0⟩ := cheb_band_exact_sections (n := n) hs R.ripple (.inl rfl) he R.pos R.lt R.one
  rw [← hE] at H
  have hv : ValidRequest [a, b] (some rp) none .bandpass .chebyshevI false fs :=
    valid_pair (.inl rfl) he R.pos R.lt R.one (by rintro x ⟨⟩; exact R.ripple.le) (by simp) (.inr (.inl ⟨rfl, rfl⟩))
  obtain ⟨a1, a2, a3, d, hd, a4⟩ := design_sections 0 s le_rfl hs n R.order [a, b] (some rp) none (some .bandpass)
    (some .chebyshevI) (some false) (.inr rfl) fs hv ⟨by rintro - x ⟨⟩; exact R.ripple, by simp⟩ (by simp) l0 hl0
  have hdf : d = g := by
    have : iirfilter 0 s n [a, b] (some rp) none (some .bandpass) (some .chebyshevI) (some false) (some .zpk) fs =
      .ok (.zpk g) := hg
    rw [this] at hd
    simpa using hd.symm
  subst hdf
  obtain ⟨c1, c2⟩ := cheb_sections_rest hr hs R.order hl
  have key : ∀ ω : ℝ, |ω| < Real.pi → ‖freqResponse l ω - freqResponse l0 ω‖ ≤ E := by
    intro ω hω
    have h5 := a3 ω hω
    rw [a4] at h5 ⊢
    exact (H ω).trans (mul_le_of_le_one_right hE0 h5)
  refine ⟨l, l0, hl, hl0, fun x => ⟨C92_distance l l0 (fun c hc => ⟨c1 c hc, hst c hc⟩) a1 c2 a2 _ key x,
    C92_energy l (fun c hc => ⟨c1 c hc, hst c hc⟩) c2 _ (fun ω hω => ?_) x⟩⟩
  have i1 := key ω hω
  have i2 := a3 ω hω
  have i3 := norm_sub_norm_le (freqResponse l ω) (freqResponse l0 ω)
  linarith

set_option maxHeartbeats 1600000 in
/-- **C134**, from end to end: design a Chebyshev I band-pass filter of order `n` in floating point and filter a signal
with its sections in the same arithmetic.  With `X` and `E` as above and `δ = 0.8 X`, every sample of the output is
within `E √(energy of the signal)` (from the design) and `((1 + 15 u / δ²)^n - 1) k (4 / δ²)^n L` (from the filtering,
computed gain `k`, signal of level `L`), plus an underflow term, of the output of the exact filter in exact arithmetic.
The gain is at most 1.1. -/
theorem C134_cheby1 (hr : r.Nearest) (hm : m.Accurate r h) (hm2 : m.AccurateHyp r h) (hp : m.AccuratePolar r h)
    {s : Sorts} (hs : s.Correct) (n : ℕ) (rp e0 e1 κ Λ : ℝ) (R : ChebBandRequest n rp e0 e1 κ Λ h false)
    (S : Small r h (chebBandFloor n rp e0 κ Λ))
    (S2 : Small r h ((rippleFloor rp ^ 2 * (1 - e1) ^ 2 * (e1 - e0) / (20 * n ^ 2 * Λ)) ^ n)) (X : ℝ)
    (hX : X = κ * (e0 * (1 - e1) * (e1 - e0)) / Λ ^ 3) (hh : 4000 * (n * h) ≤ X ^ 2)
    (hh2 : 40000 * (n ^ 2 * rippleCond rp ^ 2 * Λ ^ 2 * h) ≤ κ * (1 - e1) ^ 2 * X) (a b : ℝ)
    (ha : r.rnd a = a) (hb : r.rnd b = b) (fs : Option ℝ) (he : Spec.edges [a, b] fs = [e0, e1]) (E δ : ℝ)
    (hE : E = 3280 * (n ^ 2 * rippleCond rp ^ 2 * Λ ^ 2 * h / (κ * (1 - e1) ^ 2 * X)) + 8 * (n * h / X ^ 2))
    (hδ : δ = 0.8 * X) :
    ∃ (l l0 : List (Sos ℝ)) (f : Zpk),
      Rounded.cheby1 (.ofRounding r m) s n rp [a, b] (some .bandpass) (some false) (some .sos) fs = .ok (.sos l) ∧
      Design.cheby1 0 s n rp [a, b] (some .bandpass) (some false) (some .sos) fs = .ok (.sos l0) ∧
      Rounded.cheby1 (.ofRounding r m) s n rp [a, b] (some .bandpass) (some false) (some .zpk) fs = .ok (.zpk f) ∧
      |f.k| ≤ 1.1 ∧
      ∀ (L : ℝ) (x : List ℝ), (∀ v ∈ x, |v| ≤ L) → ∀ i (_ : i < x.length),
        |((sosfiltDyn (x.map (Fl.mk (r := r))) (l.map (flSection r))).1.getD i 0).val
          - (sosfiltDyn x l0).1.getD i 0| ≤
          E * √(energy x) + ((1 + 15 * (r.u / δ ^ 2)) ^ n - 1) * (|f.k| * (4 / δ ^ 2) ^ n * L) +
          n * (10 * r.t / δ ^ 2) * (1 + 15 * (r.u / δ ^ 2)) ^ n * (1.1 * (4 / δ ^ 2) ^ n) := by
  have hh0 := S.h_nonneg
  have hn1 : (1 : ℝ) ≤ n := by exact_mod_cast Nat.one_le_iff_ne_zero.mpr R.order
  have hhn : h ≤ n * h := by nlinarith
  have hpos := R.pos
  have hκ := R.kappa
  have hone := R.one
  have hlt := R.lt
  have h1e : 0 < 1 - e1 := by linarith
  obtain ⟨hX0, hX16, c1, -, S3⟩ := cheb_band_sizes R S hX (by linarith)
  have hX2 : 0 < X ^ 2 := by positivity
  have hE0 : 0 ≤ E := by rw [hE]; positivity
  have hW : ∀ w ∈ [a, b], r.rnd w = w := by
    intro w hw
    rcases List.mem_cons.mp hw with rfl | hw
    · exact ha
    · rw [List.mem_singleton.mp hw]; exact hb
  obtain ⟨l, l0, hl, hl0, H⟩ := C134_energy hr hm hm2 hp hs n rp e0 e1 κ Λ R S S2 X hX hh hh2 a b ha hb fs he E hE
  obtain ⟨l', g', hl', -, hlen, -⟩ := C133_sections_response hr hm hm2 hp 0 hs n rp e0 e1 κ Λ R S S2 X hX hh hh2
    [a, b] hW fs he
  have hll : l' = l := by rw [hl] at hl'; simpa using hl'.symm
  subst hll
  have hν1 : 10000 * (4 * (n ^ 2 * rippleCond rp ^ 2 * Λ ^ 2 * h) / (κ * (1 - e1) ^ 2 * X)) ≤ 1 := by
    rw [mul_div_assoc', div_le_one (by positivity)]; linarith
  obtain ⟨f, g, hf, hg, hz, hpn, hin, Hc⟩ := cheb_band_close (m := m) hr hm hm2 hp 0 s R S S2 hW he hX (by linarith)
    rfl hν1
  have hv : ValidRequest [a, b] (some rp) none .bandpass .chebyshevI false fs :=
    valid_pair (.inl rfl) he R.pos R.lt R.one (by rintro x ⟨⟩; exact R.ripple.le) (by simp) (.inr (.inl ⟨rfl, rfl⟩))
  obtain ⟨a1, a2, a3, d, hd, a4⟩ := design_sections 0 s le_rfl hs n R.order [a, b] (some rp) none (some .bandpass)
    (some .chebyshevI) (some false) (.inr rfl) fs hv ⟨by rintro - x ⟨⟩; exact R.ripple, by simp⟩ (by simp) l0 hl0
  have hdf : d = g := by
    have : iirfilter 0 s n [a, b] (some rp) none (some .bandpass) (some .chebyshevI) (some false) (some .zpk) fs =
      .ok (.zpk g) := hg
    rw [this] at hd
    simpa using hd.symm
  subst hdf
  have hk : |f.k| ≤ 1.1 := gain_le_close hz hpn (fun p hpm => by have := hin p hpm; linarith)
    (by linarith) Hc fun ω => by
      rw [← a4]
      exact bound_everywhere (continuous_freqResponse l0 a1) _ a4 a3 ω
  have hke : κ ^ 2 * e0 ^ 2 / 2 ≤ 1 := by
    have i1 := mul_le_one₀ (pow_le_one₀ hκ.le (by linarith [R.kappa_half]) : κ ^ 2 ≤ 1) (sq_nonneg e0)
      (pow_le_one₀ hpos.le (by linarith) : e0 ^ 2 ≤ 1)
    linarith
  obtain ⟨b1, -, b3, s0, rest, b4, b5, b6⟩ := sections_bounds S3 hke hr hs R.order (ftype := .chebyshevI)
    (by simp [KeepsPairs]) hl hf (fun z hzm => by
      rw [hz] at hzm
      rcases List.mem_append.mp hzm with k | k
      · exact .inl (List.mem_replicate.mp k).2
      · exact .inr (List.mem_replicate.mp k).2)
    (by rw [hpn]; have := Nat.pos_of_ne_zero R.order; omega) (δ := 0.9 * X) (by positivity) hin (by
      have : (0.9 * X) ^ 2 = 0.81 * X ^ 2 := by ring
      rw [this]
      linarith)
  refine ⟨l', l0, f, hl, hl0, hf, hk, fun L x hx i hi => ?_⟩
  refine filtering_error hlen b1 (by rw [hδ]; positivity) (by rw [hδ]; linarith) (by norm_num) (by norm_num)
    (fun c hc z hzr => ?_) b4 b5 b6 hk ?_ hE0 (fun x => (H x).1) L x hx i hi
  · have := b3 c hc z hzr
    rw [hδ]
    linarith
  · have : δ ^ 2 = 0.64 * X ^ 2 := by rw [hδ]; ring
    rw [this]
    have := S.u_le
    linarith

set_option maxHeartbeats 1600000 in
/-- **C134**, from end to end for Butterworth band-pass filters: with `Δ = κ e0 (1 - e1) (e1 - e0)`, `δ = 0.8 Δ` and the
error `E` of C128, every sample of the output of the filter designed and run in floating point is within
`E √(energy of the signal) + ((1 + 15 u / δ²)^n - 1) k (4 / δ²)^n L`, plus an underflow term, of the output of the exact
filter in exact arithmetic, where the computed gain `k` is at most 1.1 and the signal is of level `L`. -/
theorem C134_butter (hr : r.Nearest) (hm : m.Accurate r h) (hp : m.AccuratePolar r h) {s : Sorts} (hs : s.Correct)
    (n : ℕ) (e0 e1 κ : ℝ) (R : BandRequest n e0 e1 κ h) (hκn : κ ≤ 1 / n)
    (S : Small r h (κ ^ 2 * e0 ^ 2 / 2)) (S2 : Small r h (((1 - e1) ^ 2 * (e1 - e0) / 20) ^ n)) (a b : ℝ)
    (ha : r.rnd a = a) (hb : r.rnd b = b) (fs : Option ℝ) (he : Spec.edges [a, b] fs = [e0, e1]) (Δ : ℝ)
    (hΔ : Δ = κ * e0 * (1 - e1) * (e1 - e0)) (hh : 4000 * (n * h) ≤ (κ * (1 - e1) * Δ) ^ 2) (E δ : ℝ)
    (hE : E = 1600 * (n * h / (κ * (1 - e1) ^ 2 * Δ)) + 9 * (n * h / Δ ^ 2)) (hδ : δ = 0.8 * Δ) :
    ∃ (l l0 : List (Sos ℝ)) (f : Zpk),
      Rounded.butter (.ofRounding r m) s n [a, b] (some .bandpass) none (some .sos) fs = .ok (.sos l) ∧
      Design.butter 0 s n [a, b] (some .bandpass) none (some .sos) fs = .ok (.sos l0) ∧
      Rounded.butter (.ofRounding r m) s n [a, b] (some .bandpass) none (some .zpk) fs = .ok (.zpk f) ∧
      |f.k| ≤ 1.1 ∧
      ∀ (L : ℝ) (x : List ℝ), (∀ v ∈ x, |v| ≤ L) → ∀ i (_ : i < x.length),
        |((sosfiltDyn (x.map (Fl.mk (r := r))) (l.map (flSection r))).1.getD i 0).val
          - (sosfiltDyn x l0).1.getD i 0| ≤
          E * √(energy x) + ((1 + 15 * (r.u / δ ^ 2)) ^ n - 1) * (|f.k| * (4 / δ ^ 2) ^ n * L) +
          n * (10 * r.t / δ ^ 2) * (1 + 15 * (r.u / δ ^ 2)) ^ n * (1.1 * (4 / δ ^ 2) ^ n) := by
  have hh0 := S.h_nonneg
  have hX : Δ = κ * (e0 * (1 - e1) * (e1 - e0)) := by rw [hΔ]; ring
  obtain ⟨hX0, hX16, c1, hkE0, hkE1⟩ := band_margin_sizes R hh0 hX
  have hn1 : (1 : ℝ) ≤ n := by exact_mod_cast Nat.one_le_iff_ne_zero.mpr R.order
  have hpos := R.pos
  have hκ := R.kappa
  have hone := R.one
  have hlt := R.lt
  have h1e : 0 < 1 - e1 := by linarith
  have hd0 : 0 < e1 - e0 := by linarith
  have hhn : h ≤ n * h := by nlinarith
  have hX2 : 0 < Δ ^ 2 := by positivity
  have hnX : 4000 * (n * h) ≤ Δ ^ 2 := by
    refine hh.trans (pow_le_pow_left₀ (by positivity) ?_ 2)
    exact mul_le_of_le_one_left hX0.le hkE1
  have hE0 : 0 ≤ E := by rw [hE]; positivity
  have hW : ∀ w ∈ [a, b], r.rnd w = w := by
    intro w hw
    rcases List.mem_cons.mp hw with rfl | hw
    · exact ha
    · rw [List.mem_singleton.mp hw]; exact hb
  obtain ⟨ν, hν⟩ : ∃ ν, ν = n * h / (κ * (1 - e1) ^ 2 * Δ) := ⟨_, rfl⟩
  have hν1 : 10000 * ν ≤ 1 := by
    rw [hν, mul_div_assoc', div_le_one (by positivity)]
    have e : (κ * (1 - e1) * Δ) ^ 2 = (κ * (1 - e1) ^ 2 * Δ) * (κ * Δ) := by ring
    have i1 : κ * Δ ≤ 1 / 16 := (mul_le_of_le_one_left hX0.le c1).trans hX16
    have i2 : (κ * (1 - e1) ^ 2 * Δ) * (κ * Δ) ≤ (κ * (1 - e1) ^ 2 * Δ) * (1 / 16) :=
      mul_le_mul_of_nonneg_left i1 (by positivity)
    rw [e] at hh
    linarith
  obtain ⟨l0, hl0⟩ := band_exact_sections (n := n) hs (.inl rfl) he R.pos R.lt R.one
  obtain ⟨l, hl, H⟩ := C128_band_energy hr hm hp 0 le_rfl hs n e0 e1 κ R hκn S S2 a b ha hb .bandpass (.inl rfl) fs he Δ
    hΔ hh E hE l0 hl0
  obtain ⟨l', g', hl', -, hlen, -⟩ := C123_sections_response hr hm hp 0 hs n e0 e1 κ R hκn S S2 [a, b] hW fs he Δ hΔ hh
  have hll : l' = l := by rw [hl] at hl'; simpa using hl'.symm
  subst hll
  obtain ⟨f, g, hf, hg, hz, hpn, hin, Hc⟩ := band_close (m := m) hr hm hp 0 s R hκn S S2 hW he hX
    (by rw [hν]; field_simp) hν1
  have hv : ValidRequest [a, b] none none .bandpass .butterworth false fs :=
    valid_pair (.inl rfl) he R.pos R.lt R.one (by simp) (by simp) (.inl rfl)
  obtain ⟨a1, a2, a3, d, hd, a4⟩ := design_sections 0 s le_rfl hs n R.order [a, b] none none (some .bandpass)
    (some .butterworth) (some false) (.inr rfl) fs hv ⟨by simp, by simp⟩ (by simp) l0 hl0
  have hdf : d = g := by
    have : iirfilter 0 s n [a, b] none none (some .bandpass) (some .butterworth) (some false) (some .zpk) fs =
      .ok (.zpk g) := hg
    rw [this] at hd
    simpa using hd.symm
  subst hdf
  have hk : |f.k| ≤ 1.1 := gain_le_close hz hpn (fun p hpm => by have := hin p hpm; linarith)
    (by linarith) Hc fun ω => by
      rw [← a4]
      exact bound_everywhere (continuous_freqResponse l0 a1) _ a4 a3 ω
  have hke : κ ^ 2 * e0 ^ 2 / 2 ≤ 1 := by
    have i1 := mul_le_one₀ (pow_le_one₀ hκ.le c1 : κ ^ 2 ≤ 1) (sq_nonneg e0)
      (pow_le_one₀ hpos.le (by linarith) : e0 ^ 2 ≤ 1)
    linarith
  obtain ⟨b1, -, b3, s0, rest, b4, b5, b6⟩ := sections_bounds S hke hr hs R.order (ftype := .butterworth)
    (by simp [KeepsPairs]) hl hf (fun z hzm => by
      rw [hz] at hzm
      rcases List.mem_append.mp hzm with k | k
      · exact .inl (List.mem_replicate.mp k).2
      · exact .inr (List.mem_replicate.mp k).2)
    (by rw [hpn]; have := Nat.pos_of_ne_zero R.order; omega) (δ := 0.9 * Δ) (by positivity) hin (by
      have : (0.9 * Δ) ^ 2 = 0.81 * Δ ^ 2 := by ring
      rw [this]
      linarith)
  refine ⟨l', l0, f, hl, hl0, hf, hk, fun L x hx i hi => ?_⟩
  refine filtering_error hlen b1 (by rw [hδ]; positivity) (by rw [hδ]; linarith) (by norm_num) (by norm_num)
    (fun c hc z hzr => ?_) b4 b5 b6 hk ?_ hE0 (fun x => (H x).1) L x hx i hi
  · have := b3 c hc z hzr
    rw [hδ]
    linarith
  · have : δ ^ 2 = 0.64 * Δ ^ 2 := by rw [hδ]; ring
    rw [this]
    have := S.u_le
    linarith

set_option maxHeartbeats 800000 in
/-- **C134**, an instance for Butterworth filters: the second-order band-pass filter from 125 Hz to 250 Hz for signals
sampled at 1000 Hz, designed in binary64 and run in binary64 on a signal of level `L`.  Every output sample is within
`2e-9 √(energy of the signal) + L / 50 + 1e-50` of that of the exact filter. -/
theorem C134_example {s : Sorts} (hs : s.Correct) : ∃ l l0 : List (Sos ℝ),
    Rounded.butter (.ofRounding binary64 libm64) s 2 [125, 250] (some .bandpass) none (some .sos) (some 1000)
      = .ok (.sos l) ∧
    Design.butter 0 s 2 [125, 250] (some .bandpass) none (some .sos) (some 1000) = .ok (.sos l0) ∧
      ∀ (L : ℝ) (x : List ℝ), (∀ v ∈ x, |v| ≤ L) → ∀ i (_ : i < x.length),
        |((sosfiltDyn (x.map (Fl.mk (r := binary64))) (l.map (flSection binary64))).1.getD i 0).val
          - (sosfiltDyn x l0).1.getD i 0| ≤ 2 / 10 ^ 9 * √(energy x) + L / 50 + 1 / 10 ^ 50 := by
  have hint : ∀ k : ℤ, |k| ≤ 1000 → binary64.rnd k = k := by
    intro k hk
    refine Binary.rnd_int 53 (-1074) (by norm_num) k (hk.trans_lt (by norm_num))
  have hσ : (2 : ℝ) ^ (-1000 : ℤ) ≤ (((1 - 1 / 2 : ℝ)) ^ 2 * (1 / 2 - 1 / 4) / 20) ^ 2 := by
    have h5 : (2 : ℝ) ^ (-1000 : ℤ) ≤ 2 ^ (-100 : ℤ) := zpow_le_zpow_right₀ (by norm_num) (by norm_num)
    refine h5.trans ?_
    rw [zpow_neg]
    norm_num
  have R : BandRequest 2 (1 / 4) (1 / 2) (1 / 2) (1 / 2 ^ 50) :=
    ⟨by norm_num, by norm_num, by norm_num, by norm_num, by norm_num, by norm_num, by norm_num, by norm_num⟩
  obtain ⟨l, l0, f, hl, hl0, -, hk, H⟩ := C134_butter binary64_nearest libm64_accurate libm64_polar hs 2 (1 / 4) (1 / 2)
    (1 / 2) R (by norm_num) (binary64_small_40 (by norm_num)) (binary64_small_pow hσ) 125 250
    (by exact_mod_cast hint 125 (by norm_num)) (by exact_mod_cast hint 250 (by norm_num)) (some 1000)
    (by simp [Spec.edges]; norm_num) (1 / 64) (by norm_num) (by norm_num) _ (1 / 80) rfl (by norm_num)
  refine ⟨l, l0, hl, hl0, fun L x hx i hi => (H L x hx i hi).trans ?_⟩
  have hL : 0 ≤ L := (abs_nonneg _).trans (hx x[i] (List.getElem_mem hi))
  have h1' : binary64.u = 2 ^ (-53 : ℤ) := rfl
  have h3' : binary64.t ≤ 1 / 10 ^ 74 := by
    have h5 : (2 : ℝ) ^ (-1075 : ℤ) ≤ 2 ^ (-250 : ℤ) := zpow_le_zpow_right₀ (by norm_num) (by norm_num)
    refine (show binary64.t = 2 ^ (-1075 : ℤ) from rfl).le.trans (h5.trans ?_)
    rw [zpow_neg]
    norm_num
  have ht0 := binary64.t_nonneg
  have t1 : (1600 * (((2 : ℕ) : ℝ) * (1 / 2 ^ 50) / (1 / 2 * (1 - 1 / 2) ^ 2 * (1 / 64))) +
      9 * (((2 : ℕ) : ℝ) * (1 / 2 ^ 50) / (1 / 64) ^ 2)) * √(energy x) ≤ 2 / 10 ^ 9 * √(energy x) :=
    mul_le_mul_of_nonneg_right (by norm_num) (Real.sqrt_nonneg _)
  have t2 : ((1 + 15 * (binary64.u / (1 / 80) ^ 2)) ^ 2 - 1) * (|f.k| * (4 / (1 / 80) ^ 2) ^ 2 * L) ≤ L / 50 := by
    have a1 : (1 + 15 * (binary64.u / (1 / 80) ^ 2)) ^ 2 - 1 ≤ 22 / 10 ^ 12 := by rw [h1']; norm_num
    have a2 : |f.k| * (4 / (1 / 80) ^ 2) ^ 2 * L ≤ 1.1 * (4 / (1 / 80) ^ 2) ^ 2 * L :=
      mul_le_mul_of_nonneg_right (mul_le_mul_of_nonneg_right hk (by norm_num)) hL
    have a3 := mul_le_mul a1 a2 (by positivity) (by norm_num)
    norm_num at a3 ⊢
    linarith
  have t3 : ((2 : ℕ) : ℝ) * (10 * binary64.t / (1 / 80) ^ 2) * (1 + 15 * (binary64.u / (1 / 80) ^ 2)) ^ 2 *
      (1.1 * (4 / (1 / 80) ^ 2) ^ 2) ≤ 1 / 10 ^ 50 := by
    have a1 : (1 + 15 * (binary64.u / (1 / 80) ^ 2)) ^ 2 ≤ 2 := by rw [h1']; norm_num
    have a2 : ((2 : ℕ) : ℝ) * (10 * binary64.t / (1 / 80) ^ 2) ≤ 2 * (10 * (1 / 10 ^ 74) / (1 / 80) ^ 2) := by
      push_cast
      norm_num at h3' ⊢
      linarith
    have a3 := mul_le_mul (mul_le_mul a2 a1 (by positivity) (by norm_num))
      (le_refl (1.1 * (4 / (1 / 80) ^ 2) ^ 2 : ℝ)) (by norm_num) (by norm_num)
    refine a3.trans ?_
    norm_num
  linarith

set_option maxHeartbeats 800000 in
/-- **C134**, an instance for Chebyshev I filters: the second-order band-pass filter with a ripple of 1 dB from 125 Hz to
250 Hz for signals sampled at 1000 Hz, designed in binary64.  The relative error of the output, measured by its energy,
is at most `3e-4`. -/
theorem C134_cheby1_example {s : Sorts} (hs : s.Correct) : ∃ l l0 : List (Sos ℝ),
    Rounded.cheby1 (.ofRounding binary64 libm64) s 2 1 [125, 250] (some .bandpass) (some false) (some .sos) (some 1000)
      = .ok (.sos l) ∧
    Design.cheby1 0 s 2 1 [125, 250] (some .bandpass) (some false) (some .sos) (some 1000) = .ok (.sos l0) ∧
      ∀ x : List ℝ, energy (signalDiff (sosfiltDyn x l).1 (sosfiltDyn x l0).1) ≤ (3 / 10 ^ 4) ^ 2 * energy x := by
  obtain ⟨h1, h2⟩ := one_decibel
  obtain ⟨-, k1, -, -, -, -, -, g1, -⟩ := ripple_facts one_pos
  obtain ⟨-, m1, -, m2, m3, -⟩ := mu_facts (n := 2) (by norm_num) one_pos
  have e : passMu 2 1 = exMu 2 1 := rfl
  have hc : rippleCond 1 ^ 2 ≤ 100 := by
    have := pow_le_pow_left₀ (by linarith) h1 2
    norm_num at this
    exact this
  have hc0 : 0 ≤ rippleCond 1 ^ 2 := sq_nonneg _
  have hint : ∀ k : ℤ, |k| ≤ 1000 → binary64.rnd k = k := by
    intro k hk
    refine Binary.rnd_int 53 (-1074) (by norm_num) k (hk.trans_lt (by norm_num))
  have R : ChebBandRequest 2 1 (1 / 4) (1 / 2) (1 / 2) (16 / 5) (1 / 2 ^ 50) false := by
    refine ⟨by norm_num, by norm_num, by norm_num, by norm_num, one_pos, by norm_num, by norm_num, by norm_num, ?_, ?_,
      fun h => by norm_num at h, ?_, ?_⟩
    · rw [e]
      exact abs_le_of_sq_le_sq' (m3.trans (by linarith)) (by norm_num) |>.2
    · rw [e]
      have i1 := Real.self_le_sinh_iff.mpr m1.le
      push_cast at m2
      have i2 : (0.44 : ℝ) ≤ rippleFloor 1 / 2 := by rw [le_div_iff₀ (by norm_num)]; norm_num at h2 ⊢; linarith
      norm_num at i2
      linarith
    · push_cast
      norm_num
      linarith
    · push_cast
      norm_num
      linarith
  have S : Small binary64 (1 / 2 ^ 50) (chebBandFloor 2 1 (1 / 4) (1 / 2) (16 / 5)) := by
    refine binary64_small_40 ?_
    rw [chebBandFloor, le_div_iff₀ (by push_cast; linarith)]
    push_cast
    norm_num at h2 ⊢
    linarith
  have hσ : (2 : ℝ) ^ (-1000 : ℤ) ≤
      (rippleFloor 1 ^ 2 * (1 - 1 / 2) ^ 2 * (1 / 2 - 1 / 4) / (20 * (2 : ℕ) ^ 2 * (16 / 5))) ^ 2 := by
    have g1 : (2 : ℝ) ^ (-1000 : ℤ) ≤ 2 ^ (-100 : ℤ) := zpow_le_zpow_right₀ (by norm_num) (by norm_num)
    have g2 : (0.0001 : ℝ) ≤ rippleFloor 1 ^ 2 * (1 - 1 / 2) ^ 2 * (1 / 2 - 1 / 4) / (20 * (2 : ℕ) ^ 2 * (16 / 5)) := by
      have := pow_le_pow_left₀ (by norm_num) h2 2
      push_cast
      norm_num at this ⊢
      linarith
    refine g1.trans (le_trans ?_ (pow_le_pow_left₀ (by norm_num) g2 2))
    rw [zpow_neg]
    norm_num
  obtain ⟨E, hE⟩ : ∃ E, E = 3280 * (((2 : ℕ) : ℝ) ^ 2 * rippleCond 1 ^ 2 * (16 / 5) ^ 2 * (1 / 2 ^ 50) /
      (1 / 2 * (1 - 1 / 2) ^ 2 * (1 / 2 * (1 / 4 * (1 - 1 / 2) * (1 / 2 - 1 / 4)) / (16 / 5) ^ 3))) +
      8 * (((2 : ℕ) : ℝ) * (1 / 2 ^ 50) / (1 / 2 * (1 / 4 * (1 - 1 / 2) * (1 / 2 - 1 / 4)) / (16 / 5) ^ 3) ^ 2) :=
    ⟨_, rfl⟩
  obtain ⟨l, l0, hl, hl0, H⟩ := C134_energy binary64_nearest libm64_accurate libm64_accurateHyp libm64_polar
    hs 2 1 (1 / 4) (1 / 2) (1 / 2) (16 / 5) R S (binary64_small_pow hσ) _ rfl (by norm_num)
    (by push_cast; norm_num; linarith) 125 250
    (by exact_mod_cast hint 125 (by norm_num)) (by exact_mod_cast hint 250 (by norm_num)) (some 1000)
    (by simp [Spec.edges]; norm_num) E hE
  have hE0 : 0 ≤ E := by
    rw [hE]
    push_cast
    norm_num
    linarith
  have hE1 : E ≤ 3 / 10 ^ 4 := by
    rw [hE]
    push_cast
    norm_num
    linarith
  refine ⟨l, l0, hl, hl0, fun x => (H x).1.trans (mul_le_mul_of_nonneg_right ?_ ?_)⟩
  · exact pow_le_pow_left₀ hE0 hE1 2
  · exact List.sum_nonneg (by simp [sq_nonneg])

end SciRs.Props

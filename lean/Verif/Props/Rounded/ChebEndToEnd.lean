import Verif.Props.Rounded.ChebResponse
import Verif.Props.Rounded.EndToEnd

/-!
# C132: designing Chebyshev I filters and filtering with them in floating point, from end to end

The counterpart for Chebyshev I filters of the last part of C92 and of C124.
-/

namespace SciRs.Props

open SciRs SciRs.Design SciRs.Spec SciRs.Rounded

variable {r : Rounding} {m : Libm} {h : ℝ}

/-- Without rounding, every Chebyshev I low-pass or high-pass request is answered with sections. -/
theorem cheb_exact_sections {s : Sorts} (hs : s.Correct) {n : ℕ} {rp : ℝ} (hrp : 0 < rp) {w : ℝ} {band : Band}
    (hb : band = .lowpass ∨ band = .highpass) {fs : Option ℝ} {e : ℝ} (he : Spec.edges [w] fs = [e]) (h0 : 0 < e)
    (h1 : e < 1) : ∃ l0, Design.cheby1 0 s n rp [w] (some band) (some false) (some .sos) fs = .ok (.sos l0) := by
  have hv : ValidRequest [w] (some rp) none band .chebyshevI false fs :=
    valid_single hb he h0 h1 (by rintro x ⟨⟩; exact hrp.le) (by simp) (.inr (.inl ⟨rfl, rfl⟩))
  obtain ⟨d, -, hR, -⟩ := C84_returns_iff 0 s le_rfl hs n [w] (some rp) none (some band) (some .chebyshevI) (some false)
    (.inr rfl) fs hv ⟨by rintro - x ⟨⟩; exact hrp, by simp⟩ (by simp)
  have sep : ∀ L : List ℂ, Spec.Separated (0 * 100) L := by
    intro L x _
    rw [zero_mul, zero_mul]
    exact (eq_or_ne x.im 0).imp id abs_pos.mpr
  exact C84_format 0 s n [w] (some rp) none (some band) (some .chebyshevI) (some false) fs (hR.mpr ⟨sep _, sep _⟩)

/-- The sections of a Chebyshev I filter designed in floating point are normalised and at rest. -/
theorem cheb_sections_rest (hr : r.Nearest) {s : Sorts} (hs : s.Correct) {n : ℕ} (hn : n ≠ 0) {rp : ℝ} {wn : List ℝ}
    {band : Band} {fs : Option ℝ} {l : List (Sos ℝ)}
    (hl : Rounded.cheby1 (.ofRounding r m) s n rp wn (some band) (some false) (some .sos) fs = .ok (.sos l)) :
    (∀ c ∈ l, c.a0 = 1) ∧ AtRest l := by
  obtain ⟨f', -, -, -, -, -, q0, qs, hl', -⟩ := C87_coefficients hr m hs n hn wn (some rp) none (some band)
    (some .chebyshevI) (some false) rfl fs (by simp [KeepsPairs]) hl
  rw [hl']
  constructor
  · intro c hc
    rcases List.mem_cons.mp hc with rfl | hc
    · rfl
    · obtain ⟨q, -, rfl⟩ := List.mem_map.mp hc
      rfl
  · intro c hc
    rcases List.mem_cons.mp hc with rfl | hc
    · exact ⟨rfl, rfl⟩
    · obtain ⟨q, -, rfl⟩ := List.mem_map.mp hc
      exact ⟨rfl, rfl⟩

/-- **C132**, the energy: filter a signal with the sections of a Chebyshev I low-pass or high-pass filter computed in
floating point, and with the sections the design gives without rounding.  The difference of the outputs has at most
`E²` times the energy of the signal, and the first output at most `(1 + E)²` times that energy, where
`E = 800 n² c² h / X²`, `c` is the condition of the ripple and `X` the margin. -/
theorem C132_energy (hr : r.Nearest) (hm : m.Accurate r h) (hm2 : m.AccurateHyp r h) {s : Sorts} (hs : s.Correct)
    (n : ℕ) (hn : n ≠ 0) (rp : ℝ) (hrp : 0 < rp) (w : ℝ) (hw : r.rnd w = w) (band : Band)
    (hb : band = .lowpass ∨ band = .highpass) (fs : Option ℝ) (e : ℝ) (he : Spec.edges [w] fs = [e]) (h0 : 0 < e)
    (h1 : e < 1) (S : Small r h ((rippleFloor rp * chebMargin n rp e / 20) ^ n))
    (hh : 8000 * (n ^ 2 * rippleCond rp ^ 2 * h) ≤ chebMargin n rp e ^ 2) (E : ℝ)
    (hE : E = 800 * (n ^ 2 * rippleCond rp ^ 2 * h / chebMargin n rp e ^ 2)) :
    ∃ l l0 : List (Sos ℝ),
      Rounded.cheby1 (.ofRounding r m) s n rp [w] (some band) (some false) (some .sos) fs = .ok (.sos l) ∧
      Design.cheby1 0 s n rp [w] (some band) (some false) (some .sos) fs = .ok (.sos l0) ∧
      ∀ x : List ℝ, energy (signalDiff (sosfiltDyn x l).1 (sosfiltDyn x l0).1) ≤ E ^ 2 * energy x ∧
        energy (sosfiltDyn x l).1 ≤ (1 + E) ^ 2 * energy x := by
  obtain ⟨l, f0, hl, hf0, hst, H⟩ := C98_sections_response hr hm hm2 0 hs n hn rp hrp [w] (by simpa using hw) band hb
    fs e he h0 h1 S hh
  obtain ⟨l0, hl0⟩ := cheb_exact_sections (n := n) hs hrp hb he h0 h1
  rw [← hE] at H
  have hh0 := S.h_nonneg
  have hE0 : 0 ≤ E := by rw [hE]; positivity
  have hv : ValidRequest [w] (some rp) none band .chebyshevI false fs :=
    valid_single hb he h0 h1 (by rintro x ⟨⟩; exact hrp.le) (by simp) (.inr (.inl ⟨rfl, rfl⟩))
  obtain ⟨a1, a2, a3, d, hd, a4⟩ := design_sections 0 s le_rfl hs n hn [w] (some rp) none (some band)
    (some .chebyshevI) (some false) (.inr rfl) fs hv ⟨by rintro - x ⟨⟩; exact hrp, by simp⟩ (by simp) l0 hl0
  have hdf : d = f0 := by
    have : iirfilter 0 s n [w] (some rp) none (some band) (some .chebyshevI) (some false) (some .zpk) fs =
      .ok (.zpk f0) := hf0
    rw [this] at hd
    simpa using hd.symm
  subst hdf
  obtain ⟨c1, c2⟩ := cheb_sections_rest hr hs hn hl
  have key : ∀ ω : ℝ, |ω| < Real.pi → ‖freqResponse l ω - freqResponse l0 ω‖ ≤ E := by
    intro ω hω
    have h5 := a3 ω hω
    rw [a4] at h5 ⊢
    exact (H ω).trans (mul_le_of_le_one_right hE0 h5)
  refine ⟨l, l0, hl, hl0, fun x => ⟨C92_distance l l0 (fun c hc => ⟨c1 c hc, hst c hc⟩) a1 c2 a2 _ key x,
    C92_energy l (fun c hc => ⟨c1 c hc, hst c hc⟩) c2 _ (fun ω hω => ?_) x⟩⟩
  have i1 := key ω hω
  have i2 := a3 ω hω
  have i3 := norm_sub_norm_le (freqResponse l ω) (freqResponse l0 ω)
  linarith

/-- The gain of a filter whose zeros are all at one end of the circle and whose poles are in it, from its response
at the other end. -/
theorem gain_le_response {f : Zpk} {n : ℕ} {τ : ℝ} (hτ : τ = 1 ∨ τ = -1) (hz : f.z = List.replicate n (τ : ℂ))
    (hp : f.p.length = n) (hin : ∀ p ∈ f.p, ‖p‖ < 1) : |f.k| ≤ ‖f.eval (-(τ : ℂ))‖ := by
  have gen : ∀ L : List ℂ, (∀ p ∈ L, ‖p‖ < 1) →
      0 < ‖(L.map fun p => -(τ : ℂ) - p).prod‖ ∧ ‖(L.map fun p => -(τ : ℂ) - p).prod‖ ≤ 2 ^ L.length := by
    intro L
    induction L with
    | nil => simp
    | cons a L ih =>
      intro H
      obtain ⟨i1, i2⟩ := ih fun p hp => H p (by simp [hp])
      have ha := H a (by simp)
      have hn : ‖-(τ : ℂ)‖ = 1 := by rcases hτ with rfl | rfl <;> simp
      have u1 := norm_sub_norm_le (-(τ : ℂ)) a
      have u2 := norm_sub_le (-(τ : ℂ)) a
      rw [List.map_cons, List.prod_cons, norm_mul, List.length_cons, pow_succ' (2 : ℝ)]
      exact ⟨mul_pos (by linarith) i1, mul_le_mul (by linarith) i2 i1.le (by norm_num)⟩
  obtain ⟨d1, d2⟩ := gen f.p hin
  rw [hp] at d2
  have hnum : ‖f.num (-(τ : ℂ))‖ = |f.k| * 2 ^ n := by
    rw [Zpk.num, hz, List.map_replicate, List.prod_replicate, norm_mul, norm_pow]
    congr 1
    · simp
    · congr 1
      rcases hτ with rfl | rfl
      · norm_num
      · norm_num
  rw [Zpk.eval, norm_div, hnum, Zpk.den, le_div_iff₀ d1]
  exact mul_le_mul_of_nonneg_left d2 (abs_nonneg _)

set_option maxHeartbeats 1600000 in
/-- **C132**, from end to end: design a Chebyshev I low-pass or high-pass filter of order `n` in floating point and
filter a signal with its sections in the same arithmetic.  Let `X` be the margin, `δ = 0.39 X` and `E` as above.  Every
sample of the output is within `E √(energy of the signal)` (from the design) and
`((1 + 15 u / δ²)^N - 1) k (4 / δ²)^N L` (from the filtering, `N` sections, computed gain `k`, signal of level `L`), plus
an underflow term, of the output of the exact filter in exact arithmetic.  The gain is at most 1.1. -/
theorem C132_filtering (hr : r.Nearest) (hm : m.Accurate r h) (hm2 : m.AccurateHyp r h) {s : Sorts} (hs : s.Correct)
    (n : ℕ) (hn : n ≠ 0) (rp : ℝ) (hrp : 0 < rp) (w : ℝ) (hw : r.rnd w = w) (band : Band)
    (hb : band = .lowpass ∨ band = .highpass) (fs : Option ℝ) (e : ℝ) (he : Spec.edges [w] fs = [e]) (h0 : 0 < e)
    (h1 : e < 1) (S : Small r h ((rippleFloor rp * chebMargin n rp e / 20) ^ n))
    (hh : 8000 * (n ^ 2 * rippleCond rp ^ 2 * h) ≤ chebMargin n rp e ^ 2) (E δ : ℝ)
    (hE : E = 800 * (n ^ 2 * rippleCond rp ^ 2 * h / chebMargin n rp e ^ 2)) (hδ : δ = 0.39 * chebMargin n rp e) :
    ∃ (l l0 : List (Sos ℝ)) (f : Zpk),
      Rounded.cheby1 (.ofRounding r m) s n rp [w] (some band) (some false) (some .sos) fs = .ok (.sos l) ∧
      Design.cheby1 0 s n rp [w] (some band) (some false) (some .sos) fs = .ok (.sos l0) ∧
      Rounded.cheby1 (.ofRounding r m) s n rp [w] (some band) (some false) (some .zpk) fs = .ok (.zpk f) ∧
      |f.k| ≤ 1.1 ∧
      ∀ (L : ℝ) (x : List ℝ), (∀ v ∈ x, |v| ≤ L) → ∀ i (_ : i < x.length),
        |((sosfiltDyn (x.map (Fl.mk (r := r))) (l.map (flSection r))).1.getD i 0).val
          - (sosfiltDyn x l0).1.getD i 0| ≤
          E * √(energy x) +
          ((1 + 15 * (r.u / δ ^ 2)) ^ ((n + 1) / 2) - 1) * (|f.k| * (4 / δ ^ 2) ^ ((n + 1) / 2) * L) +
          ((n + 1) / 2 : ℕ) * (10 * r.t / δ ^ 2) * (1 + 15 * (r.u / δ ^ 2)) ^ ((n + 1) / 2) *
            (1.1 * (4 / δ ^ 2) ^ ((n + 1) / 2)) := by
  obtain ⟨-, k1, -, -, -, -, g0, g1, -⟩ := ripple_facts hrp
  have hn1 : (1 : ℝ) ≤ n := by exact_mod_cast Nat.one_le_iff_ne_zero.mpr hn
  have hn0 : (0 : ℝ) < n := by linarith
  have hh0 := S.h_nonneg
  have hu0 := r.u_nonneg
  have ht0 := r.t_nonneg
  have h1e : 0 < 1 - e := by linarith
  have hW : ∀ v ∈ [w], r.rnd v = v := by simpa using hw
  obtain ⟨S3, -, s1⟩ := small_edge hn hrp h0 h1 rfl S
  obtain ⟨l, l0, hl, hl0, H⟩ := C132_energy hr hm hm2 hs n hn rp hrp w hw band hb fs e he h0 h1 S hh E hE
  obtain ⟨X, hX⟩ : ∃ X, X = chebMargin n rp e := ⟨_, rfl⟩
  obtain ⟨hX0, hX4, hXe, -⟩ := cheb_margin_sizes h0 h1 hn hrp hX
  obtain ⟨K, hK⟩ : ∃ K, K = n * rippleCond rp ^ 2 * h := ⟨_, rfl⟩
  have hnK : n ^ 2 * rippleCond rp ^ 2 * h = n * K := by rw [hK]; ring
  have hK0 : 0 ≤ K := by rw [hK]; positivity
  have hhK : h ≤ K := by
    rw [hK]
    exact le_mul_of_one_le_left hh0 (one_le_mul_of_one_le_of_one_le hn1 (one_le_pow₀ k1))
  have hKn : K ≤ n * K := le_mul_of_one_le_left hK0 hn1
  have hh' := hh
  rw [hnK, ← hX] at hh
  rw [hnK, ← hX] at hE
  rw [← hX] at hδ
  have hX2 : 0 < X ^ 2 := by positivity
  have hE0 : 0 ≤ E := by rw [hE]; positivity
  have hδ0 : 0 < δ := by rw [hδ]; positivity
  have hδ1 : δ ≤ 1 := by rw [hδ]; linarith
  have hδ2 : δ ^ 2 = 0.1521 * X ^ 2 := by rw [hδ]; ring
  have hν : n * (4 * K / (1 - e)) ≤ X / 2000 := by
    rw [← mul_div_assoc, div_le_iff₀ h1e]
    have : X * X ≤ X * (1 - e) := mul_le_mul_of_nonneg_left hXe hX0.le
    linarith
  obtain ⟨f, f0, hf, hf0, hz, hpn, hin, Hc⟩ := cheb_close hr hm hm2 0 s hn hrp hW hb he h0 h1 S hX rfl (by
    rw [← hK]; linarith)
  rw [← hK] at Hc
  obtain ⟨l', hl', hlen, -⟩ := cheb_sections hr hm hm2 hs n hn rp hrp [w] hW band hb fs e he h0 h1 S3 (by
    rw [← hK, ← hX]; linarith)
  have hll : l' = l := by rw [hl] at hl'; simpa using hl'.symm
  subst hll
  -- the gain
  have hv : ValidRequest [w] (some rp) none band .chebyshevI false fs :=
    valid_single hb he h0 h1 (by rintro x ⟨⟩; exact hrp.le) (by simp) (.inr (.inl ⟨rfl, rfl⟩))
  obtain ⟨a1, a2, a3, d, hd, a4⟩ := design_sections 0 s le_rfl hs n hn [w] (some rp) none (some band)
    (some .chebyshevI) (some false) (.inr rfl) fs hv ⟨by rintro - x ⟨⟩; exact hrp, by simp⟩ (by simp) l0 hl0
  have hdf : d = f0 := by
    have : iirfilter 0 s n [w] (some rp) none (some band) (some .chebyshevI) (some false) (some .zpk) fs =
      .ok (.zpk f0) := hf0
    rw [this] at hd
    simpa using hd.symm
  subst hdf
  have hone : ∀ ω : ℝ, ‖d.eval (Complex.exp (Complex.I * ω))‖ ≤ 1 := by
    intro ω
    rw [← a4]
    exact bound_everywhere (continuous_freqResponse l0 a1) _ a4 a3 ω
  obtain ⟨τ, hτ⟩ : ∃ τ : ℝ, τ = if band = .lowpass then -1 else 1 := ⟨_, rfl⟩
  rw [← hτ] at hz
  have hτ1 : τ = 1 ∨ τ = -1 := by rw [hτ]; split <;> simp
  have hend : ∃ ω : ℝ, -(τ : ℂ) = Complex.exp (Complex.I * ω) := by
    rcases hτ1 with rfl | rfl
    · exact ⟨Real.pi, by rw [mul_comm, Complex.exp_pi_mul_I]; simp⟩
    · exact ⟨0, by simp⟩
  have hk : |f.k| ≤ 1.1 := by
    refine (gain_le_response hτ1 hz hpn fun p hp => ?_).trans ?_
    · have := hin p hp
      linarith
    · obtain ⟨ω, hω⟩ := hend
      have hx1 : ‖Complex.exp (Complex.I * ω)‖ = 1 := by rw [mul_comm]; exact Complex.norm_exp_ofReal_mul_I ω
      have b1 := Hc _ hx1
      have b2 := hone ω
      rw [hω]
      have b3 : 185 * (n * (4 * K / (1 - e)) / X) ≤ 0.1 := by
        rw [mul_div_assoc', div_le_iff₀ hX0]
        linarith
      have b4 := mul_le_mul b3 b2 (norm_nonneg _) (by norm_num)
      have b5 := norm_sub_norm_le (f.eval (Complex.exp (Complex.I * ω))) (d.eval (Complex.exp (Complex.I * ω)))
      linarith
  obtain ⟨b1, -, b3, s0, rest, b4, b5, b6⟩ := sections_bounds S (by linarith) hr hs hn (ftype := .chebyshevI)
    (by simp [KeepsPairs]) hl hf (fun z hzm => by
      rw [hz] at hzm
      rw [(List.mem_replicate.mp hzm).2]
      rcases hτ1 with rfl | rfl <;> simp) (by rw [hpn]; exact Nat.pos_of_ne_zero hn) (δ := 0.44 * X) (by positivity)
    hin (by
      have : (0.44 * X) ^ 2 = 0.1936 * X ^ 2 := by ring
      rw [this]
      linarith)
  refine ⟨l', l0, f, hl, hl0, hf, hk, fun L x hx i hi => ?_⟩
  have hL : 0 ≤ L := (abs_nonneg _).trans (hx x[i] (List.getElem_mem hi))
  have A := (C124_error l' b1 δ hδ0 (fun c hc z hzr => by
      have := b3 c hc z hzr
      rw [hδ]
      linarith) r (by rw [hδ2]; have := S.u_le; linarith) L x hx).2 i hi
  have B := sample_le_energy (by rw [(C24_length x l').1, (C24_length x l0).1]) (H x).1 i
  rw [Real.sqrt_mul (sq_nonneg _), Real.sqrt_sq hE0] at B
  have C := abs_add_le (((sosfiltDyn (x.map (Fl.mk (r := r))) (l'.map (flSection r))).1.getD i 0).val -
    (sosfiltDyn x l').1.getD i 0) ((sosfiltDyn x l').1.getD i 0 - (sosfiltDyn x l0).1.getD i 0)
  rw [sub_add_sub_cancel] at C
  obtain ⟨q1, q2⟩ := sizes_prod (δ := δ) hδ0 hδ1 (by norm_num) b5 b6
  rw [← b4] at q1 q2
  have hr1 : rest.length + 1 = (n + 1) / 2 := by rw [← hlen, b4]; simp
  rw [hr1] at q1 q2
  rw [hlen] at A
  obtain ⟨c, hc⟩ : ∃ c, c = 15 * (r.u / δ ^ 2) := ⟨_, rfl⟩
  have hc0 : 0 ≤ c := by rw [hc]; positivity
  rw [← hc] at A ⊢
  have hcp : 0 ≤ (1 + c) ^ ((n + 1) / 2) - 1 := sub_nonneg.mpr (one_le_pow₀ (by linarith))
  have D1 : ((1 + c) ^ ((n + 1) / 2) - 1) * ((l'.map fun s => numSize s / δ ^ 2).prod * L) ≤
      ((1 + c) ^ ((n + 1) / 2) - 1) * (|f.k| * (4 / δ ^ 2) ^ ((n + 1) / 2) * L) :=
    mul_le_mul_of_nonneg_left (mul_le_mul_of_nonneg_right q1 hL) hcp
  have D2 : (((n + 1) / 2 : ℕ) : ℝ) * (10 * r.t / δ ^ 2) * (1 + c) ^ ((n + 1) / 2) *
        (l'.map fun s => max 1 (numSize s / δ ^ 2)).prod ≤
      (((n + 1) / 2 : ℕ) : ℝ) * (10 * r.t / δ ^ 2) * (1 + c) ^ ((n + 1) / 2) *
        (1.1 * (4 / δ ^ 2) ^ ((n + 1) / 2)) := by
    refine mul_le_mul_of_nonneg_left (q2.trans (mul_le_mul_of_nonneg_right ?_ (by positivity))) (by positivity)
    exact max_le (by norm_num) hk
  linarith

set_option maxHeartbeats 800000 in
/-- **C132**, an instance: the second-order filter with a ripple of 1 dB and its edge at 250 Hz for signals sampled at
1000 Hz, designed in binary64 and run in binary64 on a signal of level `L`.  Every output sample is within
`1e-5 √(energy of the signal) + 1e-3 L + 1e-60` of that of the exact filter. -/
theorem C132_example {s : Sorts} (hs : s.Correct) (band : Band) (hb : band = .lowpass ∨ band = .highpass) :
    ∃ l l0 : List (Sos ℝ),
    Rounded.cheby1 (.ofRounding binary64 libm64) s 2 1 [250] (some band) (some false) (some .sos) (some 1000)
      = .ok (.sos l) ∧
    Design.cheby1 0 s 2 1 [250] (some band) (some false) (some .sos) (some 1000) = .ok (.sos l0) ∧
      ∀ (L : ℝ) (x : List ℝ), (∀ v ∈ x, |v| ≤ L) → ∀ i (_ : i < x.length),
        |((sosfiltDyn (x.map (Fl.mk (r := binary64))) (l.map (flSection binary64))).1.getD i 0).val
          - (sosfiltDyn x l0).1.getD i 0| ≤ 1 / 10 ^ 5 * √(energy x) + L / 10 ^ 3 + 1 / 10 ^ 60 := by
  obtain ⟨h1, h2⟩ := one_decibel
  obtain ⟨-, k1, -⟩ := ripple_facts one_pos
  obtain ⟨X, hX⟩ : ∃ X, X = chebMargin 2 1 (1 / 2) := ⟨_, rfl⟩
  have h3 : 0.0055 ≤ X := by
    rw [hX, chebMargin, le_div_iff₀ (by push_cast; linarith)]
    push_cast
    linarith
  have h4 := pow_le_pow_left₀ (by norm_num) h3 2
  have h5 := pow_le_pow_left₀ (by linarith) h1 2
  have hσ : (2 : ℝ) ^ (-1000 : ℤ) ≤ (rippleFloor 1 * chebMargin 2 1 (1 / 2) / 20) ^ 2 := by
    have g1 : (2 : ℝ) ^ (-1000 : ℤ) ≤ 2 ^ (-100 : ℤ) := zpow_le_zpow_right₀ (by norm_num) (by norm_num)
    have g2 : (0.88 * 0.0055 / 20 : ℝ) ≤ rippleFloor 1 * chebMargin 2 1 (1 / 2) / 20 := by
      rw [← hX]
      exact div_le_div_of_nonneg_right (mul_le_mul h2 h3 (by norm_num) (by linarith)) (by norm_num)
    refine g1.trans (le_trans ?_ (pow_le_pow_left₀ (by norm_num) g2 2))
    rw [zpow_neg]
    norm_num
  have hw : binary64.rnd 250 = 250 := by
    have := Binary.rnd_int 53 (-1074) (by norm_num) 250 (by norm_num)
    exact_mod_cast this
  obtain ⟨E, hE⟩ : ∃ E, E = 800 * (((2 : ℕ) : ℝ) ^ 2 * rippleCond 1 ^ 2 * (1 / 2 ^ 50) / chebMargin 2 1 (1 / 2) ^ 2) :=
    ⟨_, rfl⟩
  obtain ⟨δ, hδ⟩ : ∃ δ, δ = 0.39 * chebMargin 2 1 (1 / 2) := ⟨_, rfl⟩
  obtain ⟨l, l0, f, hl, hl0, -, hk, H⟩ := C132_filtering binary64_nearest libm64_accurate libm64_accurateHyp hs 2
    (by norm_num) 1 one_pos 250 hw band hb (some 1000) (1 / 2) (by simp [Spec.edges]; norm_num) (by norm_num)
    (by norm_num) (binary64_small_pow hσ) (by
      rw [← hX]
      push_cast
      norm_num at h4 h5 ⊢
      linarith) E δ hE hδ
  refine ⟨l, l0, hl, hl0, fun L x hx i hi => (H L x hx i hi).trans ?_⟩
  have hL : 0 ≤ L := (abs_nonneg _).trans (hx x[i] (List.getElem_mem hi))
  rw [← hX] at hE hδ
  have hE1 : E ≤ 1 / 10 ^ 5 := by
    rw [hE, ← mul_div_assoc, div_le_iff₀ (by linarith)]
    push_cast
    norm_num at h4 h5 ⊢
    linarith
  have hδ2 : 0.0000046 ≤ δ ^ 2 := by
    have : δ ^ 2 = 0.1521 * X ^ 2 := by rw [hδ]; ring
    rw [this]
    norm_num at h4 ⊢
    linarith
  have hδp : 0 < δ ^ 2 := by linarith
  have q : ∀ c : ℝ, 0 ≤ c → c / δ ^ 2 ≤ 217500 * c := by
    intro c hc
    rw [div_le_iff₀ hδp]
    have := mul_le_mul_of_nonneg_left hδ2 hc
    linarith
  have h1' : binary64.u = 2 ^ (-53 : ℤ) := rfl
  have h2' : binary64.t = 2 ^ (-1075 : ℤ) := rfl
  have h3' : binary64.t ≤ 1 / 10 ^ 74 := by
    have h5 : (2 : ℝ) ^ (-1075 : ℤ) ≤ 2 ^ (-250 : ℤ) := zpow_le_zpow_right₀ (by norm_num) (by norm_num)
    rw [h2']
    refine h5.trans ?_
    rw [zpow_neg]
    norm_num
  have hu0 := binary64.u_nonneg
  have ht0 := binary64.t_nonneg
  have q1 := q _ hu0
  have q2 : 4 / δ ^ 2 ≤ 870000 := by have := q 4 (by norm_num); linarith
  have q3 : 10 * binary64.t / δ ^ 2 ≤ 1 / 10 ^ 67 := by
    have := q (10 * binary64.t) (by positivity)
    norm_num at this h3' ⊢
    linarith
  have q4 : 15 * (binary64.u / δ ^ 2) ≤ 4 / 10 ^ 10 := by
    rw [h1'] at q1 ⊢
    norm_num at q1 ⊢
    linarith
  rw [show (2 + 1) / 2 = 1 from rfl, pow_one, pow_one]
  obtain ⟨c, hc⟩ : ∃ c, c = 15 * (binary64.u / δ ^ 2) := ⟨_, rfl⟩
  have hc0 : 0 ≤ c := by rw [hc]; positivity
  rw [← hc] at q4 ⊢
  have e1 : 1 + c - 1 = c := by ring
  rw [e1]
  have p3 : |f.k| * (4 / δ ^ 2) * L ≤ 957000 * L := by
    refine mul_le_mul_of_nonneg_right ?_ hL
    have := mul_le_mul hk q2 (by positivity) (by norm_num)
    norm_num at this ⊢
    linarith
  have t2 := mul_le_mul q4 p3 (by positivity) (by norm_num)
  have t3 : ((1 : ℕ) : ℝ) * (10 * binary64.t / δ ^ 2) * (1 + c) * (1.1 * (4 / δ ^ 2)) ≤ 1 / 10 ^ 60 := by
    have a1 : ((1 : ℕ) : ℝ) * (10 * binary64.t / δ ^ 2) ≤ 1 / 10 ^ 67 := by push_cast; linarith
    have a2 : 1 + c ≤ 1.1 := by norm_num at q4 ⊢; linarith
    have a3 : 1.1 * (4 / δ ^ 2) ≤ 957000 := by linarith
    have := mul_le_mul (mul_le_mul a1 a2 (by positivity) (by positivity)) a3 (by positivity) (by positivity)
    refine this.trans ?_
    norm_num
  have t1 := mul_le_mul_of_nonneg_right hE1 (Real.sqrt_nonneg (energy x))
  have t2' : 4 / 10 ^ 10 * (957000 * L) ≤ L / 10 ^ 3 := by
    norm_num
    linarith
  linarith

end SciRs.Props

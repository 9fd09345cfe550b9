import Verif.Lemmas.Rounded.Cheb2Gain
import Verif.Props.Rounded.StopAccuracy
import Verif.Props.Rounded.ButterResponse
import Verif.Props.Design.Formats

/-!
# C130: the frequency response of Chebyshev II low-pass filters designed in floating point

How far the gain and the frequency response of the computed filter are from those of the filter designed without
rounding, and so from the Chebyshev II response.  The bound is relative, so it says something at the frequencies that
keep a distance from the zeros of the filter.
-/

namespace SciRs.Props

open SciRs SciRs.Design SciRs.Spec SciRs.Rounded

variable {r : Rounding} {m : Libm} {h : ℝ}

/-- The response of a filter of gain, poles and zeros known up to errors. -/
theorem eval_err_zeros {α β : Type} {f f0 : Zpk} {p p' : α → ℂ} {l : List α} (hp : f.p = l.map p')
    (hp0 : f0.p = l.map p) {z z' : β → ℂ} {t : List β} {q : ℕ} {v : ℂ} (hz : f.z = t.map z' ++ List.replicate q v)
    (hz0 : f0.z = t.map z ++ List.replicate q v) {x : ℂ} {a b c : ℝ} (ha : 0 ≤ a) (hb : 0 ≤ b) (hc : 0 ≤ c)
    (hk : |f.k - f0.k| ≤ a * |f0.k|) (ez : ∀ j ∈ t, ‖z' j - z j‖ ≤ b * ‖x - z j‖)
    {d : ℝ} (hd : 0 < d) (h1 : ∀ j ∈ l, d ≤ ‖x - p' j‖) (h0 : ∀ j ∈ l, x ≠ p j)
    (he : ∀ j ∈ l, ‖p' j - p j‖ ≤ c * d) {B C : ℝ} (hB : (1 + b) ^ t.length - 1 ≤ B)
    (hC : (1 + c) ^ l.length - 1 ≤ C) :
    ‖f.eval x - f0.eval x‖ ≤ (a + B + a * B + C + (a + B + a * B) * C) * ‖f0.eval x‖ := by
  have hB0 : 0 ≤ (1 + b) ^ t.length - 1 := sub_nonneg.mpr (one_le_pow₀ (by linarith))
  have form : ∀ (g : Zpk) (u : α → ℂ) (y : β → ℂ), g.p = l.map u → g.z = t.map y ++ List.replicate q v →
      g.eval x = ((g.k * (x - v) ^ q : ℂ) * (t.map (fun j => x - y j)).prod) *
        (l.map (fun j => 1 / (x - u j))).prod := by
    intro g u y hu hy
    rw [Zpk.eval, Zpk.num, Zpk.den, hu, hy, List.map_map, List.map_append, List.prod_append, List.map_map,
      List.map_replicate, List.prod_replicate, div_eq_mul_inv]
    have : ((l.map ((fun z => x - z) ∘ u)).prod)⁻¹ = (l.map (fun j => 1 / (x - u j))).prod := by
      generalize l = l
      induction l with
      | nil => simp
      | cons b l ih => rw [List.map_cons, List.map_cons, List.prod_cons, List.prod_cons, mul_inv, ih, one_div]; rfl
    rw [this]
    simp only [Function.comp_def]
    ring
  rw [form f p' z' hp hz, form f0 p z hp0 hz0]
  refine mul_rel (mul_rel ?_ ha ?_) (by have : 0 ≤ B := hB0.trans hB; positivity) ?_
  · rw [← sub_mul, norm_mul, norm_mul, ← mul_assoc]
    refine mul_le_mul_of_nonneg_right ?_ (norm_nonneg _)
    rw [← Complex.ofReal_sub, Complex.norm_real, Complex.norm_real]
    exact hk
  · refine (prod_rel hb (fun j => x - z j) (fun j => x - z' j) t (fun j hj => ?_)).trans
      (mul_le_mul_of_nonneg_right hB (norm_nonneg _))
    have : x - z' j - (x - z j) = -(z' j - z j) := by ring
    rw [this, norm_neg]
    exact ez j hj
  · refine (prod_rel hc _ _ l (fun j hj => inv_rel hd (sub_ne_zero.mpr (h0 j hj)) (h1 j hj) ?_)).trans
      (mul_le_mul_of_nonneg_right hC (norm_nonneg _))
    have : x - p' j - (x - p j) = -(p' j - p j) := by ring
    rw [this, norm_neg]
    exact he j hj

/-- The error of the poles and zeros (C129) and how it compares with the margin. -/
theorem stop_rho {n : ℕ} (hn : n ≠ 0) {rs e : ℝ} (hrs : 0 < rs) (h0 : 0 < e) (h1 : e < 1) (hh0 : 0 ≤ h)
    (hh : 12288 * (n * (stopCond n rs * h)) ≤ stopMargin n rs e ^ 2) {X : ℝ} (hX : X = stopMargin n rs e) {ρ : ℝ}
    (hρ : ρ = 660 * (n * (stopCond n rs * h)) / (1 - e)) :
    0 ≤ ρ ∧ n * ρ ≤ 0.027 * X := by
  obtain ⟨f1, f2, -, -, -, -, -, -, -, -, -, k, -⟩ := stop_facts hn hrs h0 h1 hh0 hh rfl hX
  have hn0 : (0 : ℝ) < n := by exact_mod_cast Nat.pos_of_ne_zero hn
  have h1e : 0 < 1 - e := by linarith
  have hκ : 0 ≤ stopCond n rs := by rw [stopCond]; positivity
  refine ⟨by rw [hρ]; positivity, ?_⟩
  have nX : n * X ≤ (1 - e) / 2 := by
    have c1 := Real.cosh_sq (stopMu n rs)
    have c2 := sq_nonneg (Real.sinh (stopMu n rs) - 1)
    have c3 : 0 < Real.sinh (stopMu n rs) := Real.sinh_pos_iff.mpr f1
    rw [hX, stopMargin, mul_div_assoc', div_le_iff₀ (by positivity)]
    have i1 : Real.sinh (stopMu n rs) ≤ Real.cosh (stopMu n rs) ^ 2 / 2 := by linarith
    have i2 : e * Real.sinh (stopMu n rs) ≤ Real.cosh (stopMu n rs) ^ 2 / 2 := by nlinarith
    have i3 := mul_le_mul_of_nonneg_left i2 (show 0 ≤ n * (1 - e) by positivity)
    linarith
  rw [← hX] at hh
  have i4 := mul_le_mul_of_nonneg_right nX f2.le
  rw [hρ, mul_div_assoc', div_le_iff₀ h1e]
  have i5 := mul_le_mul_of_nonneg_left hh hn0.le
  have i6 : n * X ^ 2 = n * X * X := by ring
  rw [i6] at i5
  have : 0 < X * (1 - e) := by positivity
  linarith

/-- The exact zeros other than `-1` are at least `X` away from `1`. -/
theorem stop_zero_dc {n : ℕ} (hn : n ≠ 0) {rs : ℝ} (hμ : 0 < stopMu n rs) {e : ℝ} (h0 : 0 < e) (h1 : e < 1)
    {j : ℤ} (hj : j ∈ stepRange (-(n : ℤ) + 1) n) (hj0 : j ≠ 0) {X : ℝ} (hX : X = stopMargin n rs e) :
    X / 2 ≤ ‖1 - (4 + exSZero n e j) / (4 - exSZero n e j)‖ := by
  obtain ⟨-, h2⟩ := stop_zero_margin hn hμ h0 h1 hj hj0 hX
  refine h2.trans ?_
  have := Complex.abs_im_le_norm (1 - (4 + exSZero n e j) / (4 - exSZero n e j))
  rwa [Complex.sub_im, Complex.one_im, zero_sub, abs_neg] at this

/-- The exact zeros that are transformed are not `-1`. -/
theorem stop_zero_ne (n : ℕ) (e : ℝ) (j : ℤ) : (4 + exSZero n e j) / (4 - exSZero n e j) ≠ -1 := by
  have hre := (exSZero_parts n e j).1
  have hne : (4 - exSZero n e j) ≠ 0 := by
    intro h
    have := congrArg Complex.re h
    simp [hre] at this
  rw [Ne, div_eq_iff hne]
  intro h
  have := congrArg Complex.re h
  simp [hre] at this
  norm_num at this

set_option maxHeartbeats 800000 in
/-- Both designs, the gain and the response. -/
theorem cheb2_close (hr : r.Nearest) (hm : m.Accurate r h) (hm2 : m.AccurateHyp r h) (eps : ℝ) (s : Sorts) {n : ℕ}
    (hn : n ≠ 0) {rp rs : ℝ} (hrp : 0 ≤ rp) (hrs : 0 < rs) {wn : List ℝ} (hW : ∀ w ∈ wn, r.rnd w = w)
    {fs : Option ℝ} {e : ℝ} (he : Spec.edges wn fs = [e]) (h0 : 0 < e) (h1 : e < 1) (S : Small r h h)
    (S2 : Small r h ((stopMargin n rs e / 20) ^ n))
    (hfl : h ≤ rippleFloor rs) (hh : 12288 * (n * (stopCond n rs * h)) ≤ stopMargin n rs e ^ 2)
    {X : ℝ} (hX : X = stopMargin n rs e) {ρ : ℝ} (hρ : ρ = 660 * (n * (stopCond n rs * h)) / (1 - e)) :
    ∃ f f0 : Zpk,
      Rounded.iirfilter (.ofRounding r m) s n wn (some rp) (some rs) (some .lowpass) (some .chebyshevII) (some false)
        (some .zpk) fs = .ok (.zpk f) ∧
      Design.iirfilter eps s n wn (some rp) (some rs) (some .lowpass) (some .chebyshevII) (some false)
        (some .zpk) fs = .ok (.zpk f0) ∧
      f0.k ≠ 0 ∧ |f.k - f0.k| ≤ 4 * (n * ρ) * |f0.k| ∧
      (∀ z ∈ f0.z, z ≠ -1 → X / 2 ≤ ‖1 - z‖) ∧
      ∀ x : ℂ, ‖x‖ = 1 → ∀ d : ℝ, 20 * (n * ρ) ≤ d → 0 < d → (∀ z ∈ f0.z, z ≠ -1 → d ≤ ‖x - z‖) →
        ‖f.eval x - f0.eval x‖ ≤ 4 * (n * ρ) * (1 / X + 1 / d) * ‖f0.eval x‖ := by
  have hh0 := S.h_nonneg
  have hn1 : (1 : ℝ) ≤ n := by exact_mod_cast Nat.one_le_iff_ne_zero.mpr hn
  have hn0 : (0 : ℝ) < n := by linarith
  obtain ⟨hX0, hX8, he1, he2, hh2, -, -, hErr⟩ := stop_cond hn hrs h0 h1 hh0 hh hX
  obtain ⟨hρ0, hnρ⟩ := stop_rho hn hrs h0 h1 hh0 hh hX hρ
  have hμ := (stop_facts hn hrs h0 h1 hh0 hh rfl rfl).1
  obtain ⟨e', he', hee⟩ := edge_err (m := m) (S.weaken he1) hr hW he
  obtain ⟨a1, a2⟩ := abs_le.mp hee
  have b1 : h * e ≤ (1 - e) / 1024 * e := mul_le_mul_of_nonneg_right he2 h0.le
  obtain ⟨f, hf⟩ := (Rounded.design_returns_iff (order := n)).mpr
    (stop_valid hrp hrs.le he' (by nlinarith) (by nlinarith))
  have he0 : Rounded.edges (.exact eps) wn fs = [e] := by rw [← he]; cases fs <;> rfl
  obtain ⟨f0, hf0⟩ := (Rounded.design_returns_iff (order := n)).mpr (stop_valid hrp hrs.le he0 h0 h1)
  obtain ⟨hp, hz⟩ := stop_fl hn he' hf
  obtain ⟨hp0, hz0⟩ := stop_ex hn he hf0
  have hk := stop_gain2_fl hn he' hf
  have hk0 := stop_gain2_ex hn he hf0
  obtain ⟨hhH, hnH, -, ew, key⟩ := stop_analog_err (m := m) hn hrs S hr h0 h1 hee hfl hh hm hm2 rfl
  obtain ⟨g1, g2⟩ := stop_gain2_err hn hμ h0 h1 S2 hr hm hhH hnH ew key
  rw [← hk, ← hk0] at g2
  rw [← hk0] at g1
  have eρ : 12 * (n * (stopCond n rs * h)) / (1 - e) = ρ / 55 := by rw [hρ]; ring
  rw [eρ] at g2
  have hnρ0 : 0 ≤ n * ρ := by positivity
  have gk : |f.k - f0.k| ≤ 4 * (n * ρ) * |f0.k| :=
    g2.trans (mul_le_mul_of_nonneg_right (by linarith) (abs_nonneg _))
  have root := fun j hj => stop_root_err (j := j) hn hrs S hr h0 h1 hee hfl hh hm hm2 hj
  rw [← hρ] at root hErr
  have pin0 : ∀ j ∈ stepRange (-(n : ℤ) + 1) n, ‖(4 + exSPole n rs e j) / (4 - exSPole n rs e j)‖ ≤ 1 - X / 2 :=
    fun j hj => (stop_margin hn hμ h0 h1 hj hX).2.1
  refine ⟨f, f0, ?_, ?_, g1, gk, ?_, ?_⟩
  · rw [Rounded.iirfilter_eq]
    change (Rounded.design (.ofRounding r m) n wn (some rp) (some rs) .lowpass .chebyshevII false fs >>= _) = _
    rw [hf]
    rfl
  · rw [← C86_exact, Rounded.iirfilter_eq]
    change (Rounded.design (.exact eps) n wn (some rp) (some rs) .lowpass .chebyshevII false fs >>= _) = _
    rw [hf0]
    rfl
  · intro z hzm hz1
    rw [hz0] at hzm
    rcases List.mem_append.mp hzm with hzm | hzm
    · obtain ⟨j, hj, rfl⟩ := List.mem_map.mp hzm
      obtain ⟨ja, jb⟩ := mem_of_cheb2Ms hj
      exact stop_zero_dc hn hμ h0 h1 ja jb hX
    · exact absurd (List.mem_replicate.mp hzm).2 hz1
  · intro x hx d hd hd0 hdz
    obtain ⟨t, ht⟩ : ∃ t, t = n * ρ / X := ⟨_, rfl⟩
    obtain ⟨u, hu⟩ : ∃ u, u = n * ρ / d := ⟨_, rfl⟩
    have ht0 : 0 ≤ t := by rw [ht]; positivity
    have hu0 : 0 ≤ u := by rw [hu]; positivity
    have htX : n * ρ = t * X := by rw [ht]; field_simp
    have ht1 : t ≤ 0.027 := by rw [ht, div_le_iff₀ hX0]; exact hnρ
    have hu1 : u ≤ 0.05 := by rw [hu, div_le_iff₀ hd0]; linarith
    have gk' : |f.k - f0.k| ≤ 0.5 * t * |f0.k| :=
      gk.trans (mul_le_mul_of_nonneg_right (by rw [htX]; nlinarith) (abs_nonneg _))
    have hlen : ((cheb2Ms n).length : ℝ) ≤ n := by exact_mod_cast (cheb2Ms_deg n).1
    have B1 : (1 + ρ / d) ^ (cheb2Ms n).length - 1 ≤ 1.1 * u := by
      have i1 : ((cheb2Ms n).length : ℝ) * (ρ / d) ≤ u := by
        rw [hu, ← mul_div_assoc]
        exact div_le_div_of_nonneg_right (mul_le_mul_of_nonneg_right hlen hρ0) hd0.le
      have := one_add_pow_le (κ := ρ / d) (by positivity) (n := (cheb2Ms n).length) (by linarith)
      linarith
    have C1 : (1 + ρ / (0.44 * X)) ^ (stepRange (-(n : ℤ) + 1) n).length - 1 ≤ 2.6 * t := by
      have i1 : (n : ℝ) * (ρ / (0.44 * X)) = t / 0.44 := by rw [ht]; field_simp
      have i2 : t / 0.44 ≤ 2.2728 * t := by rw [div_le_iff₀ (by norm_num)]; linarith
      have := one_add_pow_le (κ := ρ / (0.44 * X)) (by positivity) (n := n) (by linarith)
      rw [stepRange_sym_length]
      linarith
    have main := eval_err_zeros hp hp0 hz hz0 (x := x) (a := 0.5 * t) (b := ρ / d) (c := ρ / (0.44 * X)) (by positivity)
      (by positivity) (by positivity) gk' (fun j hj => by
        obtain ⟨ja, jb⟩ := mem_of_cheb2Ms hj
        refine ((root j ja).2 jb).trans ?_
        have := hdz _ (by rw [hz0]; exact List.mem_append_left _ (List.mem_map.mpr ⟨j, hj, rfl⟩)) (stop_zero_ne n e j)
        rw [div_mul_eq_mul_div, le_div_iff₀ hd0]
        exact mul_le_mul_of_nonneg_left this hρ0)
      (d := 0.44 * X) (by positivity) (fun j hj => by
        have q1 := (root j hj).1
        have q2 := pin0 j hj
        have q3 := norm_add_le (flBilinear r (flSPole r m n rs e' j) -
          (4 + exSPole n rs e j) / (4 - exSPole n rs e j)) ((4 + exSPole n rs e j) / (4 - exSPole n rs e j))
        rw [sub_add_cancel] at q3
        have q4 := norm_sub_norm_le x (flBilinear r (flSPole r m n rs e' j))
        rw [hx] at q4
        linarith)
      (fun j hj heq => by
        have q2 := pin0 j hj
        rw [← heq, hx] at q2
        linarith)
      (fun j hj => by
        rw [div_mul_cancel₀ _ (by positivity)]
        exact (root j hj).1) B1 C1
    refine main.trans (mul_le_mul_of_nonneg_right ?_ (norm_nonneg _))
    have e1 : 4 * (n * ρ) * (1 / X + 1 / d) = 4 * t + 4 * u := by rw [ht, hu]; ring
    rw [e1]
    have p1 : t * u ≤ 0.027 * u := mul_le_mul_of_nonneg_right ht1 hu0
    have p2 : t * t ≤ 0.027 * t := mul_le_mul_of_nonneg_right ht1 ht0
    have p3 : t * (t * u) ≤ 0.027 * (t * u) := mul_le_mul_of_nonneg_right ht1 (by positivity)
    nlinarith

/-- **C130**, gain and response: under the hypotheses of C129, and if the gain does not underflow, the computed gain
has a relative error of at most `4 n ρ`, where `ρ` is the bound of C129 for the errors of the poles and zeros; and the
computed response, at any point of the unit circle at a distance of at least `d ≥ 20 n ρ` from the zeros of the exact
filter, has a relative error of at most `4 n ρ (1/X + 1/d)`, where `X` is the margin. -/
theorem C130_response (hr : r.Nearest) (hm : m.Accurate r h) (hm2 : m.AccurateHyp r h) (eps : ℝ) (s : Sorts) (n : ℕ)
    (hn : n ≠ 0) (rp rs : ℝ) (hrp : 0 ≤ rp) (hrs : 0 < rs) (wn : List ℝ) (hW : ∀ w ∈ wn, r.rnd w = w)
    (fs : Option ℝ) (e : ℝ) (he : Spec.edges wn fs = [e]) (h0 : 0 < e) (h1 : e < 1) (S : Small r h h)
    (S2 : Small r h ((stopMargin n rs e / 20) ^ n))
    (hfl : h ≤ rippleFloor rs) (hh : 12288 * (n * (stopCond n rs * h)) ≤ stopMargin n rs e ^ 2)
    (ρ : ℝ) (hρ : ρ = 660 * (n * (stopCond n rs * h)) / (1 - e)) :
    ∃ f f0 : Zpk,
      Rounded.iirfilter (.ofRounding r m) s n wn (some rp) (some rs) (some .lowpass) (some .chebyshevII) (some false)
        (some .zpk) fs = .ok (.zpk f) ∧
      Design.iirfilter eps s n wn (some rp) (some rs) (some .lowpass) (some .chebyshevII) (some false)
        (some .zpk) fs = .ok (.zpk f0) ∧
      f0.k ≠ 0 ∧ |f.k - f0.k| ≤ 4 * (n * ρ) * |f0.k| ∧
      ∀ x : ℂ, ‖x‖ = 1 → ∀ d : ℝ, 0 < d → 20 * (n * ρ) ≤ d → (∀ z ∈ f0.z, z ≠ -1 → d ≤ ‖x - z‖) →
        ‖f.eval x - f0.eval x‖ ≤ 4 * (n * ρ) * (1 / stopMargin n rs e + 1 / d) * ‖f0.eval x‖ := by
  obtain ⟨f, f0, q1, q2, q3, q4, -, q6⟩ := cheb2_close hr hm hm2 eps s hn hrp hrs hW he h0 h1 S S2 hfl hh rfl hρ
  exact ⟨f, f0, q1, q2, q3, q4, fun x hx d hd0 hd hz => q6 x hx d hd hd0 hz⟩

/-- **C130**, against the Chebyshev II response: the computed filter has an amplitude of `1` at frequency zero and of
`|T_n(1/v)| / √(T_n(1/v)² + ε²)` at `v = tan(ω/2) / tan(πe/2)`, and attenuates the stop band by `rs` decibels, all up to
the relative error of `C130_response`.  The frequencies other than zero have to keep the distance `d` from the zeros. -/
theorem C130_lowpass (hr : r.Nearest) (hm : m.Accurate r h) (hm2 : m.AccurateHyp r h) (s : Sorts) (n : ℕ)
    (hn : n ≠ 0) (rp rs : ℝ) (hrp : 0 ≤ rp) (hrs : 0 < rs) (w : ℝ) (hw : r.rnd w = w)
    (fs : Option ℝ) (e : ℝ) (he : Spec.edges [w] fs = [e]) (h0 : 0 < e) (h1 : e < 1) (S : Small r h h)
    (S2 : Small r h ((stopMargin n rs e / 20) ^ n))
    (hfl : h ≤ rippleFloor rs) (hh : 12288 * (n * (stopCond n rs * h)) ≤ stopMargin n rs e ^ 2)
    (ρ : ℝ) (hρ : ρ = 660 * (n * (stopCond n rs * h)) / (1 - e)) (d : ℝ) (hd0 : 0 < d) (hd : 20 * (n * ρ) ≤ d)
    (E : ℝ) (hE : E = 4 * (n * ρ) * (1 / stopMargin n rs e + 1 / d)) :
    ∃ f f0 : Zpk,
      Rounded.iirfilter (.ofRounding r m) s n [w] (some rp) (some rs) (some .lowpass) (some .chebyshevII) (some false)
        (some .zpk) fs = .ok (.zpk f) ∧
      Design.iirfilter 0 s n [w] (some rp) (some rs) (some .lowpass) (some .chebyshevII) (some false)
        (some .zpk) fs = .ok (.zpk f0) ∧
      (40 * (n * ρ) ≤ stopMargin n rs e → ‖f.eval 1 - 1‖ ≤ 12 * (n * ρ) / stopMargin n rs e) ∧
      ∀ ω : ℝ, 0 < |ω| → |ω| < Real.pi →
        (∀ z ∈ f0.z, z ≠ -1 → d ≤ ‖Complex.exp (Complex.I * ω) - z‖) →
        |‖f.eval (Complex.exp (Complex.I * ω))‖ -
            √(((Polynomial.Chebyshev.T ℝ n).eval (Real.tan (Real.pi * e / 2) / Real.tan (ω / 2))) ^ 2 /
              (((Polynomial.Chebyshev.T ℝ n).eval (Real.tan (Real.pi * e / 2) / Real.tan (ω / 2))) ^ 2 +
                ((10 : ℝ) ^ (rs / 10) - 1)))| ≤
          E * √(((Polynomial.Chebyshev.T ℝ n).eval (Real.tan (Real.pi * e / 2) / Real.tan (ω / 2))) ^ 2 /
              (((Polynomial.Chebyshev.T ℝ n).eval (Real.tan (Real.pi * e / 2) / Real.tan (ω / 2))) ^ 2 +
                ((10 : ℝ) ^ (rs / 10) - 1))) ∧
        (Real.pi * e ≤ ω → ‖f.eval (Complex.exp (Complex.I * ω))‖ ≤ (1 + E) * (10 : ℝ) ^ (-rs / 20)) := by
  obtain ⟨f, f0, q1, q2, -, -, q5, q6⟩ := cheb2_close hr hm hm2 0 s hn hrp hrs (by simpa using hw) he h0 h1 S S2 hfl hh
    rfl hρ
  obtain ⟨D, hD, -, hD1, hDp, hDs⟩ := C55_lowpass_partial 0 s n hn rp rs hrp hrs w e fs he h0 h1
  have eD : D = f0 := by
    have : Design.iirfilter 0 s n [w] (some rp) (some rs) (some .lowpass) (some .chebyshevII) none (some .zpk) fs =
      Design.iirfilter 0 s n [w] (some rp) (some rs) (some .lowpass) (some .chebyshevII) (some false) (some .zpk) fs := rfl
    rw [this, q2] at hD
    injection hD with hD
    injection hD with hD
    exact hD.symm
  subst eD
  have hh0 := S.h_nonneg
  obtain ⟨hX0, -⟩ := stop_cond hn hrs h0 h1 hh0 hh rfl
  obtain ⟨hρ0, -⟩ := stop_rho hn hrs h0 h1 hh0 hh rfl hρ
  have hE0 : 0 ≤ E := by rw [hE]; positivity
  refine ⟨f, D, q1, q2, fun hs => ?_, fun ω w0 w1 wz => ?_⟩
  · have := q6 1 (by simp) (stopMargin n rs e / 2) (by linarith) (by linarith) q5
    rw [hD1, norm_one, mul_one] at this
    refine this.trans (le_of_eq ?_)
    field_simp
    ring
  · have hx : ‖Complex.exp (Complex.I * ω)‖ = 1 := by
      rw [mul_comm]; exact Complex.norm_exp_ofReal_mul_I ω
    have main := q6 _ hx d hd hd0 wz
    rw [← hE] at main
    have na : |‖f.eval (Complex.exp (Complex.I * ω))‖ - ‖D.eval (Complex.exp (Complex.I * ω))‖| ≤
        E * ‖D.eval (Complex.exp (Complex.I * ω))‖ := (abs_norm_sub_norm_le _ _).trans main
    constructor
    · rw [← hDp ω w0 w1, Real.sqrt_sq (norm_nonneg _)]
      exact na
    · intro wE
      have hω : 0 < ω := lt_of_lt_of_le (by have := Real.pi_pos; positivity) wE
      have k1 := hDs ω wE (by rwa [abs_of_pos hω] at w1)
      have k2 : ‖D.eval (Complex.exp (Complex.I * ω))‖ ≤ (10 : ℝ) ^ (-rs / 20) := by
        refine abs_le_of_sq_le_sq' ?_ (by positivity) |>.2
        refine k1.trans (le_of_eq ?_)
        rw [← Real.rpow_natCast, ← Real.rpow_mul (by norm_num)]
        congr 1
        push_cast; ring
      have k3 := (abs_le.mp na).2
      have k4 := mul_le_mul_of_nonneg_left k2 (show 0 ≤ 1 + E by linarith)
      linarith

/-- The hypotheses hold for a fourth-order filter with 40 dB of attenuation whose stop band begins at 10 Hz of 1 kHz,
in `f64`: the computed gain at frequency zero is within `10⁻⁵` of one, and the computed stop band is attenuated by
40 dB up to a relative error of `2 · 10⁻⁵` at the points that keep a distance of `10⁻³` from the zeros. -/
theorem C130_example (s : Sorts) : ∃ f f0 : Zpk,
    Rounded.iirfilter (.ofRounding binary64 libm64) s 4 [10] (some 1) (some 40) (some .lowpass) (some .chebyshevII)
      (some false) (some .zpk) (some 1000) = .ok (.zpk f) ∧
    Design.iirfilter 0 s 4 [10] (some 1) (some 40) (some .lowpass) (some .chebyshevII)
      (some false) (some .zpk) (some 1000) = .ok (.zpk f0) ∧
    ‖f.eval 1 - 1‖ ≤ 1 / 10 ^ 5 ∧
    ∀ ω : ℝ, Real.pi * (1 / 50) ≤ ω → ω < Real.pi →
      (∀ z ∈ f0.z, z ≠ -1 → 1 / 1000 ≤ ‖Complex.exp (Complex.I * ω) - z‖) →
      ‖f.eval (Complex.exp (Complex.I * ω))‖ ≤ (1 + 2 / 10 ^ 5) * (1 / 100) := by
  obtain ⟨c1, c2⟩ := forty_decibels
  have Sh : Small binary64 (1 / 2 ^ 50) (1 / 2 ^ 50) := by
    refine binary64_small_pow ?_
    have g1 : (2 : ℝ) ^ (-1000 : ℤ) ≤ 2 ^ (-50 : ℤ) := zpow_le_zpow_right₀ (by norm_num) (by norm_num)
    exact g1.trans (by norm_num)
  have c3 := pow_le_pow_left₀ (by norm_num) c2 2
  have c0 : 0 < stopCond 4 40 := by
    obtain ⟨-, k1, -⟩ := ripple_facts (show (0 : ℝ) < 40 by norm_num)
    have : 0 ≤ stopMu 4 40 := by
      rw [stopMu]; exact div_nonneg (Real.arsinh_nonneg_iff.mpr (Real.sqrt_nonneg _)) (by norm_num)
    rw [stopCond]; positivity
  have S2 : Small binary64 (1 / 2 ^ 50) ((stopMargin 4 40 (1 / 50) / 20) ^ 4) := by
    refine binary64_small_pow ?_
    have g1 : (2 : ℝ) ^ (-1000 : ℤ) ≤ 2 ^ (-100 : ℤ) := zpow_le_zpow_right₀ (by norm_num) (by norm_num)
    have g2 : (1 / 10000 : ℝ) ≤ stopMargin 4 40 (1 / 50) / 20 := by linarith
    refine (g1.trans ?_).trans (pow_le_pow_left₀ (by norm_num) g2 4)
    norm_num
  have hfl : 1 / 2 ^ 50 ≤ rippleFloor 40 := by
    have a : (10 : ℝ) ^ (-(40 : ℝ) / 20) = 1 / 100 := by
      rw [show -(40 : ℝ) / 20 = -((2 : ℕ) : ℝ) by norm_num, Real.rpow_neg (by norm_num), Real.rpow_natCast]; norm_num
    rw [rippleFloor, a]
    norm_num
  obtain ⟨ρ, hρ⟩ : ∃ ρ : ℝ, ρ = 660 * ((4 : ℕ) * (stopCond 4 40 * (1 / 2 ^ 50))) / (1 - 1 / 50) := ⟨_, rfl⟩
  have ρ1 : ρ ≤ 3 / 10 ^ 10 := by
    rw [hρ]; push_cast; norm_num; linarith
  have ρ0 : 0 < ρ := by rw [hρ]; push_cast; norm_num; exact c0
  obtain ⟨f, f0, q1, q2, q3, q4⟩ := C130_lowpass binary64_nearest libm64_accurate libm64_accurateHyp s 4 (by norm_num)
    1 40 (by norm_num) (by norm_num) 10 (by
      have := Binary.rnd_int 53 (-1074) (by norm_num) 10 (by norm_num)
      exact_mod_cast this) (some 1000) (1 / 50) (by simp [Spec.edges]; norm_num) (by norm_num)
    (by norm_num) Sh S2 hfl (by push_cast; norm_num at c3 ⊢; linarith) ρ hρ (1 / 1000) (by norm_num)
    (by push_cast; norm_num at ρ1 ⊢; linarith) _ rfl
  have X0 : 0 < stopMargin 4 40 (1 / 50) := by linarith
  refine ⟨f, f0, q1, q2, ?_, fun ω w0 w1 wz => ?_⟩
  · refine (q3 (by push_cast; norm_num at ρ1 ⊢; linarith)).trans ?_
    rw [div_le_iff₀ X0]
    push_cast; norm_num at ρ1 ⊢; linarith
  · have hω : 0 < ω := lt_of_lt_of_le (by have := Real.pi_pos; positivity) w0
    have k := (q4 ω (by rwa [abs_of_pos hω]) (by rwa [abs_of_pos hω]) wz).2 w0
    have a : (10 : ℝ) ^ (-(40 : ℝ) / 20) = 1 / 100 := by
      rw [show -(40 : ℝ) / 20 = -((2 : ℕ) : ℝ) by norm_num, Real.rpow_neg (by norm_num), Real.rpow_natCast]; norm_num
    rw [a] at k
    refine k.trans (mul_le_mul_of_nonneg_right ?_ (by norm_num))
    have x1 : 1 / stopMargin 4 40 (1 / 50) ≤ 500 := by
      rw [div_le_iff₀ X0]; linarith
    have x2 : 4 * (((4 : ℕ) : ℝ) * ρ) * (1 / stopMargin 4 40 (1 / 50) + 1 / (1 / 1000)) ≤
        4 * (((4 : ℕ) : ℝ) * ρ) * 1500 := mul_le_mul_of_nonneg_left (by linarith) (by positivity)
    refine (add_le_add_right x2 1).trans ?_
    push_cast; norm_num at ρ1 ⊢; linarith

end SciRs.Props

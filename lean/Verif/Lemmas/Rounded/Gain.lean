import Verif.Lemmas.Rounded.Product
import Verif.Lemmas.Rounded.ButterPoles

/-! # The gain of Butterworth low-pass and high-pass designs in floating point -/

namespace SciRs.Rounded

open SciRs.Spec SciRs.Design

/-- The gain of the digital filter, in any arithmetic. -/
theorem butter_gain {A : Arith} {n : ℕ} {wn : List ℝ} {rp rs : Option ℝ} {band : Band} {fs : Option ℝ} {g : Zpk}
    {e : ℝ} (he : edges A wn fs = [e]) (hb : band = .lowpass ∨ band = .highpass)
    (h : design A n wn rp rs band .butterworth false fs = .ok g) :
    g.k =
      let w := A.mul (A.mul 2 2) (A.tan (A.div (A.mul A.pi e) 2))
      let ζ := fun j : ℤ => -A.cexp ⟨0, A.div (A.mul A.pi (A.ofInt j)) (A.ofInt (2 * n))⟩
      let p := fun j : ℤ => if band = .lowpass then A.cmul (ζ j) (w : ℂ) else A.cdiv (w : ℂ) (ζ j)
      let J := stepRange (-(n : ℤ) + 1) n
      let D := foldMul A (J.map (fun j => A.csub (A.mul 2 2 : ℝ) (p j)))
      if band = .lowpass then A.mul (A.mul 1 (A.powi w n)) (A.cdiv 1 D).re
      else A.mul (A.mul 1 (A.cdiv 1 (foldMul A (J.map (fun j => A.cmul (-1) (ζ j))))).re)
        (A.cdiv (foldMul A (J.map (fun _ => A.csub (A.mul 2 2 : ℝ) 0))) D).re := by
  unfold design at h
  simp only [bind_eq_ok] at h
  obtain ⟨w, hw, f, hf, v, hv, f', hf', h⟩ := h
  rw [validate_eq_ok] at hw
  obtain ⟨rfl, -⟩ := hw
  unfold warp at hv
  rw [if_pos rfl, he] at hv
  obtain ⟨u, -, hv⟩ := bind_eq_ok.mp hv
  have hv2 : v = [A.mul (A.mul 2 2) (A.tan (A.div (A.mul A.pi e) 2))] := by
    simpa [pure, Except.pure] using hv.symm
  subst hv2
  cases hf
  unfold discretise bilinear at h
  rw [if_pos rfl] at h
  obtain ⟨d, -, h⟩ := bind_eq_ok.mp h
  cases h
  have hd : ∀ d', relativeDegree (buttap A n).z (buttap A n).p = .ok d' → d' = n := by
    intro d' hd'
    rw [relativeDegree_ok (by simp [buttap])] at hd'
    cases hd'
    simp [buttap, stepRange_sym_length]
  rcases hb with rfl | rfl
  · simp only [bandTransform, lp2lp] at hf'
    obtain ⟨d', hd', hf'⟩ := bind_eq_ok.mp hf'
    obtain rfl := hd d' hd'
    cases hf'
    simp [buttap, Function.comp_def, foldMul]
  · simp only [bandTransform, lp2hp] at hf'
    obtain ⟨d', hd', hf'⟩ := bind_eq_ok.mp hf'
    obtain rfl := hd d' hd'
    cases hf'
    have hrep : ∀ c : ℂ, (stepRange (-(d' : ℤ) + 1) d').map (fun _ => c) = List.replicate d' c := by
      intro c
      rw [List.map_const', stepRange_sym_length]
    simp [buttap, Function.comp_def, foldMul, hrep]

variable {r : Rounding} {m : Libm} {h σ : ℝ}

/-- A quotient of two complex numbers known up to relative errors. -/
theorem Small.flDiv_rel' (S : Small r h σ) (hh : h ≤ 1 / 64) (hr : r.Nearest) {N N' D D' : ℂ}
    {α β : ℝ} (hα : α ≤ 1 / 20) (hβ : β ≤ 1 / 20) (eN : ‖N' - N‖ ≤ α * ‖N‖)
    (eD : ‖D' - D‖ ≤ β * ‖D‖) (hDD : σ ≤ 0.9 * ‖D‖ ^ 2) (hDN : σ ≤ 0.9 * (‖N‖ * ‖D‖))
    (hND : σ ≤ 0.9 * (‖N‖ / ‖D‖)) :
    ‖Rounded.flDiv r N' D' - N / D‖ ≤ (1.06 * (α + β) + 12.2 * h) * (‖N‖ / ‖D‖) := by
  have h0 := S.h_nonneg
  have hs := S.pos
  have hD0 : 0 < ‖D‖ := by
    refine lt_of_le_of_ne (norm_nonneg _) (fun h => ?_)
    rw [← h] at hDD
    norm_num at hDD
    linarith
  have hN0 : 0 < ‖N‖ := by
    refine lt_of_le_of_ne (norm_nonneg _) (fun h => ?_)
    rw [← h, zero_mul, mul_zero] at hDN
    linarith
  have hα0 : 0 ≤ α := by
    have := (norm_nonneg _).trans eN
    exact nonneg_of_mul_nonneg_left this hN0
  have hβ0 : 0 ≤ β := by
    have := (norm_nonneg _).trans eD
    exact nonneg_of_mul_nonneg_left this hD0
  have n1 : ‖N'‖ ≤ 1.05 * ‖N‖ := by
    have := norm_add_le (N' - N) N
    rw [sub_add_cancel] at this
    nlinarith
  have n2 : 0.95 * ‖N‖ ≤ ‖N'‖ := by
    have := norm_sub_norm_le N N'
    rw [norm_sub_rev] at this
    nlinarith
  have d1 : ‖D'‖ ≤ 1.05 * ‖D‖ := by
    have := norm_add_le (D' - D) D
    rw [sub_add_cancel] at this
    nlinarith
  have d2 : 0.95 * ‖D‖ ≤ ‖D'‖ := by
    have := norm_sub_norm_le D D'
    rw [norm_sub_rev] at this
    nlinarith
  have hD'0 : 0 < ‖D'‖ := by linarith
  have hDn : D ≠ 0 := norm_pos_iff.mp hD0
  have hD'n : D' ≠ 0 := norm_pos_iff.mp hD'0
  have q1 : ‖N'‖ / ‖D'‖ ≤ 1.106 * (‖N‖ / ‖D‖) := by
    rw [div_le_iff₀ hD'0]
    have : 1.106 * (‖N‖ / ‖D‖) * (0.95 * ‖D‖) ≤ 1.106 * (‖N‖ / ‖D‖) * ‖D'‖ :=
      mul_le_mul_of_nonneg_left d2 (by positivity)
    refine le_trans ?_ this
    rw [show 1.106 * (‖N‖ / ‖D‖) * (0.95 * ‖D‖) = 1.0507 * ‖N‖ by field_simp; ring]
    linarith
  have q2 : 0.9 * (‖N‖ / ‖D‖) ≤ ‖N'‖ / ‖D'‖ := by
    rw [le_div_iff₀ hD'0]
    have : 0.9 * (‖N‖ / ‖D‖) * ‖D'‖ ≤ 0.9 * (‖N‖ / ‖D‖) * (1.05 * ‖D‖) :=
      mul_le_mul_of_nonneg_left d1 (by positivity)
    refine this.trans ?_
    rw [show 0.9 * (‖N‖ / ‖D‖) * (1.05 * ‖D‖) = 0.945 * ‖N‖ by field_simp; ring]
    linarith
  have e0 : ‖N'‖ * ‖D'‖ / ‖D'‖ ^ 2 = ‖N'‖ / ‖D'‖ := by field_simp
  have s1 := S.flDiv hh hr (a := N') (b := D') (B := ‖N'‖ * ‖D'‖) (by
      have := mul_le_mul d2 d2 (by positivity) hD'0.le
      nlinarith) le_rfl (by
      have := mul_le_mul n2 d2 (by positivity) (norm_nonneg _)
      have : 0 < ‖N‖ * ‖D‖ := by positivity
      linarith) (by
    rw [e0]; linarith)
  rw [e0] at s1
  have e1 : N' / D' - N / D = (N' - N) / D' + N * (D - D') / (D * D') := by field_simp; ring
  have i1 : 1 / ‖D'‖ ≤ 1.0527 / ‖D‖ := by
    rw [div_le_div_iff₀ hD'0 hD0]; linarith
  have s2 : ‖N' / D' - N / D‖ ≤ 1.0527 * (α + β) * (‖N‖ / ‖D‖) := by
    rw [e1]
    refine (norm_add_le _ _).trans ?_
    rw [norm_div, norm_div, norm_mul, norm_mul, norm_sub_rev D]
    have t1 : ‖N' - N‖ / ‖D'‖ ≤ (α * ‖N‖) * (1.0527 / ‖D‖) := by
      rw [div_eq_mul_one_div]
      exact mul_le_mul eN i1 (by positivity) (by positivity)
    have t2 : ‖N‖ * ‖D' - D‖ / (‖D‖ * ‖D'‖) ≤ (‖N‖ * β) * (1.0527 / ‖D‖) := by
      have : ‖N‖ * ‖D' - D‖ / (‖D‖ * ‖D'‖) = (‖N‖ * (‖D' - D‖ / ‖D‖)) * (1 / ‖D'‖) := by
        field_simp
      rw [this]
      refine mul_le_mul (mul_le_mul_of_nonneg_left ?_ hN0.le) i1 (by positivity) (by positivity)
      rwa [div_le_iff₀ hD0]
    have : (α * ‖N‖) * (1.0527 / ‖D‖) + (‖N‖ * β) * (1.0527 / ‖D‖) = 1.0527 * (α + β) * (‖N‖ / ‖D‖) := by ring
    linarith
  have s3 := norm_add_le (Rounded.flDiv r N' D' - N' / D') (N' / D' - N / D)
  rw [sub_add_sub_cancel] at s3
  have Q0 : 0 < ‖N‖ / ‖D‖ := by positivity
  have s4 : 11 * h * (‖N'‖ / ‖D'‖) ≤ 11 * h * (1.106 * (‖N‖ / ‖D‖)) := mul_le_mul_of_nonneg_left q1 (by positivity)
  have s5 : 0 ≤ (α + β) * (‖N‖ / ‖D‖) := by positivity
  have s6 : 0 ≤ h * (‖N‖ / ‖D‖) := by positivity
  linarith

/-- The same for numbers of norm at least one. -/
theorem Small.flDiv_rel (S : Small r h σ) (hσ : σ ≤ 1 / 4) (hh : h ≤ 1 / 64) (hr : r.Nearest) {N N' D D' : ℂ}
    {α β : ℝ} (hα : α ≤ 1 / 20) (hβ : β ≤ 1 / 20) (eN : ‖N' - N‖ ≤ α * ‖N‖)
    (eD : ‖D' - D‖ ≤ β * ‖D‖) (hN : 1 ≤ ‖N‖) (hD : 1 ≤ ‖D‖) (hND : σ ≤ 0.9 * (‖N‖ / ‖D‖)) :
    ‖Rounded.flDiv r N' D' - N / D‖ ≤ (1.06 * (α + β) + 12.2 * h) * (‖N‖ / ‖D‖) :=
  S.flDiv_rel' hh hr hα hβ eN eD (by nlinarith) (by nlinarith) hND

/-- A product of two real numbers known up to relative errors. -/
theorem Small.mul_rel (S : Small r h σ) {x x' y y' α β : ℝ} (hx : x ≠ 0) (hy : y ≠ 0) (hα : α ≤ 1 / 10)
    (hβ : β ≤ 1 / 10) (ex : |x' - x| ≤ α * |x|) (ey : |y' - y| ≤ β * |y|) (hσ : σ ≤ |x * y|) :
    |r.rnd (x' * y') - x * y| ≤ (α + 1.1 * β + 1.21 * h) * |x * y| := by
  have h0 := S.h_nonneg
  have hx0 : 0 < |x| := abs_pos.mpr hx
  have hy0 : 0 < |y| := abs_pos.mpr hy
  have hα0 : 0 ≤ α := nonneg_of_mul_nonneg_left ((abs_nonneg _).trans ex) hx0
  have hβ0 : 0 ≤ β := nonneg_of_mul_nonneg_left ((abs_nonneg _).trans ey) hy0
  have n1 : |x'| ≤ 1.1 * |x| := by
    have := abs_add_le (x' - x) x
    rw [sub_add_cancel] at this
    nlinarith
  have n2 : |y'| ≤ 1.1 * |y| := by
    have := abs_add_le (y' - y) y
    rw [sub_add_cancel] at this
    nlinarith
  rw [abs_mul] at hσ ⊢
  have hxy : 0 < |x| * |y| := by positivity
  have n3 : |x' * y'| ≤ 1.21 * (|x| * |y|) := by
    rw [abs_mul]
    have := mul_le_mul n1 n2 (abs_nonneg _) (by positivity)
    linarith
  have s1 := S.fl n3 (by linarith)
  have s2 : |x' * y' - x * y| ≤ (α + 1.1 * β) * (|x| * |y|) := by
    have e : x' * y' - x * y = (x' - x) * y + x' * (y' - y) := by ring
    rw [e]
    refine (abs_add_le _ _).trans ?_
    rw [abs_mul, abs_mul]
    have t1 := mul_le_mul_of_nonneg_right ex hy0.le
    have t2 : |x'| * |y' - y| ≤ (1.1 * |x|) * (β * |y|) := mul_le_mul n1 ey (abs_nonneg _) (by positivity)
    linarith
  have s3 := abs_add_le (r.rnd (x' * y') - x' * y') (x' * y' - x * y)
  rw [sub_add_sub_cancel] at s3
  linarith

theorem pow_err {w w' c : ℝ} (hw : 0 ≤ w) (hc : 0 ≤ c) (e : |w' - w| ≤ c * w) (n : ℕ) :
    |w' ^ n - w ^ n| ≤ ((1 + c) ^ n - 1) * w ^ n := by
  induction n with
  | zero => simp
  | succ n ih =>
    have n1 : |w'| ≤ (1 + c) * w := by
      have := abs_add_le (w' - w) w
      rw [sub_add_cancel, abs_of_nonneg hw] at this
      linarith
    have e1 : w' ^ (n + 1) - w ^ (n + 1) = (w' ^ n - w ^ n) * w' + w ^ n * (w' - w) := by ring
    rw [e1]
    refine (abs_add_le _ _).trans ?_
    rw [abs_mul, abs_mul, abs_of_nonneg (pow_nonneg hw n)]
    have hp : 0 ≤ (1 + c) ^ n - 1 := sub_nonneg.mpr (one_le_pow₀ (by linarith))
    have t1 : |w' ^ n - w ^ n| * |w'| ≤ (((1 + c) ^ n - 1) * w ^ n) * ((1 + c) * w) :=
      mul_le_mul ih n1 (abs_nonneg _) (by positivity)
    have t2 : w ^ n * |w' - w| ≤ w ^ n * (c * w) := mul_le_mul_of_nonneg_left e (by positivity)
    refine (add_le_add t1 t2).trans (le_of_eq ?_)
    ring

theorem Small.mono {τ : ℝ} (S : Small r h σ) (hστ : σ ≤ τ) : Small r h τ where
  u_le := S.u_le
  t_le := S.t_le.trans (mul_le_mul_of_nonneg_left hστ (sub_nonneg.mpr S.u_le))
  pos := lt_of_lt_of_le S.pos hστ

theorem exProto_conj (n : ℕ) (j : ℤ) : (starRingEnd ℂ) (exProto n j) = exProto n (-j) := by
  obtain ⟨a1, a2⟩ := exProto_parts n j
  obtain ⟨b1, b2⟩ := exProto_parts n (-j)
  have e : Real.pi * ((-j : ℤ) : ℝ) / (2 * n) = -(Real.pi * j / (2 * n)) := by push_cast; ring
  rw [e, Real.cos_neg] at b1
  rw [e, Real.sin_neg] at b2
  apply Complex.ext
  · rw [Complex.conj_re, a1, b1]
  · rw [Complex.conj_im, a2, b2]

theorem exAnalog_conj (n : ℕ) (band : Band) (e : ℝ) (j : ℤ) :
    (starRingEnd ℂ) (exAnalog n band e j) = exAnalog n band e (-j) := by
  unfold exAnalog
  split
  · rw [map_mul, Complex.conj_ofReal, exProto_conj]
  · rw [map_div₀, Complex.conj_ofReal, exProto_conj]

/-- A product over a symmetric range is real. -/
theorem prod_sym_real (n : ℕ) {g : ℤ → ℂ} (hg : ∀ j, (starRingEnd ℂ) (g j) = g (-j)) :
    (((stepRange (-(n : ℤ) + 1) n).map g).prod).im = 0 := by
  rw [← Complex.conj_eq_iff_im, map_list_prod, List.map_map]
  have := conjClosed_sym (neg_stepRange_sym n) hg
  unfold ConjClosed at this
  rw [List.map_map] at this
  exact this.prod_eq

theorem one_le_norm_prod {l : List ℂ} (hl : ∀ x ∈ l, 1 ≤ ‖x‖) : 1 ≤ ‖l.prod‖ := by
  induction l with
  | nil => simp
  | cons a l ih =>
    rw [List.prod_cons, norm_mul]
    have h1 := hl a (by simp)
    have h2 := ih (fun x hx => hl x (by simp [hx]))
    nlinarith

theorem norm_prod_le {l : List ℂ} {c : ℝ} (hl : ∀ x ∈ l, ‖x‖ ≤ c) : ‖l.prod‖ ≤ c ^ l.length := by
  induction l with
  | nil => simp
  | cons a l ih =>
    rw [List.prod_cons, norm_mul, List.length_cons, pow_succ, mul_comm]
    have h1 := hl a (by simp)
    have h2 := ih (fun x hx => hl x (by simp [hx]))
    exact mul_le_mul h2 h1 (norm_nonneg _) (pow_nonneg ((norm_nonneg _).trans h1) _)

/-- The error of a computed pole of the analog filter. -/
theorem analog_err {e e' : ℝ} (S : Small r h e) (hr : r.Nearest) (he : e < 1) (hee : |e' - e| ≤ h * e)
    (hh : h ≤ (1 - e) / 1024) (hm : m.Accurate r h) {n : ℕ} (hn : n ≠ 0) {band : Band} {j : ℤ}
    (hj : j ∈ stepRange (-(n : ℤ) + 1) n) :
    ‖flAnalog r m n band e' j - exAnalog n band e j‖ ≤ 38 * (h / (1 - e)) * exWarp e := by
  have he0 := S.pos
  have h0 := S.h_nonneg
  have h1e : 0 < 1 - e := by linarith
  obtain ⟨H, hH⟩ : ∃ H, H = h / (1 - e) := ⟨_, rfl⟩
  have hHh : H * (1 - e) = h := by rw [hH]; field_simp
  have hH0 : 0 ≤ H := by rw [hH]; positivity
  have hHs : H ≤ 1 / 1024 := by rw [hH, div_le_iff₀ h1e]; linarith
  have hhH : h ≤ H := by nlinarith
  obtain ⟨j1, j2⟩ := mem_stepRange_sym hj
  have ja : |(j : ℝ)| ≤ n := by
    rw [← Int.cast_abs]
    have : |j| ≤ (n : ℤ) := by rcases abs_cases j with h | h <;> omega
    exact_mod_cast this
  have eζ := proto_err S he.le (by linarith) hm (Nat.one_le_iff_ne_zero.mpr hn) ja
  obtain ⟨w0, w1, ew⟩ := warp_err S hr he hee hh hm
  rw [← hH] at ew ⊢
  unfold flAnalog exAnalog
  split
  · exact lp_err S hr (by linarith) hhH hHs w0 w1 (exProto_norm n j) eζ ew
  · exact hp_err S he hr hh hhH hHs w0 w1 (exProto_norm n j) eζ ew

/-- One factor `4 - p` of the denominator. -/
theorem factor_err {H : ℝ} {p p' : ℂ} (S : Small r h σ) (hσ : σ ≤ 1 / 4) (hr : r.Nearest) (hhH : h ≤ H)
    (hH : H ≤ 1 / 1024) (hp : p.re ≤ 0) (ep : ‖p' - p‖ ≤ 38 * H * ‖p‖) :
    4 ≤ ‖4 - p‖ ∧
    ‖(⟨r.rnd (r.rnd (2 * 2) - p'.re), r.rnd (0 - p'.im)⟩ : ℂ) - (4 - p)‖ ≤ 40 * H * ‖4 - p‖ := by
  have h0 := S.h_nonneg
  have hH0 : 0 ≤ H := h0.trans hhH
  have hL2 : 16 + ‖p‖ ^ 2 ≤ ‖4 - p‖ ^ 2 := by
    rw [Complex.sq_norm, Complex.sq_norm, Complex.normSq_apply, Complex.normSq_apply]
    simp
    nlinarith
  obtain ⟨L, hL⟩ : ∃ L, L = ‖4 - p‖ := ⟨_, rfl⟩
  have hLn : 0 ≤ L := by rw [hL]; exact norm_nonneg _
  rw [← hL] at hL2 ⊢
  have hL4 : 4 ≤ L := by nlinarith [norm_nonneg p]
  have hpL : ‖p‖ ≤ L := by nlinarith [norm_nonneg p]
  refine ⟨hL4, ?_⟩
  have r4 : r.rnd (2 * 2) = 4 := by
    have := rnd_four hr
    norm_num
    exact this
  rw [r4]
  have ep' : ‖p' - p‖ ≤ 38 * H * L := ep.trans (mul_le_mul_of_nonneg_left hpL (by positivity))
  have hHL : H * L ≤ 1 / 1024 * L := mul_le_mul_of_nonneg_right hH hLn
  have nb : ‖4 - p'‖ ≤ 1.04 * L := by
    have : (4 : ℂ) - p' = (4 - p) - (p' - p) := by ring
    rw [this]
    refine (norm_sub_le _ _).trans ?_
    rw [← hL]
    linarith
  have c1 : |4 - p'.re| ≤ 1.04 * L := by
    have := (Complex.abs_re_le_norm (4 - p')).trans nb
    simpa using this
  have c2 : |0 - p'.im| ≤ 1.04 * L := by
    have := (Complex.abs_im_le_norm (4 - p')).trans nb
    simpa using this
  have s1 := S.fl c1 (by linarith)
  have s2 := S.fl c2 (by linarith)
  have k := norm_le_of_parts (z := (⟨r.rnd (4 - p'.re), r.rnd (0 - p'.im)⟩ : ℂ) - (4 - p')) (B := h * (1.04 * L))
    (by simpa using s1) (by simpa using s2)
  have e : (⟨r.rnd (4 - p'.re), r.rnd (0 - p'.im)⟩ : ℂ) - (4 - p) =
      ((⟨r.rnd (4 - p'.re), r.rnd (0 - p'.im)⟩ : ℂ) - (4 - p')) - (p' - p) := by ring
  rw [e]
  refine (norm_sub_le _ _).trans ?_
  have : h * L ≤ H * L := mul_le_mul_of_nonneg_right hhH hLn
  have : 0 ≤ H * L := by positivity
  linarith

end SciRs.Rounded

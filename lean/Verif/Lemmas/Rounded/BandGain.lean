import Verif.Lemmas.Rounded.BandAccuracy
import Verif.Lemmas.Rounded.GainError

/-! # The gain of Butterworth band-pass designs in floating point -/

namespace SciRs.Rounded

open SciRs.Spec SciRs.Design

/-- The computed analog pole, in any arithmetic. -/
noncomputable def Arith.root (A : Arith) (n : ℕ) (band : Band) (w0 w1 : ℝ) (q : ℤ × Bool) : ℂ :=
  if q.2 then A.cadd (A.shift n band w0 w1 q.1) (A.radius n band w0 w1 q.1)
  else A.csub (A.shift n band w0 w1 q.1) (A.radius n band w0 w1 q.1)

/-- The order in which the poles are listed. -/
def bandIdx (n : ℕ) : List (ℤ × Bool) :=
  (stepRange (-(n : ℤ) + 1) n).map (fun j => (j, true)) ++ (stepRange (-(n : ℤ) + 1) n).map (fun j => (j, false))

theorem bandIdx_length (n : ℕ) : (bandIdx n).length = 2 * n := by
  simp [bandIdx, stepRange_sym_length]; ring

theorem mem_bandIdx {n : ℕ} {q : ℤ × Bool} (hq : q ∈ bandIdx n) : q.1 ∈ stepRange (-(n : ℤ) + 1) n := by
  rcases List.mem_append.mp hq with h | h <;> obtain ⟨j, hj, rfl⟩ := List.mem_map.mp h <;> exact hj

/-- The gain of the digital filter, in any arithmetic. -/
theorem band_gain {A : Arith} {n : ℕ} {wn : List ℝ} {rp rs : Option ℝ} {fs : Option ℝ} {g : Zpk}
    {e0 e1 : ℝ} (he : edges A wn fs = [e0, e1])
    (h : design A n wn rp rs .bandpass .butterworth false fs = .ok g) :
    g.k = A.mul (A.mul 1 (A.powi (A.sub (A.warped e1) (A.warped e0)) n))
      (A.cdiv (foldMul A ((stepRange (-(n : ℤ) + 1) n).map (fun _ => A.csub (A.mul 2 2 : ℝ) 0)))
        (foldMul A ((bandIdx n).map (fun q =>
          A.csub (A.mul 2 2 : ℝ) (A.root n .bandpass (A.warped e0) (A.warped e1) q))))).re ∧
    g.z = List.replicate n (A.cdiv (A.cadd (A.mul 2 2 : ℝ) 0) (A.csub (A.mul 2 2 : ℝ) 0)) ++ List.replicate n (-1) := by
  unfold design at h
  simp only [bind_eq_ok] at h
  obtain ⟨w, hw, f, hf, v, hv, f', hf', h⟩ := h
  rw [validate_eq_ok] at hw
  obtain ⟨rfl, -⟩ := hw
  unfold warp at hv
  rw [if_pos rfl, he] at hv
  obtain ⟨u, -, hv⟩ := bind_eq_ok.mp hv
  have hv2 : v = [A.warped e0, A.warped e1] := by
    simpa [pure, Except.pure, Arith.warped] using hv.symm
  subst hv2
  cases hf
  unfold discretise bilinear at h
  rw [if_pos rfl] at h
  obtain ⟨d, hd2, h⟩ := bind_eq_ok.mp h
  cases h
  have hd : ∀ d', relativeDegree (buttap A n).z (buttap A n).p = .ok d' → d' = n := by
    intro d' hd'
    rw [relativeDegree_ok (by simp [buttap])] at hd'
    cases hd'
    simp [buttap, stepRange_sym_length]
  simp only [bandTransform, lp2bp] at hf'
  obtain ⟨d', hd', hf'⟩ := bind_eq_ok.mp hf'
  obtain rfl := hd d' hd'
  cases hf'
  have hrep : ∀ c : ℂ, (stepRange (-(d' : ℤ) + 1) d').map (fun _ => c) = List.replicate d' c := by
    intro c
    rw [List.map_const', stepRange_sym_length]
  have hdd : d = d' := by
    rw [relativeDegree_ok (by simp [buttap, splitPm, stepRange_sym_length])] at hd2
    cases hd2
    simp [buttap, splitPm, stepRange_sym_length]
  subst hdd
  constructor
  · simp [buttap, splitPm, Function.comp_def, Arith.shift, Arith.radius, Arith.half, bandIdx, Arith.root, hrep, foldMul]
  · simp [buttap, splitPm]

/-- The exact product of the `4 - p`. -/
noncomputable def exBandDen (n : ℕ) (e0 e1 : ℝ) : ℂ :=
  ((bandIdx n).map (fun q => 4 - exBandRoot n .bandpass e0 e1 q.1 q.2)).prod

/-- The exact gain. -/
noncomputable def exBandGain (n : ℕ) (e0 e1 : ℝ) : ℝ :=
  (exWarp e1 - exWarp e0) ^ n * (4 ^ n / exBandDen n e0 e1).re

/-- The computed product of the `4 - p`. -/
noncomputable def flBandDen (r : Rounding) (m : Libm) (n : ℕ) (f0 f1 : ℝ) : ℂ :=
  foldMul (.ofRounding r m) ((bandIdx n).map (fun q =>
    (⟨r.rnd (r.rnd (2 * 2) - (flBandRoot r m n .bandpass f0 f1 q.1 q.2).re),
      r.rnd (0 - (flBandRoot r m n .bandpass f0 f1 q.1 q.2).im)⟩ : ℂ)))

/-- The computed gain. -/
noncomputable def flBandGain (r : Rounding) (m : Libm) (n : ℕ) (f0 f1 : ℝ) : ℝ :=
  r.rnd (r.rnd (1 * m.powi (r.rnd (flWarp r m f1 - flWarp r m f0)) n) *
    (flDiv r (flNum r m n) (flBandDen r m n f0 f1)).re)

theorem band_gain_fl {r : Rounding} {m : Libm} {n : ℕ} {wn : List ℝ} {rp rs : Option ℝ} {fs : Option ℝ} {g : Zpk}
    {f0 f1 : ℝ} (he : edges (.ofRounding r m) wn fs = [f0, f1])
    (h : design (.ofRounding r m) n wn rp rs .bandpass .butterworth false fs = .ok g) :
    g.k = flBandGain r m n f0 f1 := by
  rw [(band_gain he h).1]
  rfl

theorem exact_root {eps : ℝ} {n : ℕ} {band : Band} {e0 e1 : ℝ} (hW : 0 ≤ exWarp e0 * exWarp e1) (q : ℤ × Bool) :
    (Arith.exact eps).root n band ((Arith.exact eps).warped e0) ((Arith.exact eps).warped e1) q =
      exBandRoot n band e0 e1 q.1 q.2 := by
  have ew : ∀ e, (Arith.exact eps).warped e = exWarp e := by
    intro e
    change 2 * 2 * Real.tan (Real.pi * e / 2) = _
    rw [exWarp]; ring
  have es : ∀ j, (Arith.exact eps).shift n band (exWarp e0) (exWarp e1) j =
      exShift n band (exWarp e0) (exWarp e1) j := by
    intro j
    have eζ : -Complex.exp (⟨0, Real.pi * ((j : ℤ) : ℝ) / ((2 * n : ℤ) : ℝ)⟩ : ℂ) = exProto n j := by
      rw [exProto]; push_cast; rfl
    have key : (if band = .bandpass then -Complex.exp (⟨0, Real.pi * ((j : ℤ) : ℝ) / ((2 * n : ℤ) : ℝ)⟩ : ℂ) *
          (((exWarp e1 - exWarp e0) / 2 : ℝ) : ℂ)
        else (⟨0, (exWarp e1 - exWarp e0) / 2⟩ : ℂ) /
          (-Complex.exp (⟨0, Real.pi * ((j : ℤ) : ℝ) / ((2 * n : ℤ) : ℝ)⟩ : ℂ)) * (-Complex.I)) =
        exShift n band (exWarp e0) (exWarp e1) j := by
      rw [eζ, exShift, exZeta]
      split
      · rw [mul_comm]
      · have : (⟨0, (exWarp e1 - exWarp e0) / 2⟩ : ℂ) = (((exWarp e1 - exWarp e0) / 2 : ℝ) : ℂ) * Complex.I := by
          apply Complex.ext <;> simp
        rw [this, div_eq_mul_inv]
        linear_combination -(((exWarp e1 - exWarp e0) / 2 : ℝ) : ℂ) * (exProto n j)⁻¹ * Complex.I_mul_I
    exact key
  have er : ∀ j, (Arith.exact eps).radius n band (exWarp e0) (exWarp e1) j =
      exRadius n band (exWarp e0) (exWarp e1) j := by
    intro j
    change csqrt ((Arith.exact eps).shift n band (exWarp e0) (exWarp e1) j ^ 2 -
      ((√(exWarp e0 * exWarp e1) ^ 2 : ℝ) : ℂ)) = _
    rw [es, Real.sq_sqrt hW, exRadius]
  rw [ew, ew]
  unfold Arith.root exBandRoot signed
  rw [es, er]
  rfl

theorem band_gain_ex {eps : ℝ} {n : ℕ} {wn : List ℝ} {rp rs : Option ℝ} {fs : Option ℝ} {g : Zpk}
    {e0 e1 : ℝ} (he : Spec.edges wn fs = [e0, e1]) (hW : 0 ≤ exWarp e0 * exWarp e1)
    (h : design (.exact eps) n wn rp rs .bandpass .butterworth false fs = .ok g) :
    g.k = exBandGain n e0 e1 ∧ g.z = List.replicate n 1 ++ List.replicate n (-1) := by
  have he' : edges (.exact eps) wn fs = [e0, e1] := by
    rw [← he]
    cases fs <;> rfl
  obtain ⟨h1, h2⟩ := band_gain he' h
  have e4 : (((2 * 2 : ℝ)) : ℂ) = 4 := by push_cast; norm_num
  have hrep : (stepRange (-(n : ℤ) + 1) n).map (fun _ => (4 : ℂ)) = List.replicate n 4 := by
    rw [List.map_const', stepRange_sym_length]
  constructor
  · rw [h1]
    simp only [exact_root hW]
    have hf : ∀ l : List ℂ, foldMul (.exact eps) l = l.prod := fun l => Design.foldMul_eq l
    have ew : ∀ e, (Arith.exact eps).warped e = exWarp e := by
      intro e
      change 2 * 2 * Real.tan (Real.pi * e / 2) = _
      rw [exWarp]; ring
    simp only [hf, ew]
    change (1 * (exWarp e1 - exWarp e0) ^ n) * (((stepRange (-(n : ℤ) + 1) n).map (fun _ =>
      (((2 * 2 : ℝ)) : ℂ) - 0)).prod / ((bandIdx n).map (fun q => (((2 * 2 : ℝ)) : ℂ) -
        exBandRoot n .bandpass e0 e1 q.1 q.2)).prod).re = _
    simp only [e4, sub_zero, hrep, List.prod_replicate, one_mul]
    rfl
  · rw [h2]
    change List.replicate n (((((2 * 2 : ℝ)) : ℂ) + 0) / ((((2 * 2 : ℝ)) : ℂ) - 0)) ++ _ = _
    simp

variable {r : Rounding} {m : Libm} {h σ : ℝ}

/-- One factor `4 - p` of the denominator, with an absolute error of the pole. -/
theorem factor_abs_err {ε : ℝ} {p p' : ℂ} (S : Small r h σ) (hσ : σ ≤ 1 / 4) (hr : r.Nearest)
    (hp : p.re ≤ 0) (ep : ‖p' - p‖ ≤ ε) (hε : ε ≤ 0.14) :
    4 ≤ ‖4 - p‖ ∧
    ‖(⟨r.rnd (r.rnd (2 * 2) - p'.re), r.rnd (0 - p'.im)⟩ : ℂ) - (4 - p)‖ ≤ (0.25 * ε + 2 * h) * ‖4 - p‖ := by
  have h0 := S.h_nonneg
  have hε0 : 0 ≤ ε := (norm_nonneg _).trans ep
  have hL2 : 16 + ‖p‖ ^ 2 ≤ ‖4 - p‖ ^ 2 := by
    rw [Complex.sq_norm, Complex.sq_norm, Complex.normSq_apply, Complex.normSq_apply]
    simp
    nlinarith
  obtain ⟨L, hL⟩ : ∃ L, L = ‖4 - p‖ := ⟨_, rfl⟩
  have hLn : 0 ≤ L := by rw [hL]; exact norm_nonneg _
  rw [← hL] at hL2 ⊢
  have hL4 : 4 ≤ L := by nlinarith [norm_nonneg p]
  refine ⟨hL4, ?_⟩
  have r4 : r.rnd (2 * 2) = 4 := by
    have := rnd_four hr
    norm_num
    exact this
  rw [r4]
  have nb : ‖4 - p'‖ ≤ 1.04 * L := by
    have : (4 : ℂ) - p' = (4 - p) - (p' - p) := by ring
    rw [this]
    refine (norm_sub_le _ _).trans ?_
    rw [← hL]
    linarith
  have c1 : |4 - p'.re| ≤ 1.04 * L := by
    have := (Complex.abs_re_le_norm (4 - p')).trans nb
    simpa using this
  have c2 : |0 - p'.im| ≤ 1.04 * L := by
    have := (Complex.abs_im_le_norm (4 - p')).trans nb
    simpa using this
  have s1 := S.fl c1 (by linarith)
  have s2 := S.fl c2 (by linarith)
  have k := norm_le_of_parts (z := (⟨r.rnd (4 - p'.re), r.rnd (0 - p'.im)⟩ : ℂ) - (4 - p')) (B := h * (1.04 * L))
    (by simpa using s1) (by simpa using s2)
  have e : (⟨r.rnd (4 - p'.re), r.rnd (0 - p'.im)⟩ : ℂ) - (4 - p) =
      ((⟨r.rnd (4 - p'.re), r.rnd (0 - p'.im)⟩ : ℂ) - (4 - p')) - (p' - p) := by ring
  rw [e]
  refine (norm_sub_le _ _).trans ?_
  have : 0 ≤ h * L := by positivity
  have : ε * 4 ≤ ε * L := mul_le_mul_of_nonneg_left hL4 hε0
  linarith

/-- The product of the `4 - p` taken two by two. -/
theorem exBandDen_eq (n : ℕ) (e0 e1 : ℝ) :
    exBandDen n e0 e1 = ((stepRange (-(n : ℤ) + 1) n).map (fun j =>
      16 - 4 * ((exWarp e1 - exWarp e0 : ℝ) * exProto n j) + (exWarp e0 * exWarp e1 : ℝ))).prod := by
  have key : ∀ j, (4 - exBandRoot n .bandpass e0 e1 j true) * (4 - exBandRoot n .bandpass e0 e1 j false) =
      16 - 4 * ((exWarp e1 - exWarp e0 : ℝ) * exProto n j) + (exWarp e0 * exWarp e1 : ℝ) := by
    intro j
    have h := csqrt_sq (exShift n .bandpass (exWarp e0) (exWarp e1) j ^ 2 - (exWarp e0 * exWarp e1 : ℝ))
    rw [← exRadius] at h
    have e : exShift n .bandpass (exWarp e0) (exWarp e1) j = ((exWarp e1 - exWarp e0 : ℝ) : ℂ) / 2 * exProto n j := by
      rw [exShift, exZeta, if_pos rfl]; push_cast; rfl
    simp only [exBandRoot, signed, if_true, Bool.false_eq_true, if_false]
    rw [← sub_eq_zero]
    have h2 := h
    rw [e] at h2 ⊢
    linear_combination -h2
  unfold exBandDen bandIdx
  rw [List.map_append, List.prod_append, List.map_map, List.map_map]
  simp only [← key]
  induction (stepRange (-(n : ℤ) + 1) n) with
  | nil => simp
  | cons a l ih =>
    simp only [List.map_cons, List.prod_cons, Function.comp]
    rw [← ih]
    simp only [Function.comp_def]
    ring

/-- The exact denominator is real and of bounded size. -/
theorem exBandDen_size {n : ℕ} {e0 e1 : ℝ} (w0 : 0 < exWarp e0) (w01 : exWarp e0 < exWarp e1) :
    (exBandDen n e0 e1).im = 0 ∧ ‖exBandDen n e0 e1‖ ≤ ((4 + exWarp e0) * (4 + exWarp e1)) ^ n := by
  rw [exBandDen_eq]
  constructor
  · refine prod_sym_real n (fun j => ?_)
    rw [map_add, map_sub, map_mul, map_mul, Complex.conj_ofReal, Complex.conj_ofReal, exProto_conj, map_ofNat,
      map_ofNat]
  · have := norm_prod_le (l := (stepRange (-(n : ℤ) + 1) n).map (fun j =>
      16 - 4 * (((exWarp e1 - exWarp e0 : ℝ) : ℂ) * exProto n j) + ((exWarp e0 * exWarp e1 : ℝ) : ℂ)))
      (c := (4 + exWarp e0) * (4 + exWarp e1)) (fun x hx => by
        obtain ⟨j, hj, rfl⟩ := List.mem_map.mp hx
        refine (norm_add_le _ _).trans ?_
        have a1 := norm_sub_le (16 : ℂ) (4 * (((exWarp e1 - exWarp e0 : ℝ) : ℂ) * exProto n j))
        rw [norm_mul, norm_mul, exProto_norm, Complex.norm_real, Real.norm_of_nonneg (by linarith)] at a1
        rw [Complex.norm_real, Real.norm_of_nonneg (mul_pos w0 (w0.trans w01)).le]
        have n16 : ‖(16 : ℂ)‖ = 16 := by simp
        have n4 : ‖(4 : ℂ)‖ = 4 := by simp
        rw [n16, n4, mul_one] at a1
        linarith)
    rwa [List.length_map, stepRange_sym_length] at this

/-- What the request says about the sizes. -/
theorem band_sizes {e0 e1 : ℝ} (h0 : 0 < e0) (h01 : e0 < e1) (h1 : e1 < 1) :
    (1 - e1) ^ 2 * (e1 - e0) ≤ 1 / 4 ∧ e1 - e0 ≤ exWarp e1 - exWarp e0 ∧
    (1 - e1) ^ 2 / 8 ≤ 4 / ((4 + exWarp e0) * (4 + exWarp e1)) ∧
    (e1 - e0) / 2 ≤ 4 * (exWarp e1 - exWarp e0) / ((4 + exWarp e0) * (4 + exWarp e1)) := by
  have hpi := Real.pi_pos
  have hpi3 : 3.14 < Real.pi := Real.pi_gt_d2
  obtain ⟨x, hx⟩ : ∃ x, x = Real.pi * e0 / 2 := ⟨_, rfl⟩
  obtain ⟨y, hy⟩ : ∃ y, y = Real.pi * e1 / 2 := ⟨_, rfl⟩
  have x0 : 0 < x := by rw [hx]; positivity
  have xy : x < y := by rw [hx, hy]; nlinarith
  have y1 : y < Real.pi / 2 := by rw [hy]; nlinarith
  have cx : 0 < Real.cos x := Real.cos_pos_of_mem_Ioo ⟨by linarith, by linarith⟩
  have cy : 0 < Real.cos y := Real.cos_pos_of_mem_Ioo ⟨by linarith, by linarith⟩
  have sx : 0 < Real.sin x := Real.sin_pos_of_pos_of_lt_pi x0 (by linarith)
  have sy : 0 < Real.sin y := Real.sin_pos_of_pos_of_lt_pi (by linarith) (by linarith)
  have E0 : exWarp e0 = 4 * (Real.sin x / Real.cos x) := by rw [exWarp, ← hx, Real.tan_eq_sin_div_cos]
  have E1 : exWarp e1 = 4 * (Real.sin y / Real.cos y) := by rw [exWarp, ← hy, Real.tan_eq_sin_div_cos]
  have qx := Real.sin_sq_add_cos_sq x
  have qy := Real.sin_sq_add_cos_sq y
  have dsin : Real.sin (y - x) = Real.sin y * Real.cos x - Real.cos y * Real.sin x := Real.sin_sub y x
  have hd : e1 - e0 ≤ Real.sin (y - x) := by
    have := Real.mul_le_sin (x := y - x) (by linarith) (by linarith)
    have e : 2 / Real.pi * (y - x) = e1 - e0 := by rw [hx, hy]; field_simp
    linarith
  have hcy : 1 - e1 ≤ Real.cos y := by
    have := Real.one_sub_mul_le_cos (x := y) (by linarith) y1.le
    have e : 2 / Real.pi * y = e1 := by rw [hy]; field_simp
    linarith
  have hcx : Real.cos y ≤ Real.cos x := Real.cos_le_cos_of_nonneg_of_le_pi x0.le (by linarith) xy.le
  have hprod : (4 + exWarp e0) * (4 + exWarp e1) =
      16 * ((Real.cos x + Real.sin x) * (Real.cos y + Real.sin y)) / (Real.cos x * Real.cos y) := by
    rw [E0, E1]; field_simp; ring
  have hb : exWarp e1 - exWarp e0 = 4 * Real.sin (y - x) / (Real.cos x * Real.cos y) := by
    rw [E0, E1, dsin]; field_simp
  have hcc : 0 < Real.cos x * Real.cos y := mul_pos cx cy
  have hcc1 : Real.cos x * Real.cos y ≤ 1 := mul_le_one₀ (Real.cos_le_one x) cy.le (Real.cos_le_one y)
  have bb : (Real.cos x + Real.sin x) * (Real.cos y + Real.sin y) ≤ 2 := by
    have b1 : (Real.cos x + Real.sin x) ^ 2 ≤ 2 := by linarith [sq_nonneg (Real.cos x - Real.sin x)]
    have b2 : (Real.cos y + Real.sin y) ^ 2 ≤ 2 := by linarith [sq_nonneg (Real.cos y - Real.sin y)]
    linarith [sq_nonneg ((Real.cos x + Real.sin x) - (Real.cos y + Real.sin y))]
  have bp : 0 < (Real.cos x + Real.sin x) * (Real.cos y + Real.sin y) := by positivity
  have hE : (1 - e1) ^ 2 ≤ Real.cos x * Real.cos y := by
    rw [sq]
    exact mul_le_mul (hcy.trans hcx) hcy (by linarith) cx.le
  refine ⟨?_, ?_, ?_, ?_⟩
  · have i1 : (1 - e1) * (e1 - e0) ≤ 1 / 4 := by nlinarith [sq_nonneg (1 - e1 - (e1 - e0))]
    have i2 := mul_pos (by linarith : 0 < 1 - e1) (by linarith : 0 < e1 - e0)
    have i3 : (1 - e1) ^ 2 * (e1 - e0) = (1 - e1) * ((1 - e1) * (e1 - e0)) := by ring
    have i4 := mul_le_of_le_one_left i2.le (by linarith : 1 - e1 ≤ 1)
    linarith
  · rw [hb, le_div_iff₀ hcc]
    have := mul_le_of_le_one_right (by linarith : 0 ≤ e1 - e0) hcc1
    linarith
  · rw [hprod, div_div_eq_mul_div, le_div_iff₀ (by positivity)]
    have := mul_le_mul_of_nonneg_left bb (sq_nonneg (1 - e1))
    linarith
  · rw [hb, hprod, mul_div_assoc', div_div_div_cancel_right₀ hcc.ne', le_div_iff₀ (by positivity)]
    have := mul_le_mul_of_nonneg_left bb (by linarith : 0 ≤ e1 - e0)
    linarith

/-- The computed denominator. -/
theorem band_den_err (hr : r.Nearest) (hm : m.Accurate r h) (hp : m.AccuratePolar r h) {n : ℕ} {e0 e1 κ : ℝ}
    (R : BandRequest n e0 e1 κ h) (S : Small r h (κ ^ 2 * e0 ^ 2 / 2)) (S2 : Small r h σ) (hσ : σ ≤ 1 / 4) {f0 f1 : ℝ}
    (hf0 : |f0 - e0| ≤ h * e0) (hf1 : |f1 - e1| ≤ h * e1) (hν : 10000 * (n * (h / ((1 - e1) ^ 2 * κ))) ≤ 1) :
    1 ≤ ‖exBandDen n e0 e1‖ ∧
    ‖flBandDen r m n f0 f1 - exBandDen n e0 e1‖ ≤ 320 * (n * (h / ((1 - e1) ^ 2 * κ))) * ‖exBandDen n e0 e1‖ := by
  have h0 := S.h_nonneg
  obtain ⟨-, c2, c3, -, -, -, -, -, -, c10, -⟩ := band_facts R h0
  have hn1 : (1 : ℝ) ≤ n := by exact_mod_cast Nat.one_le_iff_ne_zero.mpr R.order
  obtain ⟨w0, w01, -, -, -⟩ := exWarp_gap R.pos R.lt R.one
  obtain ⟨P, hP⟩ : ∃ P, P = h / ((1 - e1) ^ 2 * κ) := ⟨_, rfl⟩
  rw [← hP] at c10 hν ⊢
  have hP0 : 0 ≤ P := h0.trans c10
  have hPn : P ≤ n * P := by nlinarith
  have fac : ∀ q ∈ bandIdx n, 4 ≤ ‖4 - exBandRoot n .bandpass e0 e1 q.1 q.2‖ ∧
      ‖(⟨r.rnd (r.rnd (2 * 2) - (flBandRoot r m n .bandpass f0 f1 q.1 q.2).re),
        r.rnd (0 - (flBandRoot r m n .bandpass f0 f1 q.1 q.2).im)⟩ : ℂ) -
        (4 - exBandRoot n .bandpass e0 e1 q.1 q.2)‖ ≤ 140 * P * ‖4 - exBandRoot n .bandpass e0 e1 q.1 q.2‖ := by
    intro q hq
    have hj := mem_bandIdx hq
    obtain ⟨-, -, k⟩ := band_root_pole_err (band := .bandpass) hr hm hp R S hf0 hf1 hj q.2
    have hre := (band_margin w0 w01 (exZeta_parts (n := n) .bandpass q.1).1 (exBandRoot_eq n .bandpass e0 e1 q.1 q.2)
      (by positivity : (0 : ℝ) ≤ 1 / n) (exZeta_bounds R.order .bandpass hj).1).1
    rw [← hP] at k
    obtain ⟨f1, f2⟩ := factor_abs_err S2 hσ hr hre k (by linarith)
    refine ⟨f1, f2.trans (mul_le_mul_of_nonneg_right ?_ (norm_nonneg _))⟩
    linarith
  refine ⟨?_, ?_⟩
  · refine one_le_norm_prod (fun x hx => ?_)
    obtain ⟨j, hj, rfl⟩ := List.mem_map.mp hx
    linarith [(fac j hj).1]
  · have hh : h ≤ 1 / 1024 := c3.trans c2
    have k := foldMul_err (m := m) S2 hσ (by linarith) hr (c := 140 * P) (κ := 145 * P) (by positivity) (by linarith)
      (by nlinarith [mul_le_mul_of_nonneg_left hh hP0]) (fun q => 4 - exBandRoot n .bandpass e0 e1 q.1 q.2) (fun q =>
        (⟨r.rnd (r.rnd (2 * 2) - (flBandRoot r m n .bandpass f0 f1 q.1 q.2).re),
          r.rnd (0 - (flBandRoot r m n .bandpass f0 f1 q.1 q.2).im)⟩ : ℂ))
      (bandIdx n) (fun j hj => (fac j hj).2) (fun j hj => by linarith [(fac j hj).1])
      (by rw [bandIdx_length]; push_cast; linarith)
    rw [bandIdx_length] at k
    push_cast at k
    refine k.trans (mul_le_mul_of_nonneg_right ?_ (norm_nonneg _))
    linarith

/-- The computed bandwidth. -/
theorem band_width_err (hr : r.Nearest) (hm : m.Accurate r h) {n : ℕ} {e0 e1 κ : ℝ}
    (R : BandRequest n e0 e1 κ h) (S : Small r h (κ ^ 2 * e0 ^ 2 / 2)) {f0 f1 : ℝ}
    (hf0 : |f0 - e0| ≤ h * e0) (hf1 : |f1 - e1| ≤ h * e1) :
    |r.rnd (flWarp r m f1 - flWarp r m f0) - (exWarp e1 - exWarp e0)| ≤
      9.7 * (1.13 * (h / ((1 - e1) * (e1 - e0)))) * (exWarp e1 - exWarp e0) := by
  have h0 := S.h_nonneg
  obtain ⟨c1, c2, c3, c4, c5, c6, -⟩ := band_facts R h0
  have hpos := R.pos
  have hlt := R.lt
  have hone := R.one
  have hκ2 : κ ^ 2 ≤ 1 := pow_le_one₀ R.kappa.le c1
  have he2 : e0 ^ 2 ≤ e0 := by nlinarith
  have hke := mul_le_of_le_one_left (sq_nonneg e0) hκ2
  have hke0 := mul_nonneg (sq_nonneg κ) (sq_nonneg e0)
  have hσe : κ ^ 2 * e0 ^ 2 / 2 ≤ e0 := by linarith
  have S0 := S.anti hσe
  have S1 := S0.anti hlt.le
  obtain ⟨w0, w06, ew0⟩ := warp_err S0 hr (hlt.trans hone) hf0 c5 hm
  obtain ⟨w1, w16, ew1⟩ := warp_err S1 hr hone hf1 c4 hm
  obtain ⟨-, w01, -, -, w5⟩ := exWarp_gap hpos hlt hone
  have hd : 0 < e1 - e0 := by linarith
  have h1e : 0 < 1 - e1 := by linarith
  have eG : h / ((1 - e1) * (e1 - e0)) = h / (1 - e1) / (e1 - e0) := by rw [div_div]
  rw [eG]
  obtain ⟨H, hH⟩ : ∃ H, H = h / (1 - e1) := ⟨_, rfl⟩
  rw [← hH] at c2 c3 c6 ew1 ⊢
  have hH0 : 0 ≤ H := h0.trans c3
  obtain ⟨B, hB⟩ : ∃ B, B = exWarp e0 + exWarp e1 := ⟨_, rfl⟩
  have hB0 : 0 < B := by rw [hB]; linarith
  have ew0 : |flWarp r m f0 - exWarp e0| ≤ 9.7 * H * exWarp e0 := by
    refine ew0.trans (mul_le_mul_of_nonneg_right ?_ w0.le)
    linarith
  rw [← hB] at w5
  have a1 : |(flWarp r m f1 - flWarp r m f0) - (exWarp e1 - exWarp e0)| ≤ 9.7 * H * B := by
    have e : (flWarp r m f1 - flWarp r m f0) - (exWarp e1 - exWarp e0) =
      (flWarp r m f1 - exWarp e1) - (flWarp r m f0 - exWarp e0) := by ring
    rw [e, hB]
    refine (abs_sub _ _).trans ?_
    linarith
  have hHB : H * B ≤ 1 / 1024 * B := mul_le_mul_of_nonneg_right c2 hB0.le
  have a2 : |flWarp r m f1 - flWarp r m f0| ≤ 1.02 * B := by
    have := abs_add_le ((flWarp r m f1 - flWarp r m f0) - (exWarp e1 - exWarp e0)) (exWarp e1 - exWarp e0)
    rw [sub_add_cancel, abs_of_pos (by linarith : 0 < exWarp e1 - exWarp e0)] at this
    have : exWarp e1 - exWarp e0 ≤ B := by rw [hB]; linarith
    linarith
  have a3 := S.fl a2 (by linarith)
  have a4 := abs_add_le (r.rnd (flWarp r m f1 - flWarp r m f0) - (flWarp r m f1 - flWarp r m f0))
    ((flWarp r m f1 - flWarp r m f0) - (exWarp e1 - exWarp e0))
  rw [sub_add_sub_cancel] at a4
  have a5 : h * B ≤ H * B := mul_le_mul_of_nonneg_right c3 hB0.le
  have a6 : H * B ≤ H / (e1 - e0) * (exWarp e1 - exWarp e0) := by
    rw [div_mul_eq_mul_div, le_div_iff₀ hd]
    have := mul_le_mul_of_nonneg_left w5 hH0
    linarith
  linarith [mul_nonneg hH0 hB0.le]

/-- The error of the gain. -/
theorem band_gain_err (hr : r.Nearest) (hm : m.Accurate r h) (hp : m.AccuratePolar r h) {n : ℕ} {e0 e1 κ : ℝ}
    (R : BandRequest n e0 e1 κ h) (S : Small r h (κ ^ 2 * e0 ^ 2 / 2))
    (S2 : Small r h (((1 - e1) ^ 2 * (e1 - e0) / 20) ^ n)) {f0 f1 : ℝ}
    (hf0 : |f0 - e0| ≤ h * e0) (hf1 : |f1 - e1| ≤ h * e1) (hν : 10000 * (n * (h / ((1 - e1) ^ 2 * κ))) ≤ 1)
    (hG : 1200 * (n * (h / ((1 - e1) * (e1 - e0)))) ≤ 1) :
    exBandGain n e0 e1 ≠ 0 ∧
    |flBandGain r m n f0 f1 - exBandGain n e0 e1| ≤ (17 * (n * (h / ((1 - e1) * (e1 - e0)))) +
      400 * (n * (h / ((1 - e1) ^ 2 * κ)))) * |exBandGain n e0 e1| := by
  have h0 := S.h_nonneg
  obtain ⟨-, c2, c3, -, -, -, -, -, -, c10, -⟩ := band_facts R h0
  have hn1 : (1 : ℝ) ≤ n := by exact_mod_cast Nat.one_le_iff_ne_zero.mpr R.order
  obtain ⟨w0, w01, -, -, -⟩ := exWarp_gap R.pos R.lt R.one
  obtain ⟨s1, s2, s3, s4⟩ := band_sizes R.pos R.lt R.one
  have hd : 0 < e1 - e0 := by linarith [R.lt]
  have h1e : 0 < 1 - e1 := by linarith [R.one]
  have hone : e1 - e0 ≤ 1 := by linarith [R.pos, R.one]
  have hb0 : 0 < exWarp e1 - exWarp e0 := by linarith
  have hE2 : (1 - e1) ^ 2 ≤ 1 := pow_le_one₀ h1e.le (by linarith [R.pos, R.lt])
  obtain ⟨x, hx⟩ : ∃ x, x = (1 - e1) ^ 2 * (e1 - e0) := ⟨_, rfl⟩
  have hx0 : 0 < x := by rw [hx]; positivity
  have hxd : x ≤ e1 - e0 := by rw [hx]; exact mul_le_of_le_one_left hd.le hE2
  have hxE : x ≤ (1 - e1) ^ 2 := by rw [hx]; exact mul_le_of_le_one_right (sq_nonneg _) hone
  rw [← hx] at S2 s1
  have hσ4 : (x / 20) ^ n ≤ 1 / 4 := (pow_le_of_le_one (by positivity) (by linarith) R.order).trans (by linarith)
  obtain ⟨D1, D4⟩ := band_den_err hr hm hp R S S2 hσ4 hf0 hf1 hν
  obtain ⟨D3, D2⟩ := exBandDen_size (n := n) w0 w01
  have bw := band_width_err hr hm R S hf0 hf1
  obtain ⟨P, hP⟩ : ∃ P, P = h / ((1 - e1) ^ 2 * κ) := ⟨_, rfl⟩
  obtain ⟨G, hGd⟩ : ∃ G, G = h / ((1 - e1) * (e1 - e0)) := ⟨_, rfl⟩
  rw [← hP] at c10 hν D4 ⊢
  rw [← hGd] at hG bw ⊢
  have hP0 : 0 ≤ P := h0.trans c10
  have hhG : h ≤ G := by
    rw [hGd, le_div_iff₀ (by positivity)]
    refine mul_le_of_le_one_right h0 (mul_le_one₀ (by linarith [R.pos, R.lt]) hd.le hone)
  have hG0 : 0 ≤ G := h0.trans hhG
  have hPn : P ≤ n * P := by nlinarith
  have hhn : n * h ≤ n * P := mul_le_mul_of_nonneg_left c10 (by linarith)
  obtain ⟨b, hbd⟩ : ∃ b, b = exWarp e1 - exWarp e0 := ⟨_, rfl⟩
  rw [← hbd] at hb0 bw s2 s4
  obtain ⟨T, hT⟩ : ∃ T, T = (4 + exWarp e0) * (4 + exWarp e1) := ⟨_, rfl⟩
  rw [← hT] at s3 s4 D2
  have hT0 : 0 < T := by rw [hT]; exact mul_pos (by linarith) (by linarith)
  have hD0 : 0 < ‖exBandDen n e0 e1‖ := by linarith
  have hbn : 0 < b ^ n := pow_pos hb0 n
  -- sizes
  have z1 : (x / 20) ^ n ≤ b ^ n := pow_le_pow_left₀ (by positivity) (by linarith) n
  have z2 : (x / 20) ^ n ≤ 0.9 * (4 ^ n / ‖exBandDen n e0 e1‖) := by
    have i1 : (x / 20) ^ n = (2 / 5) ^ n * (x / 8) ^ n := by rw [← mul_pow]; congr 1; ring
    have i2 : ((2 / 5 : ℝ)) ^ n ≤ 2 / 5 := pow_le_of_le_one (by norm_num) (by norm_num) R.order
    have i3 : (x / 8) ^ n ≤ (4 / T) ^ n := pow_le_pow_left₀ (by positivity) (by linarith) n
    have i4 : (4 / T) ^ n ≤ 4 ^ n / ‖exBandDen n e0 e1‖ := by
      rw [div_pow]; exact div_le_div_of_nonneg_left (by positivity) hD0 D2
    rw [i1]
    exact mul_le_mul (by linarith) (i3.trans i4) (by positivity) (by norm_num)
  have z3 : (x / 20) ^ n ≤ b ^ n * (4 ^ n / ‖exBandDen n e0 e1‖) := by
    have i3 : (x / 20) ^ n ≤ (4 * b / T) ^ n := pow_le_pow_left₀ (by positivity) (by linarith) n
    refine i3.trans ?_
    rw [div_pow, mul_pow, mul_comm (4 ^ n), mul_div_assoc]
    refine mul_le_mul_of_nonneg_left ?_ hbn.le
    exact div_le_div_of_nonneg_left (by positivity) hD0 D2
  have N1 := num_err (m := m) S2 hσ4 hr R.order (by linarith)
  have n0 : ‖(4 : ℂ) ^ n‖ = 4 ^ n := by rw [norm_pow]; simp
  have n1 : (1 : ℝ) ≤ 4 ^ n := one_le_pow₀ (by norm_num)
  have n4 : ((4 : ℂ) ^ n).im = 0 := by
    have : ((4 : ℂ) ^ n) = (((4 : ℝ) ^ n : ℝ) : ℂ) := by push_cast; rfl
    rw [this, Complex.ofReal_im]
  have q0 : |(4 ^ n / exBandDen n e0 e1).re| = 4 ^ n / ‖exBandDen n e0 e1‖ := by
    rw [re_of_real_quotient n4 D3, n0]
  have q1 := S2.flDiv_rel hσ4 (by linarith) hr (by linarith) (by linarith) N1 D4
    (by rw [n0]; exact n1) D1 (by rw [n0]; exact z2)
  rw [n0] at q1
  have q2 : |(flDiv r (flNum r m n) (flBandDen r m n f0 f1)).re - (4 ^ n / exBandDen n e0 e1).re| ≤
      358 * (n * P) * |(4 ^ n / exBandDen n e0 e1).re| := by
    rw [q0, ← Complex.sub_re]
    refine (Complex.abs_re_le_norm _).trans (q1.trans (mul_le_mul_of_nonneg_right ?_ (by positivity)))
    linarith
  have hq : (4 ^ n / exBandDen n e0 e1).re ≠ 0 := by
    rw [← abs_pos, q0]; positivity
  have p1 := warp_pow_err S2 hm R.order hb0 (by linarith : h ≤ 1.13 * G) (by linarith : n * (1.13 * G) ≤ 1 / 1024) bw z1
  have k := S2.mul_rel hbn.ne' hq (by linarith) (by linarith) p1 q2 (by
    rw [abs_mul, q0, abs_of_pos hbn]
    exact z3)
  have hGx : exBandGain n e0 e1 = b ^ n * (4 ^ n / exBandDen n e0 e1).re := by rw [exBandGain, ← hbd]
  rw [hGx]
  refine ⟨mul_ne_zero hbn.ne' hq, k.trans (mul_le_mul_of_nonneg_right ?_ (abs_nonneg _))⟩
  have : 0 ≤ n * G := by positivity
  linarith

end SciRs.Rounded

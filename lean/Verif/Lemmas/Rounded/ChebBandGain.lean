import Verif.Lemmas.Rounded.BandGain
import Verif.Lemmas.Rounded.ChebBandAccuracy
import Verif.Lemmas.Rounded.ChebGain

/-! # The gain of Chebyshev I band-pass designs in floating point -/

namespace SciRs.Rounded

open SciRs.Spec SciRs.Design

/-- The gain of the prototype, in any arithmetic. -/
noncomputable def Arith.kp (A : Arith) (n : ℕ) (rp : ℝ) : ℝ :=
  let ε := A.sqrt (A.sub (A.powf 10 (A.div rp 10)) 1)
  let k0 := (foldMul A ((stepRange (-(n : ℤ) + 1) n).map (fun j => -A.cheb n rp j))).re
  if n % 2 = 0 then A.div k0 (A.sqrt (A.add 1 (A.mul ε ε))) else k0

/-- The gain and the zeros of the digital filter, in any arithmetic. -/
theorem cheb_band_gain {A : Arith} {n : ℕ} (hn : n ≠ 0) {wn : List ℝ} {rp : ℝ} {rs : Option ℝ} {fs : Option ℝ}
    {g : Zpk} {e0 e1 : ℝ} (he : edges A wn fs = [e0, e1])
    (h : design A n wn (some rp) rs .bandpass .chebyshevI false fs = .ok g) :
    g.k = A.mul (A.mul (A.kp n rp) (A.powi (A.sub (A.warped e1) (A.warped e0)) n))
      (A.cdiv (foldMul A ((stepRange (-(n : ℤ) + 1) n).map (fun _ => A.csub (A.mul 2 2 : ℝ) 0)))
        (foldMul A ((bandIdx n).map (fun q =>
          A.csub (A.mul 2 2 : ℝ) (A.croot n rp .bandpass (A.warped e0) (A.warped e1) q))))).re ∧
    g.z = List.replicate n (A.cdiv (A.cadd (A.mul 2 2 : ℝ) 0) (A.csub (A.mul 2 2 : ℝ) 0)) ++ List.replicate n (-1) := by
  unfold design at h
  simp only [bind_eq_ok] at h
  obtain ⟨w, hw, f, hf, v, hv, f', hf', h⟩ := h
  rw [validate_eq_ok] at hw
  obtain ⟨rfl, -⟩ := hw
  unfold warp at hv
  rw [if_pos rfl, he] at hv
  obtain ⟨u, -, hv⟩ := bind_eq_ok.mp hv
  have hv2 : v = [A.warped e0, A.warped e1] := by
    simpa [pure, Except.pure, Arith.warped] using hv.symm
  subst hv2
  cases hf
  unfold discretise bilinear at h
  rw [if_pos rfl] at h
  obtain ⟨d, hd2, h⟩ := bind_eq_ok.mp h
  cases h
  have hd : ∀ d', relativeDegree (cheb1ap A n rp).z (cheb1ap A n rp).p = .ok d' → d' = n := by
    intro d' hd'
    rw [relativeDegree_ok (by simp [cheb1ap, hn])] at hd'
    cases hd'
    simp [cheb1ap, hn, cheb1Poles, stepRange_sym_length]
  simp only [bandTransform, lp2bp] at hf'
  obtain ⟨d', hd', hf'⟩ := bind_eq_ok.mp hf'
  obtain rfl := hd d' hd'
  cases hf'
  have hrep : ∀ c : ℂ, (stepRange (-(d' : ℤ) + 1) d').map (fun _ => c) = List.replicate d' c := by
    intro c
    rw [List.map_const', stepRange_sym_length]
  have hdd : d = d' := by
    rw [relativeDegree_ok (by simp [cheb1ap, hn, cheb1Poles, splitPm, stepRange_sym_length])] at hd2
    cases hd2
    simp [cheb1ap, hn, cheb1Poles, splitPm, stepRange_sym_length]
  subst hdd
  constructor
  · simp [cheb1ap, hn, cheb1Poles, splitPm, Function.comp_def, Arith.cshift, Arith.cradius, Arith.half, bandIdx,
      Arith.croot, Arith.cheb, Arith.kp, hrep, foldMul]
  · simp [cheb1ap, hn, cheb1Poles, splitPm]

/-- The exact product of the `4 - p`. -/
noncomputable def exCBandDen (n : ℕ) (rp e0 e1 : ℝ) : ℂ :=
  ((bandIdx n).map (fun q => 4 - exCRoot n rp .bandpass e0 e1 q.1 q.2)).prod

/-- The exact gain. -/
noncomputable def exCBandGain (n : ℕ) (rp e0 e1 : ℝ) : ℝ :=
  exKp n rp * (exWarp e1 - exWarp e0) ^ n * (4 ^ n / exCBandDen n rp e0 e1).re

/-- The computed analog pole. -/
noncomputable def flCRoot (r : Rounding) (m : Libm) (n : ℕ) (rp f0 f1 : ℝ) (q : ℤ × Bool) : ℂ :=
  (Arith.ofRounding r m).croot n rp .bandpass ((Arith.ofRounding r m).warped f0) ((Arith.ofRounding r m).warped f1) q

/-- The computed product of the `4 - p`. -/
noncomputable def flCBandDen (r : Rounding) (m : Libm) (n : ℕ) (rp f0 f1 : ℝ) : ℂ :=
  foldMul (.ofRounding r m) ((bandIdx n).map (fun q =>
    (⟨r.rnd (r.rnd (2 * 2) - (flCRoot r m n rp f0 f1 q).re), r.rnd (0 - (flCRoot r m n rp f0 f1 q).im)⟩ : ℂ)))

/-- The computed gain. -/
noncomputable def flCBandGain (r : Rounding) (m : Libm) (n : ℕ) (rp f0 f1 : ℝ) : ℝ :=
  r.rnd (r.rnd (flKp r m n rp * m.powi (r.rnd (flWarp r m f1 - flWarp r m f0)) n) *
    (flDiv r (flNum r m n) (flCBandDen r m n rp f0 f1)).re)

theorem cheb_band_gain_fl {r : Rounding} {m : Libm} {n : ℕ} (hn : n ≠ 0) {wn : List ℝ} {rp : ℝ} {rs : Option ℝ}
    {fs : Option ℝ} {g : Zpk} {f0 f1 : ℝ} (he : edges (.ofRounding r m) wn fs = [f0, f1])
    (h : design (.ofRounding r m) n wn (some rp) rs .bandpass .chebyshevI false fs = .ok g) :
    g.k = flCBandGain r m n rp f0 f1 := by
  rw [(cheb_band_gain hn he h).1]
  rfl

theorem exact_cheb (eps : ℝ) (n : ℕ) (rp : ℝ) (j : ℤ) : (Arith.exact eps).cheb n rp j = exCheb n rp j := by
  have eζ : -Complex.sinh (⟨Real.arsinh (1 / Real.sqrt ((10 : ℝ) ^ (rp / 10) - 1)) / ((n : ℤ) : ℝ),
      Real.pi * (((j : ℤ) : ℝ) / ((2 * n : ℤ) : ℝ))⟩ : ℂ) = exCheb n rp j := by
    rw [exCheb, exMu, exRip, ← mul_div_assoc]; push_cast; rfl
  exact eζ

theorem exact_croot {eps : ℝ} {n : ℕ} {rp : ℝ} {e0 e1 : ℝ} (hW : 0 ≤ exWarp e0 * exWarp e1) (q : ℤ × Bool) :
    (Arith.exact eps).croot n rp .bandpass (exWarp e0) (exWarp e1) q = exCRoot n rp .bandpass e0 e1 q.1 q.2 := by
  have es : (Arith.exact eps).cshift n rp .bandpass (exWarp e0) (exWarp e1) q.1 =
      exCShift n rp .bandpass (exWarp e0) (exWarp e1) q.1 := by
    change (Arith.exact eps).cheb n rp q.1 * (((exWarp e1 - exWarp e0) / 2 : ℝ) : ℂ) = _
    rw [exact_cheb, exCShift, exCZeta, if_pos rfl, mul_comm]
  have er : (Arith.exact eps).cradius n rp .bandpass (exWarp e0) (exWarp e1) q.1 =
      csqrt (exCShift n rp .bandpass (exWarp e0) (exWarp e1) q.1 ^ 2 - ((exWarp e0 * exWarp e1 : ℝ) : ℂ)) := by
    change csqrt ((Arith.exact eps).cshift n rp .bandpass (exWarp e0) (exWarp e1) q.1 ^ 2 -
      ((√(exWarp e0 * exWarp e1) ^ 2 : ℝ) : ℂ)) = _
    rw [es, Real.sq_sqrt hW]
  unfold Arith.croot exCRoot signed
  rw [es, er]
  rfl

theorem cheb_band_gain_ex {eps : ℝ} {n : ℕ} (hn : n ≠ 0) {wn : List ℝ} {rp : ℝ} {rs : Option ℝ} {fs : Option ℝ}
    {g : Zpk} {e0 e1 : ℝ} (he : Spec.edges wn fs = [e0, e1]) (hW : 0 ≤ exWarp e0 * exWarp e1)
    (h : design (.exact eps) n wn (some rp) rs .bandpass .chebyshevI false fs = .ok g) :
    g.k = exCBandGain n rp e0 e1 ∧ g.z = List.replicate n 1 ++ List.replicate n (-1) := by
  have he' : edges (.exact eps) wn fs = [e0, e1] := by
    rw [← he]
    cases fs <;> rfl
  obtain ⟨h1, h2⟩ := cheb_band_gain hn he' h
  have e4 : (((2 * 2 : ℝ)) : ℂ) = 4 := by push_cast; norm_num
  have hrep : (stepRange (-(n : ℤ) + 1) n).map (fun _ => (4 : ℂ)) = List.replicate n 4 := by
    rw [List.map_const', stepRange_sym_length]
  have hf : ∀ l : List ℂ, foldMul (.exact eps) l = l.prod := fun l => Design.foldMul_eq l
  have hk : (Arith.exact eps).kp n rp = exKp n rp := by
    unfold Arith.kp
    simp only [exact_cheb, hf]
    rfl
  constructor
  · rw [h1, hk]
    have ew : ∀ e, (Arith.exact eps).warped e = exWarp e := by
      intro e
      change 2 * 2 * Real.tan (Real.pi * e / 2) = _
      rw [exWarp]; ring
    simp only [hf, ew, exact_croot hW]
    change (exKp n rp * (exWarp e1 - exWarp e0) ^ n) * (((stepRange (-(n : ℤ) + 1) n).map (fun _ =>
      (((2 * 2 : ℝ)) : ℂ) - 0)).prod / ((bandIdx n).map (fun q => (((2 * 2 : ℝ)) : ℂ) -
        exCRoot n rp .bandpass e0 e1 q.1 q.2)).prod).re = _
    simp only [e4, sub_zero, hrep, List.prod_replicate]
    rfl
  · rw [h2]
    change List.replicate n (((((2 * 2 : ℝ)) : ℂ) + 0) / ((((2 * 2 : ℝ)) : ℂ) - 0)) ++ _ = _
    simp

variable {r : Rounding} {m : Libm} {h σ : ℝ}

/-- The product of the `4 - p` taken two by two. -/
theorem exCBandDen_eq (n : ℕ) (rp e0 e1 : ℝ) :
    exCBandDen n rp e0 e1 = ((stepRange (-(n : ℤ) + 1) n).map (fun j =>
      16 - 4 * ((exWarp e1 - exWarp e0 : ℝ) * exCheb n rp j) + (exWarp e0 * exWarp e1 : ℝ))).prod := by
  have key : ∀ j, (4 - exCRoot n rp .bandpass e0 e1 j true) * (4 - exCRoot n rp .bandpass e0 e1 j false) =
      16 - 4 * ((exWarp e1 - exWarp e0 : ℝ) * exCheb n rp j) + (exWarp e0 * exWarp e1 : ℝ) := by
    intro j
    have h := csqrt_sq (exCShift n rp .bandpass (exWarp e0) (exWarp e1) j ^ 2 - ((exWarp e0 * exWarp e1 : ℝ) : ℂ))
    have e : exCShift n rp .bandpass (exWarp e0) (exWarp e1) j =
        ((exWarp e1 - exWarp e0 : ℝ) : ℂ) / 2 * exCheb n rp j := by
      rw [exCShift, exCZeta, if_pos rfl]; push_cast; rfl
    simp only [exCRoot, signed, if_true, Bool.false_eq_true, if_false]
    rw [← sub_eq_zero]
    have h2 := h
    rw [e] at h2 ⊢
    linear_combination -h2
  unfold exCBandDen bandIdx
  rw [List.map_append, List.prod_append, List.map_map, List.map_map]
  simp only [← key]
  induction (stepRange (-(n : ℤ) + 1) n) with
  | nil => simp
  | cons a l ih =>
    simp only [List.map_cons, List.prod_cons, Function.comp]
    rw [← ih]
    simp only [Function.comp_def]
    ring

/-- The exact denominator is real and of bounded size. -/
theorem exCBandDen_size {n : ℕ} {rp e0 e1 Λ : ℝ} (w0 : 0 < exWarp e0) (w01 : exWarp e0 < exWarp e1) (hΛ1 : 1 ≤ Λ)
    (hΛ : ∀ j ∈ stepRange (-(n : ℤ) + 1) n, ‖exCheb n rp j‖ ≤ Λ) :
    (exCBandDen n rp e0 e1).im = 0 ∧ ‖exCBandDen n rp e0 e1‖ ≤ (Λ * ((4 + exWarp e0) * (4 + exWarp e1))) ^ n := by
  rw [exCBandDen_eq]
  constructor
  · refine prod_sym_real n (fun j => ?_)
    rw [map_add, map_sub, map_mul, map_mul, Complex.conj_ofReal, Complex.conj_ofReal, exCheb_conj, map_ofNat,
      map_ofNat]
  · have := norm_prod_le (l := (stepRange (-(n : ℤ) + 1) n).map (fun j =>
      16 - 4 * (((exWarp e1 - exWarp e0 : ℝ) : ℂ) * exCheb n rp j) + ((exWarp e0 * exWarp e1 : ℝ) : ℂ)))
      (c := Λ * ((4 + exWarp e0) * (4 + exWarp e1))) (fun x hx => by
        obtain ⟨j, hj, rfl⟩ := List.mem_map.mp hx
        refine (norm_add_le _ _).trans ?_
        have a1 := norm_sub_le (16 : ℂ) (4 * (((exWarp e1 - exWarp e0 : ℝ) : ℂ) * exCheb n rp j))
        rw [norm_mul, norm_mul, Complex.norm_real, Real.norm_of_nonneg (by linarith)] at a1
        have hW := (mul_pos w0 (w0.trans w01)).le
        rw [Complex.norm_real, Real.norm_of_nonneg hW]
        have n16 : ‖(16 : ℂ)‖ = 16 := by simp
        have n4 : ‖(4 : ℂ)‖ = 4 := by simp
        rw [n16, n4] at a1
        have a2 := mul_le_mul_of_nonneg_left (hΛ j hj) (by linarith : 0 ≤ exWarp e1 - exWarp e0)
        have a3 := le_mul_of_one_le_left hW hΛ1
        have a4 : 0 ≤ Λ * exWarp e0 := mul_nonneg (by linarith) w0.le
        linarith)
    rwa [List.length_map, stepRange_sym_length] at this

/-- The computed denominator. -/
theorem cheb_band_den_err (hr : r.Nearest) (hm : m.Accurate r h) (hm2 : m.AccurateHyp r h) (hp : m.AccuratePolar r h)
    {n : ℕ} {rp e0 e1 κ Λ : ℝ} (R : ChebBandRequest n rp e0 e1 κ Λ h (isStop .bandpass))
    (S : Small r h (chebBandFloor n rp e0 κ Λ)) (S2 : Small r h σ) (hσ : σ ≤ 1 / 4) {f0 f1 : ℝ}
    (hf0 : |f0 - e0| ≤ h * e0) (hf1 : |f1 - e1| ≤ h * e1) {P : ℝ}
    (hP : P = 4 * (n * rippleCond rp ^ 2 * Λ ^ 2 * h) / (κ * (1 - e1) ^ 2)) (hhP : h ≤ P) (hν : 10000 * (n * P) ≤ 1) :
    1 ≤ ‖exCBandDen n rp e0 e1‖ ∧
    ‖flCBandDen r m n rp f0 f1 - exCBandDen n rp e0 e1‖ ≤ 320 * (n * P) * ‖exCBandDen n rp e0 e1‖ := by
  have h0 := S.h_nonneg
  have hn1 : (1 : ℝ) ≤ n := by exact_mod_cast Nat.one_le_iff_ne_zero.mpr R.order
  have hP0 : 0 ≤ P := h0.trans hhP
  have hPn : P ≤ n * P := by nlinarith
  have fac : ∀ q ∈ bandIdx n, 4 ≤ ‖4 - exCRoot n rp .bandpass e0 e1 q.1 q.2‖ ∧
      ‖(⟨r.rnd (r.rnd (2 * 2) - (flCRoot r m n rp f0 f1 q).re), r.rnd (0 - (flCRoot r m n rp f0 f1 q).im)⟩ : ℂ) -
        (4 - exCRoot n rp .bandpass e0 e1 q.1 q.2)‖ ≤ 140 * P * ‖4 - exCRoot n rp .bandpass e0 e1 q.1 q.2‖ := by
    intro q hq
    have hj := mem_bandIdx hq
    obtain ⟨-, -, k⟩ := cheb_band_pole_err (band := .bandpass) hr hm hm2 hp R S hf0 hf1 hj q.2
    have hre := (cheb_band_margin R hj q.2 rfl).1
    have e : 2204 * (n * rippleCond rp ^ 2 * Λ ^ 2 * h / (κ * (1 - e1) ^ 2)) = 551 * P := by rw [hP]; ring
    rw [e] at k
    obtain ⟨f1, f2⟩ := factor_abs_err S2 hσ hr hre k (by linarith)
    refine ⟨f1, f2.trans (mul_le_mul_of_nonneg_right ?_ (norm_nonneg _))⟩
    linarith
  refine ⟨?_, ?_⟩
  · refine one_le_norm_prod (fun x hx => ?_)
    obtain ⟨j, hj, rfl⟩ := List.mem_map.mp hx
    linarith [(fac j hj).1]
  · have hh : h ≤ 1 / 1024 := by linarith
    have k := foldMul_err (m := m) S2 hσ (by linarith) hr (c := 140 * P) (κ := 145 * P) (by positivity) (by linarith)
      (by nlinarith [mul_le_mul_of_nonneg_left hh hP0]) (fun q => 4 - exCRoot n rp .bandpass e0 e1 q.1 q.2) (fun q =>
        (⟨r.rnd (r.rnd (2 * 2) - (flCRoot r m n rp f0 f1 q).re), r.rnd (0 - (flCRoot r m n rp f0 f1 q).im)⟩ : ℂ))
      (bandIdx n) (fun j hj => (fac j hj).2) (fun j hj => by linarith [(fac j hj).1])
      (by rw [bandIdx_length]; push_cast; linarith)
    rw [bandIdx_length] at k
    push_cast at k
    refine k.trans (mul_le_mul_of_nonneg_right ?_ (norm_nonneg _))
    linarith

set_option maxHeartbeats 800000 in
/-- The error of the gain. -/
theorem cheb_band_gain_err (hr : r.Nearest) (hm : m.Accurate r h) (hm2 : m.AccurateHyp r h) (hp : m.AccuratePolar r h)
    {n : ℕ} {rp e0 e1 κ Λ : ℝ} (R : ChebBandRequest n rp e0 e1 κ Λ h (isStop .bandpass))
    (S : Small r h (chebBandFloor n rp e0 κ Λ))
    (S2 : Small r h ((rippleFloor rp ^ 2 * (1 - e1) ^ 2 * (e1 - e0) / (20 * n ^ 2 * Λ)) ^ n)) {n2 : ℕ}
    (R2 : BandRequest n2 e0 e1 κ h) (S3 : Small r h (κ ^ 2 * e0 ^ 2 / 2)) {f0 f1 : ℝ}
    (hf0 : |f0 - e0| ≤ h * e0) (hf1 : |f1 - e1| ≤ h * e1) {P G : ℝ}
    (hP : P = 4 * (n * rippleCond rp ^ 2 * Λ ^ 2 * h) / (κ * (1 - e1) ^ 2)) (hGd : G = h / ((1 - e1) * (e1 - e0)))
    (hν : 10000 * (n * P) ≤ 1) (hG : 1200 * (n * G) ≤ 1) :
    exCBandGain n rp e0 e1 ≠ 0 ∧
    |flCBandGain r m n rp f0 f1 - exCBandGain n rp e0 e1| ≤ (20 * (n * G) + 450 * (n * P)) * |exCBandGain n rp e0 e1| := by
  have h0 := S.h_nonneg
  obtain ⟨H, hH⟩ : ∃ H, H = 4 * (n * rippleCond rp ^ 2 * Λ * h) / (1 - e1) := ⟨_, rfl⟩
  obtain ⟨c1, -, -, -, c5, -, -, -, -, c10, c11, -, -, c14⟩ := chebBand_facts R h0 hH
  obtain ⟨t1, t2, -, -, -⟩ := chebBandFloor_le R
  obtain ⟨-, k1, -, -, -, -, g0, g1, -⟩ := ripple_facts R.ripple
  have hκ := R.kappa
  have hn1 : (1 : ℝ) ≤ n := by exact_mod_cast Nat.one_le_iff_ne_zero.mpr R.order
  obtain ⟨w0, w01, -, -, -⟩ := exWarp_gap R.pos R.lt R.one
  obtain ⟨s1, s2, s3, s4⟩ := band_sizes R.pos R.lt R.one
  have hd : 0 < e1 - e0 := by linarith [R.lt]
  have h1e : 0 < 1 - e1 := by linarith [R.one]
  have h1e1 : 1 - e1 ≤ 1 := by linarith [R.pos, R.lt]
  have hone : e1 - e0 ≤ 1 := by linarith [R.pos, R.one]
  have hb0 : 0 < exWarp e1 - exWarp e0 := by linarith
  have hE2 : (1 - e1) ^ 2 ≤ 1 := pow_le_one₀ h1e.le h1e1
  have ePH : P = H * Λ / (κ * (1 - e1)) := by rw [hP, hH]; field_simp
  rw [← ePH] at c14
  have hH0 : 0 ≤ H := h0.trans c5
  have hHP : H ≤ P := by
    rw [ePH, le_div_iff₀ (by positivity)]
    have i1 : κ * (1 - e1) ≤ 1 := mul_le_one₀ (by linarith [R.kappa_half]) h1e.le h1e1
    have i2 := mul_le_of_le_one_right hH0 i1
    have i3 := le_mul_of_one_le_right hH0 c1
    linarith
  have hnH : n * H ≤ n * P := mul_le_mul_of_nonneg_left hHP (by linarith)
  -- the floor
  obtain ⟨B, hB⟩ : ∃ B, B = (rippleFloor rp / n) ^ n := ⟨_, rfl⟩
  obtain ⟨x, hx⟩ : ∃ x, x = (1 - e1) ^ 2 * (e1 - e0) := ⟨_, rfl⟩
  have hx0 : 0 < x := by rw [hx]; positivity
  have hxd : x ≤ e1 - e0 := by rw [hx]; exact mul_le_of_le_one_left hd.le hE2
  have hxE : x ≤ (1 - e1) ^ 2 := by rw [hx]; exact mul_le_of_le_one_right (sq_nonneg _) hone
  rw [← hx] at s1
  obtain ⟨σ, hσ⟩ : ∃ σ, σ = (rippleFloor rp ^ 2 * (1 - e1) ^ 2 * (e1 - e0) / (20 * n ^ 2 * Λ)) ^ n := ⟨_, rfl⟩
  rw [← hσ] at S2
  have hσB : σ = B * B * (x / (20 * Λ)) ^ n := by
    rw [hσ, hB, ← mul_pow (rippleFloor rp / n), ← mul_pow (rippleFloor rp / n * (rippleFloor rp / n)), hx]
    congr 1
    have hΛn : Λ ≠ 0 := by linarith
    have hnn : (n : ℝ) ≠ 0 := by linarith
    field_simp
  have hγn : rippleFloor rp / n ≤ rippleFloor rp := div_le_self g0.le hn1
  have hγn0 : 0 < rippleFloor rp / n := by positivity
  have hB0 : 0 < B := by rw [hB]; positivity
  have hBγ : B ≤ rippleFloor rp := by
    rw [hB]; exact (pow_le_of_le_one hγn0.le (hγn.trans g1) R.order).trans hγn
  have hB1 : B ≤ 1 := hBγ.trans g1
  have hBB : B * B ≤ B := mul_le_of_le_one_left hB0.le hB1
  have hBB0 : 0 < B * B := by positivity
  obtain ⟨y, hy⟩ : ∃ y, y = x / (20 * Λ) := ⟨_, rfl⟩
  have hy0 : 0 < y := by rw [hy]; positivity
  have hyx : y ≤ x / 20 := by
    rw [hy]; exact div_le_div_of_nonneg_left hx0.le (by norm_num) (by linarith)
  rw [← hy] at hσB
  have hyn : y ^ n ≤ 1 / 80 := (pow_le_of_le_one hy0.le (by linarith) R.order).trans (by linarith)
  have hyn0 : 0 < y ^ n := by positivity
  have hσy : σ ≤ y ^ n := by rw [hσB]; exact mul_le_of_le_one_left hyn0.le (by linarith)
  have hσBB : σ ≤ 0.1 * (B * B) := by
    rw [hσB]
    have := mul_le_mul_of_nonneg_left hyn hBB0.le
    linarith
  have hσ4 : σ ≤ 1 / 4 := by linarith
  -- the parts
  obtain ⟨D1, D4⟩ := cheb_band_den_err hr hm hm2 hp R S S2 hσ4 hf0 hf1 hP c14 hν
  obtain ⟨D3, D2⟩ := exCBandDen_size (n := n) (rp := rp) w0 w01 c1
    (fun j _ => (exCheb_bounds R.order R.ripple j).2.trans R.size)
  have bw := band_width_err hr hm R2 S3 hf0 hf1
  obtain ⟨U1, U2, U3, U4, -⟩ := cheb_unit_err (m := m) R.order R.ripple S2 (by rw [← hB]; linarith) hr c5
    (by linarith : n * H ≤ 1 / 1024) (fun j hj => (cheb_err S hm hm2 R.order R.ripple t1 t2 c11 hj).trans
      (mul_le_mul_of_nonneg_right c10 (norm_nonneg _)))
  rw [← hB] at U1
  have hcc : rippleCond rp * h ≤ rippleCond rp ^ 2 * h := by
    have : rippleCond rp ≤ rippleCond rp ^ 2 := by rw [sq]; exact le_mul_of_one_le_left (by linarith) k1
    exact mul_le_mul_of_nonneg_right this h0
  have eR : Rel (0.8 * H) (flRip r m rp) (exRip rp) := by
    refine (rip_err S hm2 R.ripple t1 (hcc.trans c11)).mono (Real.sqrt_nonneg _) ?_
    have : rippleCond rp ^ 2 * h ≤ n * (rippleCond rp ^ 2 * h) := le_mul_of_one_le_left (by positivity) hn1
    linarith
  obtain ⟨K1, K2, K3⟩ := kp_err R.order R.ripple S2 hσ4 hB0 hBγ hσBB U1 U3 c5 (by linarith) eR U4
  have hBK : B * B ≤ |exKp n rp| := (mul_le_mul hBγ U1 hB0.le g0.le).trans K2
  have K3' : |flKp r m n rp - exKp n rp| ≤ 31 * (n * P) * |exKp n rp| :=
    K3.trans (mul_le_mul_of_nonneg_right (by linarith) (abs_nonneg _))
  rw [← hGd] at bw
  have hhG : h ≤ G := by
    rw [hGd, le_div_iff₀ (by positivity)]
    refine mul_le_of_le_one_right h0 (mul_le_one₀ h1e1 hd.le hone)
  have hG0 : 0 ≤ G := h0.trans hhG
  have hP0 : 0 ≤ P := h0.trans c14
  have hPn : P ≤ n * P := by nlinarith
  have hhn : n * h ≤ n * P := mul_le_mul_of_nonneg_left c14 (by linarith)
  have hhn1 : h ≤ n * P := c14.trans hPn
  have hnG0 : 0 ≤ n * G := by positivity
  obtain ⟨b, hbd⟩ : ∃ b, b = exWarp e1 - exWarp e0 := ⟨_, rfl⟩
  rw [← hbd] at hb0 bw s2 s4
  obtain ⟨T, hT⟩ : ∃ T, T = (4 + exWarp e0) * (4 + exWarp e1) := ⟨_, rfl⟩
  rw [← hT] at s3 s4 D2
  have hT0 : 0 < T := by rw [hT]; exact mul_pos (by linarith) (by linarith)
  obtain ⟨D, hD⟩ : ∃ D, D = exCBandDen n rp e0 e1 := ⟨_, rfl⟩
  rw [← hD] at D1 D2 D3 D4
  have hD0 : 0 < ‖D‖ := by linarith
  have hbn : 0 < b ^ n := pow_pos hb0 n
  have hΛ0 : 0 < Λ := by linarith
  -- sizes
  have z1 : y ^ n ≤ b ^ n := pow_le_pow_left₀ hy0.le (by linarith) n
  have i4 : (4 / (Λ * T)) ^ n ≤ 4 ^ n / ‖D‖ := by
    rw [div_pow]; exact div_le_div_of_nonneg_left (by positivity) hD0 D2
  have z2 : y ^ n ≤ 0.9 * (4 ^ n / ‖D‖) := by
    have i1 : y ^ n = (2 / 5) ^ n * (x / (8 * Λ)) ^ n := by
      rw [← mul_pow, hy]; congr 1; field_simp; norm_num
    have i2 : ((2 / 5 : ℝ)) ^ n ≤ 2 / 5 := pow_le_of_le_one (by norm_num) (by norm_num) R.order
    have i3 : (x / (8 * Λ)) ^ n ≤ (4 / (Λ * T)) ^ n := by
      refine pow_le_pow_left₀ (by positivity) ?_ n
      have e1 : x / (8 * Λ) = x / 8 / Λ := by rw [div_div]
      have e2 : 4 / (Λ * T) = 4 / T / Λ := by rw [div_div, mul_comm]
      rw [e1, e2]
      exact div_le_div_of_nonneg_right (by linarith) hΛ0.le
    rw [i1]
    exact mul_le_mul (by linarith) (i3.trans i4) (by positivity) (by norm_num)
  have z3 : y ^ n ≤ b ^ n * (4 ^ n / ‖D‖) := by
    have i3 : y ^ n ≤ (b * (4 / (Λ * T))) ^ n := by
      refine pow_le_pow_left₀ hy0.le ?_ n
      have e1 : y = x / 20 / Λ := by rw [hy, div_div]
      have e2 : b * (4 / (Λ * T)) = 4 * b / T / Λ := by field_simp
      rw [e1, e2]
      exact div_le_div_of_nonneg_right (by linarith) hΛ0.le
    rw [mul_pow] at i3
    exact i3.trans (mul_le_mul_of_nonneg_left i4 hbn.le)
  have N1 := num_err (m := m) S2 hσ4 hr R.order (by linarith)
  have n0 : ‖(4 : ℂ) ^ n‖ = 4 ^ n := by rw [norm_pow]; simp
  have n1 : (1 : ℝ) ≤ 4 ^ n := one_le_pow₀ (by norm_num)
  have n4 : ((4 : ℂ) ^ n).im = 0 := by
    have : ((4 : ℂ) ^ n) = (((4 : ℝ) ^ n : ℝ) : ℂ) := by push_cast; rfl
    rw [this, Complex.ofReal_im]
  have q0 : |(4 ^ n / D).re| = 4 ^ n / ‖D‖ := by
    rw [re_of_real_quotient n4 D3, n0]
  have q1 := S2.flDiv_rel hσ4 (by linarith) hr (by linarith) (by linarith) N1 D4
    (by rw [n0]; exact n1) D1 (by rw [n0]; exact hσy.trans z2)
  rw [n0] at q1
  have q2 : |(flDiv r (flNum r m n) (flCBandDen r m n rp f0 f1)).re - (4 ^ n / D).re| ≤
      358 * (n * P) * |(4 ^ n / D).re| := by
    rw [q0, ← Complex.sub_re]
    refine (Complex.abs_re_le_norm _).trans (q1.trans (mul_le_mul_of_nonneg_right ?_ (by positivity)))
    linarith
  have hq : (4 ^ n / D).re ≠ 0 := by
    rw [← abs_pos, q0]; positivity
  have p1 := powi_err S2 hm R.order hb0 (by linarith : h ≤ 1.13 * G) (by linarith : n * (1.13 * G) ≤ 1 / 1024) bw
    (hσy.trans z1)
  have hσK : σ ≤ |exKp n rp| * y ^ n := by
    rw [hσB]; exact mul_le_mul_of_nonneg_right hBK hyn0.le
  have p2 := S2.mul_rel (y := b ^ n) (y' := m.powi (r.rnd (flWarp r m f1 - flWarp r m f0)) n)
    (β := 15.5 * (n * G)) K1 hbn.ne' (by linarith) (by linarith) K3'
    (by rw [abs_of_pos hbn]; exact p1.trans (mul_le_mul_of_nonneg_right (by linarith) hbn.le)) (by
      rw [abs_mul, abs_of_pos hbn]
      exact hσK.trans (mul_le_mul_of_nonneg_left z1 (abs_nonneg _)))
  have k := S2.mul_rel (α := 33 * (n * P) + 17.1 * (n * G)) (mul_ne_zero K1 hbn.ne') hq (by linarith) (by linarith)
    (p2.trans (mul_le_mul_of_nonneg_right (by linarith) (abs_nonneg _))) q2 (by
      rw [abs_mul, abs_mul, q0, abs_of_pos hbn, mul_assoc]
      exact hσK.trans (mul_le_mul_of_nonneg_left z3 (abs_nonneg _)))
  have hGx : exCBandGain n rp e0 e1 = exKp n rp * b ^ n * (4 ^ n / D).re := by rw [exCBandGain, ← hbd, ← hD]
  rw [hGx]
  refine ⟨mul_ne_zero (mul_ne_zero K1 hbn.ne') hq, k.trans (mul_le_mul_of_nonneg_right ?_ (abs_nonneg _))⟩
  linarith

end SciRs.Rounded

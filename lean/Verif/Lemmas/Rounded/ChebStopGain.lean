import Verif.Lemmas.Rounded.ChebBandGain
import Verif.Lemmas.Rounded.StopGain

/-! # The gain of Chebyshev I band-stop designs in floating point -/

namespace SciRs.Rounded

open SciRs.Spec SciRs.Design

/-- The gain and the zeros of the digital filter, in any arithmetic. -/
theorem cheb_stop_gain {A : Arith} {n : ℕ} (hn : n ≠ 0) {wn : List ℝ} {rp : ℝ} {rs : Option ℝ} {fs : Option ℝ}
    {g : Zpk} {e0 e1 : ℝ} (he : edges A wn fs = [e0, e1])
    (h : design A n wn (some rp) rs .bandstop .chebyshevI false fs = .ok g) :
    g.k = A.mul (A.mul (A.kp n rp) (A.div 1 (foldMul A ((stepRange (-(n : ℤ) + 1) n).map (fun j =>
        A.cmul (-1) (A.cheb n rp j)))).re))
      (A.cdiv (foldMul A ((bandIdx n).map (fun q =>
          A.csub (A.mul 2 2 : ℝ) (A.notch (A.warped e0) (A.warped e1) q.2))))
        (foldMul A ((bandIdx n).map (fun q =>
          A.csub (A.mul 2 2 : ℝ) (A.croot n rp .bandstop (A.warped e0) (A.warped e1) q))))).re ∧
    g.z = (bandIdx n).map (fun q => A.bilin (A.notch (A.warped e0) (A.warped e1) q.2)) := by
  unfold design at h
  simp only [bind_eq_ok] at h
  obtain ⟨w, hw, f, hf, v, hv, f', hf', h⟩ := h
  rw [validate_eq_ok] at hw
  obtain ⟨rfl, -⟩ := hw
  unfold warp at hv
  rw [if_pos rfl, he] at hv
  obtain ⟨u, -, hv⟩ := bind_eq_ok.mp hv
  have hv2 : v = [A.warped e0, A.warped e1] := by
    simpa [pure, Except.pure, Arith.warped] using hv.symm
  subst hv2
  cases hf
  unfold discretise bilinear at h
  rw [if_pos rfl] at h
  obtain ⟨d, hd2, h⟩ := bind_eq_ok.mp h
  cases h
  have hd : ∀ d', relativeDegree (cheb1ap A n rp).z (cheb1ap A n rp).p = .ok d' → d' = n := by
    intro d' hd'
    rw [relativeDegree_ok (by simp [cheb1ap, hn])] at hd'
    cases hd'
    simp [cheb1ap, hn, cheb1Poles, stepRange_sym_length]
  simp only [bandTransform, lp2bs] at hf'
  obtain ⟨d', hd', hf'⟩ := bind_eq_ok.mp hf'
  obtain rfl := hd d' hd'
  cases hf'
  have hdd : d = 0 := by
    rw [relativeDegree_ok (by simp [cheb1ap, hn, cheb1Poles, splitPm, bsZeros, stepRange_sym_length])] at hd2
    cases hd2
    simp [cheb1ap, hn, cheb1Poles, splitPm, bsZeros, stepRange_sym_length]
  subst hdd
  rw [map_bandIdx d' (fun b => A.csub (A.mul 2 2 : ℝ) (A.notch (A.warped e0) (A.warped e1) b)),
    map_bandIdx d' (fun b => A.bilin (A.notch (A.warped e0) (A.warped e1) b))]
  constructor
  · simp [cheb1ap, hn, cheb1Poles, splitPm, bsZeros, Function.comp_def, Arith.cshift, Arith.cradius, Arith.half, bandIdx,
      Arith.croot, Arith.cheb, Arith.kp, foldMul, Arith.notch]
  · simp [cheb1ap, hn, cheb1Poles, bsZeros, Arith.notch, Arith.bilin]

/-- The exact product of the `4 - p`. -/
noncomputable def exCStopDen (n : ℕ) (rp e0 e1 : ℝ) : ℂ :=
  ((bandIdx n).map (fun q => 4 - exCRoot n rp .bandstop e0 e1 q.1 q.2)).prod

/-- The exact gain. -/
noncomputable def exCStopGain (n : ℕ) (rp e0 e1 : ℝ) : ℝ :=
  exKp n rp * (1 / (exCUnit n rp).re) * (exStopNum n e0 e1 / exCStopDen n rp e0 e1).re

/-- The computed analog pole. -/
noncomputable def flCStopRoot (r : Rounding) (m : Libm) (n : ℕ) (rp f0 f1 : ℝ) (q : ℤ × Bool) : ℂ :=
  (Arith.ofRounding r m).croot n rp .bandstop ((Arith.ofRounding r m).warped f0) ((Arith.ofRounding r m).warped f1) q

/-- The computed product of the `4 - p`. -/
noncomputable def flCStopDen (r : Rounding) (m : Libm) (n : ℕ) (rp f0 f1 : ℝ) : ℂ :=
  foldMul (.ofRounding r m) ((bandIdx n).map (fun q =>
    (⟨r.rnd (r.rnd (2 * 2) - (flCStopRoot r m n rp f0 f1 q).re), r.rnd (0 - (flCStopRoot r m n rp f0 f1 q).im)⟩ : ℂ)))

/-- The computed gain. -/
noncomputable def flCStopGain (r : Rounding) (m : Libm) (n : ℕ) (rp f0 f1 : ℝ) : ℝ :=
  r.rnd (r.rnd (flKp r m n rp * r.rnd (1 / (flCUnit' r m n rp).re)) *
    (flDiv r (flStopNum r m n f0 f1) (flCStopDen r m n rp f0 f1)).re)

theorem cheb_stop_gain_fl {r : Rounding} {m : Libm} {n : ℕ} (hn : n ≠ 0) {wn : List ℝ} {rp : ℝ} {rs : Option ℝ}
    {fs : Option ℝ} {g : Zpk} {f0 f1 : ℝ} (he : edges (.ofRounding r m) wn fs = [f0, f1])
    (h : design (.ofRounding r m) n wn (some rp) rs .bandstop .chebyshevI false fs = .ok g) :
    g.k = flCStopGain r m n rp f0 f1 ∧ g.z = (bandIdx n).map (fun q => flBilinear r (flNotch r m f0 f1 q.2)) := by
  obtain ⟨h1, h2⟩ := cheb_stop_gain hn he h
  exact ⟨h1, h2⟩

theorem exact_stop_croot {eps : ℝ} {n : ℕ} {rp : ℝ} {e0 e1 : ℝ} (hW : 0 ≤ exWarp e0 * exWarp e1) (q : ℤ × Bool) :
    (Arith.exact eps).croot n rp .bandstop (exWarp e0) (exWarp e1) q = exCRoot n rp .bandstop e0 e1 q.1 q.2 := by
  have es : (Arith.exact eps).cshift n rp .bandstop (exWarp e0) (exWarp e1) q.1 =
      exCShift n rp .bandstop (exWarp e0) (exWarp e1) q.1 := by
    change (⟨0, (exWarp e1 - exWarp e0) / 2⟩ : ℂ) / (Arith.exact eps).cheb n rp q.1 * (-Complex.I) = _
    have : (⟨0, (exWarp e1 - exWarp e0) / 2⟩ : ℂ) = (((exWarp e1 - exWarp e0) / 2 : ℝ) : ℂ) * Complex.I := by
      apply Complex.ext <;> simp
    rw [exact_cheb, exCShift, exCZeta, if_neg (by simp), this, div_eq_mul_inv]
    linear_combination -(((exWarp e1 - exWarp e0) / 2 : ℝ) : ℂ) * (exCheb n rp q.1)⁻¹ * Complex.I_mul_I
  have er : (Arith.exact eps).cradius n rp .bandstop (exWarp e0) (exWarp e1) q.1 =
      csqrt (exCShift n rp .bandstop (exWarp e0) (exWarp e1) q.1 ^ 2 - ((exWarp e0 * exWarp e1 : ℝ) : ℂ)) := by
    change csqrt ((Arith.exact eps).cshift n rp .bandstop (exWarp e0) (exWarp e1) q.1 ^ 2 -
      ((√(exWarp e0 * exWarp e1) ^ 2 : ℝ) : ℂ)) = _
    rw [es, Real.sq_sqrt hW]
  unfold Arith.croot exCRoot signed
  rw [es, er]
  rfl

theorem cheb_stop_gain_ex {eps : ℝ} {n : ℕ} (hn : n ≠ 0) {wn : List ℝ} {rp : ℝ} {rs : Option ℝ} {fs : Option ℝ}
    {g : Zpk} {e0 e1 : ℝ} (he : Spec.edges wn fs = [e0, e1]) (hW : 0 ≤ exWarp e0 * exWarp e1)
    (h : design (.exact eps) n wn (some rp) rs .bandstop .chebyshevI false fs = .ok g) :
    g.k = exCStopGain n rp e0 e1 ∧ g.z = (bandIdx n).map (fun q => exBilin (exNotch e0 e1 q.2)) := by
  have he' : edges (.exact eps) wn fs = [e0, e1] := by
    rw [← he]
    cases fs <;> rfl
  obtain ⟨h1, h2⟩ := cheb_stop_gain hn he' h
  have e4 : (((2 * 2 : ℝ)) : ℂ) = 4 := by push_cast; norm_num
  have hf : ∀ l : List ℂ, foldMul (.exact eps) l = l.prod := fun l => Design.foldMul_eq l
  have hk : (Arith.exact eps).kp n rp = exKp n rp := by
    unfold Arith.kp
    simp only [exact_cheb, hf]
    rfl
  have ew : ∀ e, (Arith.exact eps).warped e = exWarp e := by
    intro e
    change 2 * 2 * Real.tan (Real.pi * e / 2) = _
    rw [exWarp]; ring
  have eb : ∀ p, (Arith.exact eps).bilin p = exBilin p := by
    intro p
    change (((2 * 2 : ℝ) : ℂ) + p) / (((2 * 2 : ℝ) : ℂ) - p) = _
    rw [exBilin, e4]
  have en : ∀ b, (Arith.exact eps).notch (exWarp e0) (exWarp e1) b = exNotch e0 e1 b := fun b => rfl
  constructor
  · rw [h1, hk]
    simp only [hf, ew, en, exact_stop_croot hW, exact_cheb]
    change (exKp n rp * (1 / (((stepRange (-(n : ℤ) + 1) n).map (fun j => -1 * exCheb n rp j)).prod).re)) *
      ((((bandIdx n).map (fun q => (((2 * 2 : ℝ)) : ℂ) - exNotch e0 e1 q.2)).prod) /
        ((bandIdx n).map (fun q => (((2 * 2 : ℝ)) : ℂ) - exCRoot n rp .bandstop e0 e1 q.1 q.2)).prod).re = _
    simp only [e4, neg_one_mul]
    rfl
  · rw [h2]
    simp only [ew, en, eb]

variable {r : Rounding} {m : Libm} {h σ : ℝ}

/-- The product of the `4 - p` taken two by two. -/
theorem exCStopDen_eq (n : ℕ) (rp e0 e1 : ℝ) :
    exCStopDen n rp e0 e1 = ((stepRange (-(n : ℤ) + 1) n).map (fun j =>
      16 - 4 * ((exWarp e1 - exWarp e0 : ℝ) * exCZeta n rp .bandstop j) + (exWarp e0 * exWarp e1 : ℝ))).prod := by
  have key : ∀ j, (4 - exCRoot n rp .bandstop e0 e1 j true) * (4 - exCRoot n rp .bandstop e0 e1 j false) =
      16 - 4 * ((exWarp e1 - exWarp e0 : ℝ) * exCZeta n rp .bandstop j) + (exWarp e0 * exWarp e1 : ℝ) := by
    intro j
    have h := csqrt_sq (exCShift n rp .bandstop (exWarp e0) (exWarp e1) j ^ 2 - ((exWarp e0 * exWarp e1 : ℝ) : ℂ))
    have e : exCShift n rp .bandstop (exWarp e0) (exWarp e1) j =
        ((exWarp e1 - exWarp e0 : ℝ) : ℂ) / 2 * exCZeta n rp .bandstop j := by
      rw [exCShift]; push_cast; rfl
    simp only [exCRoot, signed, if_true, Bool.false_eq_true, if_false]
    rw [← sub_eq_zero]
    have h2 := h
    rw [e] at h2 ⊢
    linear_combination -h2
  unfold exCStopDen bandIdx
  rw [List.map_append, List.prod_append, List.map_map, List.map_map]
  simp only [← key]
  induction (stepRange (-(n : ℤ) + 1) n) with
  | nil => simp
  | cons a l ih =>
    simp only [List.map_cons, List.prod_cons, Function.comp]
    rw [← ih]
    simp only [Function.comp_def]
    ring

/-- The exact denominator is real and of bounded size. -/
theorem exCStopDen_size {n : ℕ} {rp e0 e1 Λ : ℝ} (w0 : 0 < exWarp e0) (w01 : exWarp e0 < exWarp e1) (hΛ1 : 1 ≤ Λ)
    (hΛ : ∀ j ∈ stepRange (-(n : ℤ) + 1) n, ‖exCZeta n rp .bandstop j‖ ≤ Λ) :
    (exCStopDen n rp e0 e1).im = 0 ∧ ‖exCStopDen n rp e0 e1‖ ≤ (Λ * ((4 + exWarp e0) * (4 + exWarp e1))) ^ n := by
  rw [exCStopDen_eq]
  constructor
  · refine prod_sym_real n (fun j => ?_)
    rw [map_add, map_sub, map_mul, map_mul, Complex.conj_ofReal, Complex.conj_ofReal, exCZeta, if_neg (by simp), map_inv₀,
      exCheb_conj, map_ofNat, map_ofNat, exCZeta, if_neg (by simp)]
  · have := norm_prod_le (l := (stepRange (-(n : ℤ) + 1) n).map (fun j =>
      16 - 4 * (((exWarp e1 - exWarp e0 : ℝ) : ℂ) * exCZeta n rp .bandstop j) + ((exWarp e0 * exWarp e1 : ℝ) : ℂ)))
      (c := Λ * ((4 + exWarp e0) * (4 + exWarp e1))) (fun x hx => by
        obtain ⟨j, hj, rfl⟩ := List.mem_map.mp hx
        refine (norm_add_le _ _).trans ?_
        have a1 := norm_sub_le (16 : ℂ) (4 * (((exWarp e1 - exWarp e0 : ℝ) : ℂ) * exCZeta n rp .bandstop j))
        rw [norm_mul, norm_mul, Complex.norm_real, Real.norm_of_nonneg (by linarith)] at a1
        have hW := (mul_pos w0 (w0.trans w01)).le
        rw [Complex.norm_real, Real.norm_of_nonneg hW]
        have n16 : ‖(16 : ℂ)‖ = 16 := by simp
        have n4 : ‖(4 : ℂ)‖ = 4 := by simp
        rw [n16, n4] at a1
        have a2 := mul_le_mul_of_nonneg_left (hΛ j hj) (by linarith : 0 ≤ exWarp e1 - exWarp e0)
        have a3 := le_mul_of_one_le_left hW hΛ1
        have a4 : 0 ≤ Λ * exWarp e0 := mul_nonneg (by linarith) w0.le
        linarith)
    rwa [List.length_map, stepRange_sym_length] at this

/-- A rounded inverse. -/
theorem Small.inv_rel (S : Small r h σ) {a b β : ℝ} (ha : a ≠ 0) (hβ : β ≤ 1 / 20) (hb : |b - a| ≤ β * |a|)
    (hσ : σ ≤ |1 / a|) : |r.rnd (1 / b) - 1 / a| ≤ (1.06 * β + 1.12 * h) * |1 / a| := by
  rcases lt_or_gt_of_ne ha with h | h
  · have e1 : (-1 : ℝ) / -a = 1 / a := neg_div_neg_eq 1 a
    have e2 : (-1 : ℝ) / -b = 1 / b := neg_div_neg_eq 1 b
    have k := S.div_rel (x := -1) (x' := -1) (s := -a) (s' := -b) (α := 0) (β := β) (by norm_num) (by linarith)
      (by norm_num) hβ (by simp) (by
        have : -b - -a = -(b - a) := by ring
        rw [this, abs_neg, ← abs_of_neg h]; exact hb) (by rw [e1]; exact hσ)
    rw [e1, e2, zero_add] at k
    exact k
  · have k := S.div_rel (x := 1) (x' := 1) (s := a) (s' := b) (α := 0) (β := β) (by norm_num) h
      (by norm_num) hβ (by simp) (by rw [abs_of_pos h] at hb; exact hb) hσ
    rw [zero_add] at k
    exact k

set_option maxHeartbeats 800000 in
/-- The error of the gain. -/
theorem cheb_stop_gain_err (hr : r.Nearest) (hm : m.Accurate r h) (hm2 : m.AccurateHyp r h) (hp : m.AccuratePolar r h)
    {n : ℕ} {rp e0 e1 κ Λ : ℝ} (R : ChebBandRequest n rp e0 e1 κ Λ h (isStop .bandstop))
    (S : Small r h (chebBandFloor n rp e0 κ Λ))
    (S2 : Small r h ((rippleFloor rp ^ 2 * (1 - e1) ^ 2 * (e1 - e0) / (20 * n ^ 2 * Λ)) ^ n)) {n2 : ℕ}
    (R2 : BandRequest n2 e0 e1 κ h) (S3 : Small r h (κ ^ 2 * e0 ^ 2 / 2)) {f0 f1 : ℝ}
    (hf0 : |f0 - e0| ≤ h * e0) (hf1 : |f1 - e1| ≤ h * e1) {P : ℝ}
    (hP : P = 4 * (n * rippleCond rp ^ 2 * Λ ^ 2 * h) / (κ * (1 - e1) ^ 2)) (hν : 10000 * (n * P) ≤ 1) :
    (rippleFloor rp ^ 2 * (1 - e1) ^ 2 * (e1 - e0) / (20 * n ^ 2 * Λ)) ^ n ≤ |exCStopGain n rp e0 e1| ∧
    |flCStopGain r m n rp f0 f1 - exCStopGain n rp e0 e1| ≤ 830 * (n * P) * |exCStopGain n rp e0 e1| := by
  have h0 := S.h_nonneg
  obtain ⟨H, hH⟩ : ∃ H, H = 4 * (n * rippleCond rp ^ 2 * Λ * h) / (1 - e1) := ⟨_, rfl⟩
  obtain ⟨c1, -, -, -, c5, -, -, -, -, c10, c11, -, -, c14⟩ := chebBand_facts R h0 hH
  obtain ⟨t1, t2, -, -, -⟩ := chebBandFloor_le R
  obtain ⟨-, k1, -, -, -, -, g0, g1, -⟩ := ripple_facts R.ripple
  have hκ := R.kappa
  have hn1 : (1 : ℝ) ≤ n := by exact_mod_cast Nat.one_le_iff_ne_zero.mpr R.order
  obtain ⟨w0, w01, -, -, -⟩ := exWarp_gap R.pos R.lt R.one
  obtain ⟨s1, -, s3, -⟩ := band_sizes R.pos R.lt R.one
  have hd : 0 < e1 - e0 := by linarith [R.lt]
  have h1e : 0 < 1 - e1 := by linarith [R.one]
  have h1e1 : 1 - e1 ≤ 1 := by linarith [R.pos, R.lt]
  have hone : e1 - e0 ≤ 1 := by linarith [R.pos, R.one]
  have hE2 : (1 - e1) ^ 2 ≤ 1 := pow_le_one₀ h1e.le h1e1
  have hW : 0 < exWarp e0 * exWarp e1 := mul_pos w0 (w0.trans w01)
  have ePH : P = H * Λ / (κ * (1 - e1)) := by rw [hP, hH]; field_simp
  rw [← ePH] at c14
  have hH0 : 0 ≤ H := h0.trans c5
  have hHP : H ≤ P := by
    rw [ePH, le_div_iff₀ (by positivity)]
    have i1 : κ * (1 - e1) ≤ 1 := mul_le_one₀ (by linarith [R.kappa_half]) h1e.le h1e1
    have i2 := mul_le_of_le_one_right hH0 i1
    have i3 := le_mul_of_one_le_right hH0 c1
    linarith
  have hnH : n * H ≤ n * P := mul_le_mul_of_nonneg_left hHP (by linarith)
  have hP0 : 0 ≤ P := h0.trans c14
  have hPn : P ≤ n * P := by nlinarith
  have hhn1 : h ≤ n * P := c14.trans hPn
  have hPz : h / ((1 - e1) ^ 2 * κ) ≤ P := by
    rw [hP, mul_comm ((1 - e1) ^ 2) κ]
    refine div_le_div_of_nonneg_right ?_ (by positivity)
    have hC : 1 ≤ n * rippleCond rp ^ 2 * Λ ^ 2 := one_le_mul_of_one_le_of_one_le
      (one_le_mul_of_one_le_of_one_le hn1 (one_le_pow₀ k1)) (one_le_pow₀ c1)
    have := le_mul_of_one_le_left h0 hC
    linarith
  -- the floor
  obtain ⟨B, hB⟩ : ∃ B, B = (rippleFloor rp / n) ^ n := ⟨_, rfl⟩
  obtain ⟨x, hx⟩ : ∃ x, x = (1 - e1) ^ 2 * (e1 - e0) := ⟨_, rfl⟩
  have hx0 : 0 < x := by rw [hx]; positivity
  have hxE : x ≤ (1 - e1) ^ 2 := by rw [hx]; exact mul_le_of_le_one_right (sq_nonneg _) hone
  rw [← hx] at s1
  obtain ⟨σ, hσ⟩ : ∃ σ, σ = (rippleFloor rp ^ 2 * (1 - e1) ^ 2 * (e1 - e0) / (20 * n ^ 2 * Λ)) ^ n := ⟨_, rfl⟩
  rw [← hσ] at S2 ⊢
  have hσB : σ = B * B * (x / (20 * Λ)) ^ n := by
    rw [hσ, hB, ← mul_pow (rippleFloor rp / n), ← mul_pow (rippleFloor rp / n * (rippleFloor rp / n)), hx]
    congr 1
    have hΛn : Λ ≠ 0 := by linarith
    have hnn : (n : ℝ) ≠ 0 := by linarith
    field_simp
  have hγn : rippleFloor rp / n ≤ rippleFloor rp := div_le_self g0.le hn1
  have hγn0 : 0 < rippleFloor rp / n := by positivity
  have hB0 : 0 < B := by rw [hB]; positivity
  have hBγ : B ≤ rippleFloor rp := by
    rw [hB]; exact (pow_le_of_le_one hγn0.le (hγn.trans g1) R.order).trans hγn
  have hB1 : B ≤ 1 := hBγ.trans g1
  have hBB : B * B ≤ B := mul_le_of_le_one_left hB0.le hB1
  have hBB0 : 0 < B * B := by positivity
  obtain ⟨y, hy⟩ : ∃ y, y = x / (20 * Λ) := ⟨_, rfl⟩
  have hy0 : 0 < y := by rw [hy]; positivity
  have hyx : y ≤ x / 20 := by
    rw [hy]; exact div_le_div_of_nonneg_left hx0.le (by norm_num) (by linarith)
  rw [← hy] at hσB
  have hyn : y ^ n ≤ 1 / 20 := (pow_le_of_le_one hy0.le (by linarith) R.order).trans (by linarith)
  have hyn0 : 0 < y ^ n := by positivity
  have hσy : σ ≤ y ^ n := by rw [hσB]; exact mul_le_of_le_one_left hyn0.le (by linarith)
  have hσBB : σ ≤ 0.1 * (B * B) := by
    rw [hσB]
    have := mul_le_mul_of_nonneg_left hyn hBB0.le
    linarith
  have hσ4 : σ ≤ 1 / 4 := by linarith
  have hΛ0 : 0 < Λ := by linarith
  -- the parts
  obtain ⟨D1, D4⟩ := factors_err (m := m) hr S2 hσ4 c14 hPn (by linarith) hν
    (p := fun q => exCRoot n rp .bandstop e0 e1 q.1 q.2) (p' := fun q => flCStopRoot r m n rp f0 f1 q)
    (fun q hq => (cheb_band_margin R (mem_bandIdx hq) q.2 rfl).1)
    (fun q hq => by
      obtain ⟨-, -, k⟩ := cheb_band_pole_err (band := .bandstop) hr hm hm2 hp R S hf0 hf1 (mem_bandIdx hq) q.2
      have e : 2204 * (n * rippleCond rp ^ 2 * Λ ^ 2 * h / (κ * (1 - e1) ^ 2)) = 551 * P := by rw [hP]; ring
      rw [e] at k
      exact k)
  obtain ⟨N1, N4⟩ := factors_err (m := m) hr S2 hσ4 c14 hPn (by linarith) hν (p := fun q => exNotch e0 e1 q.2)
    (p' := fun q => flNotch r m f0 f1 q.2) (fun q hq => le_refl 0)
    (fun q hq => (notch_err hr hm R2 S3 hf0 hf1 q.2).trans (mul_le_mul_of_nonneg_left hPz (by norm_num)))
  change 1 ≤ ‖exCStopDen n rp e0 e1‖ at D1
  change ‖flCStopDen r m n rp f0 f1 - exCStopDen n rp e0 e1‖ ≤ 320 * (n * P) * ‖exCStopDen n rp e0 e1‖ at D4
  change 1 ≤ ‖exStopNum n e0 e1‖ at N1
  change ‖flStopNum r m n f0 f1 - exStopNum n e0 e1‖ ≤ 320 * (n * P) * ‖exStopNum n e0 e1‖ at N4
  obtain ⟨D3, D2⟩ := exCStopDen_size (n := n) (rp := rp) w0 w01 c1
    (fun j hj => (exCZeta_bounds R.order R.ripple R.size R.size_inv .bandstop hj).2.2.1)
  have N2 := exStopNum_eq hW.le n
  have N3 : (exStopNum n e0 e1).im = 0 := by rw [N2, Complex.ofReal_im]
  have n0 : 4 ^ n ≤ ‖exStopNum n e0 e1‖ := by
    rw [N2, Complex.norm_real, Real.norm_of_nonneg (by positivity)]
    exact pow_le_pow_left₀ (by norm_num) (by linarith) n
  obtain ⟨U1, -, U3, U4, U5⟩ := cheb_unit_err (m := m) R.order R.ripple S2 (by rw [← hB]; linarith) hr c5
    (by linarith : n * H ≤ 1 / 1024) (fun j hj => (cheb_err S hm hm2 R.order R.ripple t1 t2 c11 hj).trans
      (mul_le_mul_of_nonneg_right c10 (norm_nonneg _)))
  rw [← hB] at U1
  have U2 : ‖exCUnit n rp‖ ≤ Λ ^ n := by
    have := norm_prod_le (l := (stepRange (-(n : ℤ) + 1) n).map (fun j => -exCheb n rp j)) (c := Λ) (fun x hx => by
      obtain ⟨j, hj, rfl⟩ := List.mem_map.mp hx
      rw [norm_neg]; exact (exCheb_bounds R.order R.ripple j).2.trans R.size)
    rwa [List.length_map, stepRange_sym_length] at this
  have hcc : rippleCond rp * h ≤ rippleCond rp ^ 2 * h := by
    have : rippleCond rp ≤ rippleCond rp ^ 2 := by rw [sq]; exact le_mul_of_one_le_left (by linarith) k1
    exact mul_le_mul_of_nonneg_right this h0
  have eR : Rel (0.8 * H) (flRip r m rp) (exRip rp) := by
    refine (rip_err S hm2 R.ripple t1 (hcc.trans c11)).mono (Real.sqrt_nonneg _) ?_
    have : rippleCond rp ^ 2 * h ≤ n * (rippleCond rp ^ 2 * h) := le_mul_of_one_le_left (by positivity) hn1
    linarith
  obtain ⟨K1, K2, K3⟩ := kp_err R.order R.ripple S2 hσ4 hB0 hBγ hσBB U1 U3 c5 (by linarith) eR U4
  have hUn : |(exCUnit n rp).re| = ‖exCUnit n rp‖ := Complex.abs_re_eq_norm.mpr U3
  have hU0 : 0 < ‖exCUnit n rp‖ := by linarith
  have hre : (exCUnit n rp).re ≠ 0 := by rw [← abs_pos, hUn]; exact hU0
  have u0 : |1 / (exCUnit n rp).re| = 1 / ‖exCUnit n rp‖ := by rw [abs_div, abs_one, hUn]
  have u1 : |(flCUnit' r m n rp).re - (exCUnit n rp).re| ≤ 28.6 * (n * H) * |(exCUnit n rp).re| := by
    rw [hUn, ← Complex.sub_re]
    exact (Complex.abs_re_le_norm _).trans U5
  have hσU : σ ≤ |1 / (exCUnit n rp).re| := by
    rw [u0]
    have i1 : y ^ n ≤ (1 / Λ) ^ n := by
      refine pow_le_pow_left₀ hy0.le ?_ n
      rw [hy, div_le_div_iff₀ (by positivity) hΛ0]
      nlinarith
    have i2 : (1 / Λ) ^ n ≤ 1 / ‖exCUnit n rp‖ := by
      rw [one_div_pow]; exact one_div_le_one_div_of_le hU0 U2
    linarith
  have u2 := S2.inv_rel hre (by linarith) u1 hσU
  have hu : 1 / (exCUnit n rp).re ≠ 0 := one_div_ne_zero hre
  have hKU : rippleFloor rp ≤ |exKp n rp * (1 / (exCUnit n rp).re)| := by
    rw [abs_mul, u0, mul_one_div, le_div_iff₀ hU0]
    exact K2
  have u5 := S2.mul_rel (β := 32 * (n * P)) K1 hu (by linarith) (by linarith) K3
    (u2.trans (mul_le_mul_of_nonneg_right (by linarith) (abs_nonneg _))) (by linarith)
  -- sizes
  obtain ⟨T, hT⟩ : ∃ T, T = (4 + exWarp e0) * (4 + exWarp e1) := ⟨_, rfl⟩
  rw [← hT] at s3 D2
  have hT0 : 0 < T := by rw [hT]; exact mul_pos (by linarith) (by linarith)
  obtain ⟨D, hD⟩ : ∃ D, D = exCStopDen n rp e0 e1 := ⟨_, rfl⟩
  rw [← hD] at D1 D2 D3 D4
  obtain ⟨N, hN⟩ : ∃ N, N = exStopNum n e0 e1 := ⟨_, rfl⟩
  rw [← hN] at N1 N3 N4 n0
  have hD0 : 0 < ‖D‖ := by linarith
  have hN0 : 0 < ‖N‖ := by linarith
  have i4 : (4 / (Λ * T)) ^ n ≤ ‖N‖ / ‖D‖ := by
    rw [div_pow]; exact div_le_div₀ hN0.le n0 hD0 D2
  have z2 : y ^ n ≤ 0.9 * (‖N‖ / ‖D‖) := by
    have i1 : y ^ n = (2 / 5) ^ n * (x / (8 * Λ)) ^ n := by
      rw [← mul_pow, hy]; congr 1; field_simp; norm_num
    have i2 : ((2 / 5 : ℝ)) ^ n ≤ 2 / 5 := pow_le_of_le_one (by norm_num) (by norm_num) R.order
    have i3 : (x / (8 * Λ)) ^ n ≤ (4 / (Λ * T)) ^ n := by
      refine pow_le_pow_left₀ (by positivity) ?_ n
      have e1 : x / (8 * Λ) = x / 8 / Λ := by rw [div_div]
      have e2 : 4 / (Λ * T) = 4 / T / Λ := by rw [div_div, mul_comm]
      rw [e1, e2]
      exact div_le_div_of_nonneg_right (by linarith) hΛ0.le
    rw [i1]
    exact mul_le_mul (by linarith) (i3.trans i4) (by positivity) (by norm_num)
  have q0 : |(N / D).re| = ‖N‖ / ‖D‖ := re_of_real_quotient N3 D3
  have q1 := S2.flDiv_rel hσ4 (by linarith) hr (by linarith) (by linarith) N4 D4 N1 D1 (hσy.trans z2)
  have q2 : |(flDiv r (flStopNum r m n f0 f1) (flCStopDen r m n rp f0 f1)).re - (N / D).re| ≤
      691 * (n * P) * |(N / D).re| := by
    rw [q0, ← Complex.sub_re]
    refine (Complex.abs_re_le_norm _).trans (q1.trans (mul_le_mul_of_nonneg_right ?_ (by positivity)))
    linarith
  have hq5 : 0 < ‖N‖ / ‖D‖ := by positivity
  have hq : (N / D).re ≠ 0 := by rw [← abs_pos, q0]; exact hq5
  have z3 : σ ≤ |exKp n rp * (1 / (exCUnit n rp).re) * (N / D).re| := by
    rw [abs_mul _ (N / D).re, q0, hσB]
    exact mul_le_mul (by linarith) (by linarith) hyn0.le (abs_nonneg _)
  have k := S2.mul_rel (α := 68 * (n * P)) (mul_ne_zero K1 hu) hq (by linarith) (by linarith)
    (u5.trans (mul_le_mul_of_nonneg_right (by linarith) (abs_nonneg _))) q2 z3
  have hGx : exCStopGain n rp e0 e1 = exKp n rp * (1 / (exCUnit n rp).re) * (N / D).re := by
    rw [exCStopGain, ← hD, ← hN]
  rw [hGx]
  refine ⟨z3, k.trans (mul_le_mul_of_nonneg_right ?_ (abs_nonneg _))⟩
  linarith

end SciRs.Rounded

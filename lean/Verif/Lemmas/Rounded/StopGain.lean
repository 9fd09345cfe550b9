import Verif.Lemmas.Rounded.BandGain
import Verif.Lemmas.Rounded.BandZeros

/-! # The gain of Butterworth band-stop designs in floating point -/

namespace SciRs.Rounded

open SciRs.Spec SciRs.Design

/-- The computed analog zero, in any arithmetic. -/
noncomputable def Arith.notch (A : Arith) (w0 w1 : ℝ) (up : Bool) : ℂ :=
  ⟨0, A.mul (if up then 1 else -1) (A.sqrt (A.mul w0 w1))⟩

theorem map_bandIdx (n : ℕ) (a : Bool → ℂ) :
    (bandIdx n).map (fun q => a q.2) = List.replicate n (a true) ++ List.replicate n (a false) := by
  simp [bandIdx, Function.comp_def, stepRange_sym_length]

/-- The gain and the zeros of the digital filter, in any arithmetic. -/
theorem stop_gain {A : Arith} {n : ℕ} {wn : List ℝ} {rp rs : Option ℝ} {fs : Option ℝ} {g : Zpk}
    {e0 e1 : ℝ} (he : edges A wn fs = [e0, e1])
    (h : design A n wn rp rs .bandstop .butterworth false fs = .ok g) :
    g.k = A.mul (A.mul 1 (A.div 1 (foldMul A ((stepRange (-(n : ℤ) + 1) n).map (fun j =>
        A.cmul (-1) (-A.cexp ⟨0, A.div (A.mul A.pi (A.ofInt j)) (A.ofInt (2 * n))⟩)))).re))
      (A.cdiv (foldMul A ((bandIdx n).map (fun q =>
          A.csub (A.mul 2 2 : ℝ) (A.notch (A.warped e0) (A.warped e1) q.2))))
        (foldMul A ((bandIdx n).map (fun q =>
          A.csub (A.mul 2 2 : ℝ) (A.root n .bandstop (A.warped e0) (A.warped e1) q))))).re ∧
    g.z = (bandIdx n).map (fun q => A.bilin (A.notch (A.warped e0) (A.warped e1) q.2)) := by
  unfold design at h
  simp only [bind_eq_ok] at h
  obtain ⟨w, hw, f, hf, v, hv, f', hf', h⟩ := h
  rw [validate_eq_ok] at hw
  obtain ⟨rfl, -⟩ := hw
  unfold warp at hv
  rw [if_pos rfl, he] at hv
  obtain ⟨u, -, hv⟩ := bind_eq_ok.mp hv
  have hv2 : v = [A.warped e0, A.warped e1] := by
    simpa [pure, Except.pure, Arith.warped] using hv.symm
  subst hv2
  cases hf
  unfold discretise bilinear at h
  rw [if_pos rfl] at h
  obtain ⟨d, hd2, h⟩ := bind_eq_ok.mp h
  cases h
  have hd : ∀ d', relativeDegree (buttap A n).z (buttap A n).p = .ok d' → d' = n := by
    intro d' hd'
    rw [relativeDegree_ok (by simp [buttap])] at hd'
    cases hd'
    simp [buttap, stepRange_sym_length]
  simp only [bandTransform, lp2bs] at hf'
  obtain ⟨d', hd', hf'⟩ := bind_eq_ok.mp hf'
  obtain rfl := hd d' hd'
  cases hf'
  have hdd : d = 0 := by
    rw [relativeDegree_ok (by simp [buttap, splitPm, bsZeros, stepRange_sym_length])] at hd2
    cases hd2
    simp [buttap, splitPm, bsZeros, stepRange_sym_length]
  subst hdd
  rw [map_bandIdx d' (fun b => A.csub (A.mul 2 2 : ℝ) (A.notch (A.warped e0) (A.warped e1) b)),
    map_bandIdx d' (fun b => A.bilin (A.notch (A.warped e0) (A.warped e1) b))]
  constructor
  · simp [buttap, splitPm, bsZeros, Function.comp_def, Arith.shift, Arith.radius, Arith.half, bandIdx, Arith.root, foldMul,
      Arith.notch]
  · simp [buttap, splitPm, bsZeros, Arith.notch, Arith.bilin]

/-- The exact analog zero. -/
noncomputable def exNotch (e0 e1 : ℝ) (up : Bool) : ℂ := ⟨0, (if up then 1 else -1) * √(exWarp e0 * exWarp e1)⟩

/-- The exact product of the `4 - z`. -/
noncomputable def exStopNum (n : ℕ) (e0 e1 : ℝ) : ℂ := ((bandIdx n).map (fun q => 4 - exNotch e0 e1 q.2)).prod

/-- The exact product of the `4 - p`. -/
noncomputable def exStopDen (n : ℕ) (e0 e1 : ℝ) : ℂ :=
  ((bandIdx n).map (fun q => 4 - exBandRoot n .bandstop e0 e1 q.1 q.2)).prod

/-- The exact gain. -/
noncomputable def exStopGain (n : ℕ) (e0 e1 : ℝ) : ℝ :=
  (1 / (exUnit n).re) * (exStopNum n e0 e1 / exStopDen n e0 e1).re

/-- The computed analog zero. -/
noncomputable def flNotch (r : Rounding) (m : Libm) (f0 f1 : ℝ) (up : Bool) : ℂ :=
  ⟨0, r.rnd ((if up then 1 else -1) * r.rnd √(r.rnd (flWarp r m f0 * flWarp r m f1)))⟩

/-- The computed product of the `4 - z`. -/
noncomputable def flStopNum (r : Rounding) (m : Libm) (n : ℕ) (f0 f1 : ℝ) : ℂ :=
  foldMul (.ofRounding r m) ((bandIdx n).map (fun q =>
    (⟨r.rnd (r.rnd (2 * 2) - (flNotch r m f0 f1 q.2).re), r.rnd (0 - (flNotch r m f0 f1 q.2).im)⟩ : ℂ)))

/-- The computed product of the `4 - p`. -/
noncomputable def flStopDen (r : Rounding) (m : Libm) (n : ℕ) (f0 f1 : ℝ) : ℂ :=
  foldMul (.ofRounding r m) ((bandIdx n).map (fun q =>
    (⟨r.rnd (r.rnd (2 * 2) - (flBandRoot r m n .bandstop f0 f1 q.1 q.2).re),
      r.rnd (0 - (flBandRoot r m n .bandstop f0 f1 q.1 q.2).im)⟩ : ℂ)))

/-- The computed gain. -/
noncomputable def flStopGain (r : Rounding) (m : Libm) (n : ℕ) (f0 f1 : ℝ) : ℝ :=
  r.rnd (r.rnd (1 * r.rnd (1 / (flUnit r m n).re)) * (flDiv r (flStopNum r m n f0 f1) (flStopDen r m n f0 f1)).re)

theorem stop_gain_fl {r : Rounding} {m : Libm} {n : ℕ} {wn : List ℝ} {rp rs : Option ℝ} {fs : Option ℝ} {g : Zpk}
    {f0 f1 : ℝ} (he : edges (.ofRounding r m) wn fs = [f0, f1])
    (h : design (.ofRounding r m) n wn rp rs .bandstop .butterworth false fs = .ok g) :
    g.k = flStopGain r m n f0 f1 ∧ g.z = (bandIdx n).map (fun q => flBilinear r (flNotch r m f0 f1 q.2)) := by
  obtain ⟨h1, h2⟩ := stop_gain he h
  exact ⟨h1, h2⟩

theorem stop_gain_ex {eps : ℝ} {n : ℕ} {wn : List ℝ} {rp rs : Option ℝ} {fs : Option ℝ} {g : Zpk}
    {e0 e1 : ℝ} (he : Spec.edges wn fs = [e0, e1]) (hW : 0 ≤ exWarp e0 * exWarp e1)
    (h : design (.exact eps) n wn rp rs .bandstop .butterworth false fs = .ok g) :
    g.k = exStopGain n e0 e1 ∧ g.z = (bandIdx n).map (fun q => exBilin (exNotch e0 e1 q.2)) := by
  have he' : edges (.exact eps) wn fs = [e0, e1] := by
    rw [← he]
    cases fs <;> rfl
  obtain ⟨h1, h2⟩ := stop_gain he' h
  have e4 : (((2 * 2 : ℝ)) : ℂ) = 4 := by push_cast; norm_num
  have ew : ∀ e, (Arith.exact eps).warped e = exWarp e := by
    intro e
    change 2 * 2 * Real.tan (Real.pi * e / 2) = _
    rw [exWarp]; ring
  have eb : ∀ p, (Arith.exact eps).bilin p = exBilin p := by
    intro p
    change (((2 * 2 : ℝ) : ℂ) + p) / (((2 * 2 : ℝ) : ℂ) - p) = _
    rw [exBilin, e4]
  have en : ∀ b, (Arith.exact eps).notch (exWarp e0) (exWarp e1) b = exNotch e0 e1 b := fun b => rfl
  constructor
  · rw [h1]
    simp only [exact_root hW]
    have hf : ∀ l : List ℂ, foldMul (.exact eps) l = l.prod := fun l => Design.foldMul_eq l
    have eζ : ∀ j : ℤ, -Complex.exp (⟨0, Real.pi * ((j : ℤ) : ℝ) / ((2 * n : ℤ) : ℝ)⟩ : ℂ) = exProto n j := by
      intro j
      rw [exProto]; push_cast; rfl
    simp only [hf, ew, en]
    change (1 * (1 / (((stepRange (-(n : ℤ) + 1) n).map (fun j =>
        -1 * -Complex.exp (⟨0, Real.pi * ((j : ℤ) : ℝ) / ((2 * n : ℤ) : ℝ)⟩ : ℂ))).prod).re)) *
      ((((bandIdx n).map (fun q => (((2 * 2 : ℝ)) : ℂ) - exNotch e0 e1 q.2)).prod) /
        ((bandIdx n).map (fun q => (((2 * 2 : ℝ)) : ℂ) - exBandRoot n .bandstop e0 e1 q.1 q.2)).prod).re = _
    simp only [e4, eζ, one_mul, neg_mul]
    rfl
  · rw [h2]
    simp only [ew, en, eb]

/-- The product of the `4 - z` taken two by two. -/
theorem exStopNum_eq {e0 e1 : ℝ} (hW : 0 ≤ exWarp e0 * exWarp e1) (n : ℕ) :
    exStopNum n e0 e1 = (((16 + exWarp e0 * exWarp e1) ^ n : ℝ) : ℂ) := by
  unfold exStopNum
  rw [map_bandIdx n (fun b => 4 - exNotch e0 e1 b), List.prod_append, List.prod_replicate, List.prod_replicate, ← mul_pow]
  push_cast
  congr 1
  have hs : √(exWarp e0 * exWarp e1) * √(exWarp e0 * exWarp e1) = exWarp e0 * exWarp e1 := Real.mul_self_sqrt hW
  have e : ∀ b, exNotch e0 e1 b = (if b then 1 else -1) * ((√(exWarp e0 * exWarp e1) : ℝ) : ℂ) * Complex.I := by
    intro b
    cases b <;> apply Complex.ext <;> simp [exNotch]
  have hs' : ((√(exWarp e0 * exWarp e1) : ℝ) : ℂ) * ((√(exWarp e0 * exWarp e1) : ℝ) : ℂ) = exWarp e0 * exWarp e1 := by
    rw [← Complex.ofReal_mul, hs, Complex.ofReal_mul]
  rw [e, e]
  simp only [if_true, Bool.false_eq_true, if_false]
  linear_combination hs' - ((√(exWarp e0 * exWarp e1) : ℝ) : ℂ) * ((√(exWarp e0 * exWarp e1) : ℝ) : ℂ) * Complex.I_mul_I

/-- The product of the `4 - p` taken two by two. -/
theorem exStopDen_eq (n : ℕ) (e0 e1 : ℝ) :
    exStopDen n e0 e1 = ((stepRange (-(n : ℤ) + 1) n).map (fun j =>
      16 - 4 * ((exWarp e1 - exWarp e0 : ℝ) * exZeta n .bandstop j) + (exWarp e0 * exWarp e1 : ℝ))).prod := by
  have key : ∀ j, (4 - exBandRoot n .bandstop e0 e1 j true) * (4 - exBandRoot n .bandstop e0 e1 j false) =
      16 - 4 * ((exWarp e1 - exWarp e0 : ℝ) * exZeta n .bandstop j) + (exWarp e0 * exWarp e1 : ℝ) := by
    intro j
    have h := csqrt_sq (exShift n .bandstop (exWarp e0) (exWarp e1) j ^ 2 - (exWarp e0 * exWarp e1 : ℝ))
    rw [← exRadius] at h
    have e : exShift n .bandstop (exWarp e0) (exWarp e1) j =
        ((exWarp e1 - exWarp e0 : ℝ) : ℂ) / 2 * exZeta n .bandstop j := by
      rw [exShift]; push_cast; rfl
    simp only [exBandRoot, signed, if_true, Bool.false_eq_true, if_false]
    rw [← sub_eq_zero]
    have h2 := h
    rw [e] at h2 ⊢
    linear_combination -h2
  unfold exStopDen bandIdx
  rw [List.map_append, List.prod_append, List.map_map, List.map_map]
  simp only [← key]
  induction (stepRange (-(n : ℤ) + 1) n) with
  | nil => simp
  | cons a l ih =>
    simp only [List.map_cons, List.prod_cons, Function.comp]
    rw [← ih]
    simp only [Function.comp_def]
    ring

/-- The exact denominator is real and of bounded size. -/
theorem exStopDen_size {n : ℕ} {e0 e1 : ℝ} (w0 : 0 < exWarp e0) (w01 : exWarp e0 < exWarp e1) :
    (exStopDen n e0 e1).im = 0 ∧ ‖exStopDen n e0 e1‖ ≤ ((4 + exWarp e0) * (4 + exWarp e1)) ^ n := by
  rw [exStopDen_eq]
  constructor
  · refine prod_sym_real n (fun j => ?_)
    rw [map_add, map_sub, map_mul, map_mul, Complex.conj_ofReal, Complex.conj_ofReal, exZeta, if_neg (by simp), map_inv₀,
      exProto_conj, map_ofNat, map_ofNat, exZeta, if_neg (by simp)]
  · have := norm_prod_le (l := (stepRange (-(n : ℤ) + 1) n).map (fun j =>
      16 - 4 * (((exWarp e1 - exWarp e0 : ℝ) : ℂ) * exZeta n .bandstop j) + ((exWarp e0 * exWarp e1 : ℝ) : ℂ)))
      (c := (4 + exWarp e0) * (4 + exWarp e1)) (fun x hx => by
        obtain ⟨j, hj, rfl⟩ := List.mem_map.mp hx
        refine (norm_add_le _ _).trans ?_
        have a1 := norm_sub_le (16 : ℂ) (4 * (((exWarp e1 - exWarp e0 : ℝ) : ℂ) * exZeta n .bandstop j))
        rw [norm_mul, norm_mul, (exZeta_parts (n := n) .bandstop j).1, Complex.norm_real,
          Real.norm_of_nonneg (by linarith)] at a1
        rw [Complex.norm_real, Real.norm_of_nonneg (mul_pos w0 (w0.trans w01)).le]
        have n16 : ‖(16 : ℂ)‖ = 16 := by simp
        have n4 : ‖(4 : ℂ)‖ = 4 := by simp
        rw [n16, n4, mul_one] at a1
        linarith)
    rwa [List.length_map, stepRange_sym_length] at this

variable {r : Rounding} {m : Libm} {h σ : ℝ}

/-- A computed product of factors `4 - p`. -/
theorem factors_err (hr : r.Nearest) (S : Small r h σ) (hσ : σ ≤ 1 / 4) {n : ℕ} {P : ℝ} (hhP : h ≤ P) (hP1 : P ≤ n * P)
    (hh : h ≤ 1 / 1024) (hν : 10000 * (n * P) ≤ 1) {p p' : ℤ × Bool → ℂ} (hp : ∀ q ∈ bandIdx n, (p q).re ≤ 0)
    (he : ∀ q ∈ bandIdx n, ‖p' q - p q‖ ≤ 551 * P) :
    1 ≤ ‖((bandIdx n).map (fun q => 4 - p q)).prod‖ ∧
    ‖foldMul (.ofRounding r m) ((bandIdx n).map (fun q =>
      (⟨r.rnd (r.rnd (2 * 2) - (p' q).re), r.rnd (0 - (p' q).im)⟩ : ℂ))) - ((bandIdx n).map (fun q => 4 - p q)).prod‖ ≤
      320 * (n * P) * ‖((bandIdx n).map (fun q => 4 - p q)).prod‖ := by
  have h0 := S.h_nonneg
  have hP0 : 0 ≤ P := h0.trans hhP
  have fac : ∀ q ∈ bandIdx n, 4 ≤ ‖4 - p q‖ ∧
      ‖(⟨r.rnd (r.rnd (2 * 2) - (p' q).re), r.rnd (0 - (p' q).im)⟩ : ℂ) - (4 - p q)‖ ≤ 140 * P * ‖4 - p q‖ := by
    intro q hq
    obtain ⟨f1, f2⟩ := factor_abs_err S hσ hr (hp q hq) (he q hq) (by linarith)
    refine ⟨f1, f2.trans (mul_le_mul_of_nonneg_right ?_ (norm_nonneg _))⟩
    linarith
  refine ⟨?_, ?_⟩
  · refine one_le_norm_prod (fun x hx => ?_)
    obtain ⟨j, hj, rfl⟩ := List.mem_map.mp hx
    linarith [(fac j hj).1]
  · have k := foldMul_err (m := m) S hσ (by linarith) hr (c := 140 * P) (κ := 145 * P) (by positivity) (by linarith)
      (by nlinarith [mul_le_mul_of_nonneg_left hh hP0]) (fun q => 4 - p q) (fun q =>
        (⟨r.rnd (r.rnd (2 * 2) - (p' q).re), r.rnd (0 - (p' q).im)⟩ : ℂ))
      (bandIdx n) (fun j hj => (fac j hj).2) (fun j hj => by linarith [(fac j hj).1])
      (by rw [bandIdx_length]; push_cast; linarith)
    rw [bandIdx_length] at k
    push_cast at k
    refine k.trans (mul_le_mul_of_nonneg_right ?_ (norm_nonneg _))
    linarith

/-- The computed analog zeros. -/
theorem notch_err (hr : r.Nearest) (hm : m.Accurate r h) {n : ℕ} {e0 e1 κ : ℝ} (R : BandRequest n e0 e1 κ h)
    (S : Small r h (κ ^ 2 * e0 ^ 2 / 2)) {f0 f1 : ℝ} (hf0 : |f0 - e0| ≤ h * e0) (hf1 : |f1 - e1| ≤ h * e1) (up : Bool) :
    ‖flNotch r m f0 f1 up - exNotch e0 e1 up‖ ≤ 551 * (h / ((1 - e1) ^ 2 * κ)) := by
  have h0 := S.h_nonneg
  obtain ⟨c1, c2, c3, -, -, -, -, c8, c9, c10, -⟩ := band_facts R h0
  obtain ⟨w0, w01, -, w3, -⟩ := exWarp_gap R.pos R.lt R.one
  have ec := band_centre_err hr hm R S hf0 hf1
  have hκ := R.kappa
  unfold flNotch exNotch
  obtain ⟨c, hc⟩ : ∃ c : ℝ, c = if up then 1 else -1 := ⟨_, rfl⟩
  rw [← hc]
  have hc : c = 1 ∨ c = -1 := by cases up <;> simp [hc]
  obtain ⟨v, hv⟩ : ∃ v, v = r.rnd √(r.rnd (flWarp r m f0 * flWarp r m f1)) := ⟨_, rfl⟩
  have hvv : r.rnd v = v := by rw [hv]; exact hr.idem _
  rw [← hv] at ec ⊢
  obtain ⟨W0, hW0⟩ : ∃ W0, W0 = exWarp e0 := ⟨_, rfl⟩
  obtain ⟨W1, hW1⟩ : ∃ W1, W1 = exWarp e1 := ⟨_, rfl⟩
  rw [← hW0, ← hW1] at ec c8 c9 w01 ⊢
  rw [← hW0] at w0
  have hcv : r.rnd (c * v) = c * v := by
    rcases hc with rfl | rfl
    · rw [one_mul, hvv]
    · rw [neg_one_mul, hr.odd, hvv]
  have hc1 : |c| = 1 := by rcases hc with rfl | rfl <;> simp
  have hW : 0 < W0 * W1 := mul_pos w0 (w0.trans w01)
  obtain ⟨q, hq⟩ : ∃ q, q = √(W0 * W1) := ⟨_, rfl⟩
  have hq2 : q * q = W0 * W1 := by rw [hq]; exact Real.mul_self_sqrt hW.le
  have hq0 : 0 < q := by rw [hq]; exact Real.sqrt_pos.mpr hW
  rw [← hq] at ec ⊢
  have hqM : q ≤ (W0 + W1) / 2 := by
    refine abs_le_of_sq_le_sq' ?_ (by linarith) |>.2
    rw [sq, hq2]
    nlinarith [sq_nonneg (W0 - W1)]
  rw [hcv]
  obtain ⟨H, hH⟩ : ∃ H, H = h / (1 - e1) := ⟨_, rfl⟩
  rw [← hH] at ec c9 c3
  have hH0 : 0 ≤ H := h0.trans c3
  have k1 : 22 * H * q ≤ 216 * H * ((W0 + W1) / 2) / κ := by
    have a1 : 22 * H * q ≤ 22 * H * ((W0 + W1) / 2) := by gcongr
    have a2 : H * ((W0 + W1) / 2) ≤ H * ((W0 + W1) / 2) / κ :=
      le_div_self (mul_nonneg hH0 (by linarith)) hκ c1
    have a3 : 216 * H * ((W0 + W1) / 2) / κ = 216 * (H * ((W0 + W1) / 2) / κ) := by ring
    have a4 : 0 ≤ H * ((W0 + W1) / 2) / κ := div_nonneg (mul_nonneg hH0 (by linarith)) hκ.le
    rw [a3]
    linarith
  have e : (⟨0, c * v⟩ : ℂ) - ⟨0, c * q⟩ = ((c * (v - q) : ℝ) : ℂ) * Complex.I := by
    apply Complex.ext <;> simp; ring
  rw [e, norm_mul, Complex.norm_I, mul_one, Complex.norm_real, Real.norm_eq_abs, abs_mul, hc1, one_mul]
  exact ec.trans (k1.trans c9)

/-- The computed first factor of the gain. -/
theorem stop_unit_err {n : ℕ} (hn : n ≠ 0) (S : Small r h σ) (hσ : σ ≤ 1 / 4) (hr : r.Nearest)
    (hh : 1024 * (n * h) ≤ 1) (hm : m.Accurate r h) :
    |1 / (exUnit n).re| = 1 ∧
    |r.rnd (1 * r.rnd (1 / (flUnit r m n).re)) - 1 / (exUnit n).re| ≤ 33 * (n * h) * |1 / (exUnit n).re| := by
  have h0 := S.h_nonneg
  have hn1 : (1 : ℝ) ≤ n := by exact_mod_cast Nat.one_le_iff_ne_zero.mpr hn
  have U0 : (exUnit n).im = 0 := by
    refine prod_sym_real n (fun j => ?_)
    rw [map_neg, exProto_conj]
  have U1 := unit_err hn S hσ hr hh hm
  rw [exUnit_norm, mul_one] at U1
  have u0 : |(exUnit n).re| = 1 := by
    rw [Complex.abs_re_eq_norm.mpr U0, exUnit_norm]
  have u1 : |(flUnit r m n).re - (exUnit n).re| ≤ 28.6 * (n * h) := by
    rw [← Complex.sub_re]
    exact (Complex.abs_re_le_norm _).trans U1
  obtain ⟨a, ha⟩ : ∃ a, a = (exUnit n).re := ⟨_, rfl⟩
  obtain ⟨b, hb⟩ : ∃ b, b = (flUnit r m n).re := ⟨_, rfl⟩
  rw [← ha] at u0 u1 ⊢
  rw [← hb] at u1 ⊢
  have hhn : h ≤ n * h := by nlinarith
  have ha1 : |1 / a| = 1 := by rw [abs_div, abs_one, u0, div_one]
  refine ⟨ha1, ?_⟩
  rw [ha1, mul_one]
  have hb1 : 0.97 ≤ |b| := by
    have := abs_sub_abs_le_abs_sub a b
    rw [abs_sub_comm] at this
    linarith
  have hb0 : 0 < |b| := by linarith
  have ha0 : a ≠ 0 := by rw [← abs_pos, u0]; norm_num
  have hbn : b ≠ 0 := by rw [← abs_pos]; exact hb0
  have d : |1 / b - 1 / a| ≤ 29.5 * (n * h) := by
    have e : 1 / b - 1 / a = (a - b) / (a * b) := by field_simp
    rw [e, abs_div, abs_mul, u0, one_mul, div_le_iff₀ hb0, abs_sub_comm]
    have : 0 ≤ n * h := by positivity
    nlinarith
  have d1 : |1 / b| ≤ 1.04 := by
    have := abs_add_le (1 / b - 1 / a) (1 / a)
    rw [sub_add_cancel, ha1] at this
    linarith
  have s1 := S.fl d1 (by linarith)
  obtain ⟨y, hy⟩ : ∃ y, y = r.rnd (1 / b) := ⟨_, rfl⟩
  rw [← hy] at s1 ⊢
  have d2 : |1 * y| ≤ 1.06 := by
    rw [one_mul]
    have := abs_add_le (y - 1 / b) (1 / b)
    rw [sub_add_cancel] at this
    linarith
  have s2 := S.fl d2 (by linarith)
  rw [one_mul] at s2 ⊢
  have e : r.rnd y - 1 / a = (r.rnd y - y) + (y - 1 / b) + (1 / b - 1 / a) := by ring
  rw [e]
  refine (abs_add_three _ _ _).trans ?_
  linarith

/-- The error of the gain. -/
theorem stop_gain_err (hr : r.Nearest) (hm : m.Accurate r h) (hp : m.AccuratePolar r h) {n : ℕ} {e0 e1 κ : ℝ}
    (R : BandRequest n e0 e1 κ h) (S : Small r h (κ ^ 2 * e0 ^ 2 / 2))
    (S2 : Small r h (((1 - e1) ^ 2 * (e1 - e0) / 20) ^ n)) {f0 f1 : ℝ}
    (hf0 : |f0 - e0| ≤ h * e0) (hf1 : |f1 - e1| ≤ h * e1) (hν : 10000 * (n * (h / ((1 - e1) ^ 2 * κ))) ≤ 1) :
    ((1 - e1) ^ 2 * (e1 - e0) / 20) ^ n ≤ |exStopGain n e0 e1| ∧
    |flStopGain r m n f0 f1 - exStopGain n e0 e1| ≤
      800 * (n * (h / ((1 - e1) ^ 2 * κ))) * |exStopGain n e0 e1| := by
  have h0 := S.h_nonneg
  obtain ⟨-, c2, c3, -, -, -, -, -, -, c10, -⟩ := band_facts R h0
  have hn1 : (1 : ℝ) ≤ n := by exact_mod_cast Nat.one_le_iff_ne_zero.mpr R.order
  obtain ⟨w0, w01, -, -, -⟩ := exWarp_gap R.pos R.lt R.one
  obtain ⟨s1, s2, s3, s4⟩ := band_sizes R.pos R.lt R.one
  have hd : 0 < e1 - e0 := by linarith [R.lt]
  have h1e : 0 < 1 - e1 := by linarith [R.one]
  have hone : e1 - e0 ≤ 1 := by linarith [R.pos, R.one]
  have hE2 : (1 - e1) ^ 2 ≤ 1 := pow_le_one₀ h1e.le (by linarith [R.pos, R.lt])
  obtain ⟨x, hx⟩ : ∃ x, x = (1 - e1) ^ 2 * (e1 - e0) := ⟨_, rfl⟩
  have hx0 : 0 < x := by rw [hx]; positivity
  have hxE : x ≤ (1 - e1) ^ 2 := by rw [hx]; exact mul_le_of_le_one_right (sq_nonneg _) hone
  rw [← hx] at S2 s1 ⊢
  have hσ4 : (x / 20) ^ n ≤ 1 / 4 := (pow_le_of_le_one (by positivity) (by linarith) R.order).trans (by linarith)
  obtain ⟨P, hP⟩ : ∃ P, P = h / ((1 - e1) ^ 2 * κ) := ⟨_, rfl⟩
  have hP0 : 0 ≤ P := by rw [hP]; exact h0.trans c10
  have hPn : P ≤ n * P := by nlinarith
  have hhn : n * h ≤ n * P := by rw [hP]; exact mul_le_mul_of_nonneg_left c10 (by linarith)
  have hh : h ≤ 1 / 1024 := c3.trans c2
  have hW : 0 < exWarp e0 * exWarp e1 := mul_pos w0 (w0.trans w01)
  rw [← hP] at hν c10 ⊢
  obtain ⟨D1, D4⟩ := factors_err (m := m) hr S2 hσ4 c10 hPn hh hν (p := fun q => exBandRoot n .bandstop e0 e1 q.1 q.2)
    (p' := fun q => flBandRoot r m n .bandstop f0 f1 q.1 q.2)
    (fun q hq => (band_margin w0 w01 (exZeta_parts (n := n) .bandstop q.1).1 (exBandRoot_eq n .bandstop e0 e1 q.1 q.2)
      (by positivity : (0 : ℝ) ≤ 1 / n) (exZeta_bounds R.order .bandstop (mem_bandIdx hq)).1).1)
    (fun q hq => by rw [hP]; exact (band_root_pole_err (band := .bandstop) hr hm hp R S hf0 hf1 (mem_bandIdx hq) q.2).2.2)
  obtain ⟨N1, N4⟩ := factors_err (m := m) hr S2 hσ4 c10 hPn hh hν (p := fun q => exNotch e0 e1 q.2)
    (p' := fun q => flNotch r m f0 f1 q.2) (fun q hq => le_refl 0)
    (fun q hq => by rw [hP]; exact notch_err hr hm R S hf0 hf1 q.2)
  change 1 ≤ ‖exStopDen n e0 e1‖ at D1
  change ‖flStopDen r m n f0 f1 - exStopDen n e0 e1‖ ≤ 320 * (n * P) * ‖exStopDen n e0 e1‖ at D4
  change 1 ≤ ‖exStopNum n e0 e1‖ at N1
  change ‖flStopNum r m n f0 f1 - exStopNum n e0 e1‖ ≤ 320 * (n * P) * ‖exStopNum n e0 e1‖ at N4
  obtain ⟨D3, D2⟩ := exStopDen_size (n := n) w0 w01
  have N2 := exStopNum_eq hW.le n
  have N3 : (exStopNum n e0 e1).im = 0 := by rw [N2, Complex.ofReal_im]
  have n0 : 4 ^ n ≤ ‖exStopNum n e0 e1‖ := by
    rw [N2, Complex.norm_real, Real.norm_of_nonneg (by positivity)]
    exact pow_le_pow_left₀ (by norm_num) (by linarith) n
  obtain ⟨T, hT⟩ : ∃ T, T = (4 + exWarp e0) * (4 + exWarp e1) := ⟨_, rfl⟩
  rw [← hT] at s3 D2
  have hT0 : 0 < T := by rw [hT]; exact mul_pos (by linarith) (by linarith)
  have hD0 : 0 < ‖exStopDen n e0 e1‖ := by linarith
  have hN0 : 0 < ‖exStopNum n e0 e1‖ := by linarith
  -- sizes
  have z2 : (x / 20) ^ n ≤ 0.9 * (‖exStopNum n e0 e1‖ / ‖exStopDen n e0 e1‖) := by
    have i1 : (x / 20) ^ n = (2 / 5) ^ n * (x / 8) ^ n := by rw [← mul_pow]; congr 1; ring
    have i2 : ((2 / 5 : ℝ)) ^ n ≤ 2 / 5 := pow_le_of_le_one (by norm_num) (by norm_num) R.order
    have i3 : (x / 8) ^ n ≤ (4 / T) ^ n := pow_le_pow_left₀ (by positivity) (by linarith) n
    have i4 : (4 / T) ^ n ≤ ‖exStopNum n e0 e1‖ / ‖exStopDen n e0 e1‖ := by
      rw [div_pow]; exact div_le_div₀ (norm_nonneg _) n0 hD0 D2
    rw [i1]
    exact mul_le_mul (by linarith) (i3.trans i4) (by positivity) (by norm_num)
  have q0 : |(exStopNum n e0 e1 / exStopDen n e0 e1).re| = ‖exStopNum n e0 e1‖ / ‖exStopDen n e0 e1‖ :=
    re_of_real_quotient N3 D3
  have q1 := S2.flDiv_rel hσ4 (by linarith) hr (by linarith) (by linarith) N4 D4 N1 D1 z2
  have q2 : |(flDiv r (flStopNum r m n f0 f1) (flStopDen r m n f0 f1)).re -
      (exStopNum n e0 e1 / exStopDen n e0 e1).re| ≤
      691 * (n * P) * |(exStopNum n e0 e1 / exStopDen n e0 e1).re| := by
    rw [q0, ← Complex.sub_re]
    refine (Complex.abs_re_le_norm _).trans (q1.trans (mul_le_mul_of_nonneg_right ?_ (by positivity)))
    linarith
  have hq : (exStopNum n e0 e1 / exStopDen n e0 e1).re ≠ 0 := by
    rw [← abs_pos, q0]; positivity
  obtain ⟨u1, u2⟩ := stop_unit_err (m := m) R.order S2 hσ4 hr (by linarith) hm
  have hu : 1 / (exUnit n).re ≠ 0 := by rw [← abs_pos, u1]; norm_num
  have z3 : (x / 20) ^ n ≤ |1 / (exUnit n).re * (exStopNum n e0 e1 / exStopDen n e0 e1).re| := by
    rw [abs_mul, u1, one_mul, q0]
    have : 0 ≤ ‖exStopNum n e0 e1‖ / ‖exStopDen n e0 e1‖ := by positivity
    linarith
  have k := S2.mul_rel hu hq (by linarith) (by linarith) u2 q2 z3
  refine ⟨z3, k.trans (mul_le_mul_of_nonneg_right ?_ (abs_nonneg _))⟩
  linarith

end SciRs.Rounded

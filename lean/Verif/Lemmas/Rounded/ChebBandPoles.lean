import Verif.Lemmas.Rounded.BandScaled
import Verif.Lemmas.Rounded.BandZeros
import Verif.Lemmas.Rounded.ChebPoles
import Verif.Spec.ChebBandRequest

/-! # The poles of Chebyshev I band-pass and band-stop designs in floating point -/

namespace SciRs.Rounded

open SciRs.Spec SciRs.Design

variable {r : Rounding} {m : Libm} {h : ℝ}

/-- The computed prototype pole. -/
noncomputable def Arith.cheb (A : Arith) (n : ℕ) (rp : ℝ) (j : ℤ) : ℂ :=
  -A.csinh ⟨A.div (A.asinh (A.div 1 (A.sqrt (A.sub (A.powf 10 (A.div rp 10)) 1)))) (A.ofInt n),
    A.mul A.pi (A.div (A.ofInt j) (A.ofInt (2 * n)))⟩

/-- The computed centre of the roots. -/
noncomputable def Arith.cshift (A : Arith) (n : ℕ) (rp : ℝ) (band : Band) (w0 w1 : ℝ) (j : ℤ) : ℂ :=
  if band = .bandpass then A.cmul (A.cheb n rp j) (A.half w0 w1 : ℝ)
  else A.cmul (A.cdiv (⟨0, A.half w0 w1⟩ : ℂ) (A.cheb n rp j)) (-Complex.I)

/-- The computed half difference of the roots. -/
noncomputable def Arith.cradius (A : Arith) (n : ℕ) (rp : ℝ) (band : Band) (w0 w1 : ℝ) (j : ℤ) : ℂ :=
  A.csqrt (A.csub (A.csq (A.cshift n rp band w0 w1 j)) (A.powi (A.sqrt (A.mul w0 w1)) 2 : ℝ))

/-- The computed pole. -/
noncomputable def Arith.cpole (A : Arith) (n : ℕ) (rp : ℝ) (band : Band) (f0 f1 : ℝ) (j : ℤ) (up : Bool) : ℂ :=
  A.bilin (if up then A.cadd (A.cshift n rp band (A.warped f0) (A.warped f1) j)
      (A.cradius n rp band (A.warped f0) (A.warped f1) j)
    else A.csub (A.cshift n rp band (A.warped f0) (A.warped f1) j) (A.cradius n rp band (A.warped f0) (A.warped f1) j))

/-- The computed analog pole. -/
noncomputable def Arith.croot (A : Arith) (n : ℕ) (rp : ℝ) (band : Band) (w0 w1 : ℝ) (q : ℤ × Bool) : ℂ :=
  if q.2 then A.cadd (A.cshift n rp band w0 w1 q.1) (A.cradius n rp band w0 w1 q.1)
  else A.csub (A.cshift n rp band w0 w1 q.1) (A.cradius n rp band w0 w1 q.1)

/-- The poles and zeros of the digital filter, in any arithmetic. -/
theorem cheb_band_poles {A : Arith} {n : ℕ} (hn : n ≠ 0) {wn : List ℝ} {rp : ℝ} {rs : Option ℝ} {band : Band}
    {fs : Option ℝ} {g : Zpk} {e0 e1 : ℝ} (he : edges A wn fs = [e0, e1]) (hb : band = .bandpass ∨ band = .bandstop)
    (h : design A n wn (some rp) rs band .chebyshevI false fs = .ok g) :
    g.p = (stepRange (-(n : ℤ) + 1) n).map (fun j => A.cpole n rp band e0 e1 j true) ++
      (stepRange (-(n : ℤ) + 1) n).map (fun j => A.cpole n rp band e0 e1 j false) ∧
    (band = .bandstop → ∀ x ∈ g.z,
      x = A.bilin ⟨0, A.mul 1 (A.sqrt (A.mul (A.warped e0) (A.warped e1)))⟩ ∨
      x = A.bilin ⟨0, A.mul (-1) (A.sqrt (A.mul (A.warped e0) (A.warped e1)))⟩ ∨ x = -1) := by
  unfold design at h
  simp only [bind_eq_ok] at h
  obtain ⟨w, hw, f, hf, v, hv, f', hf', h⟩ := h
  rw [validate_eq_ok] at hw
  obtain ⟨rfl, -⟩ := hw
  unfold warp at hv
  rw [if_pos rfl, he] at hv
  obtain ⟨u, -, hv⟩ := bind_eq_ok.mp hv
  have hv2 : v = [A.warped e0, A.warped e1] := by
    simpa [pure, Except.pure, Arith.warped] using hv.symm
  subst hv2
  cases hf
  unfold discretise bilinear at h
  rw [if_pos rfl] at h
  obtain ⟨d, -, h⟩ := bind_eq_ok.mp h
  cases h
  rcases hb with rfl | rfl
  · simp only [bandTransform, lp2bp] at hf'
    obtain ⟨d', -, hf'⟩ := bind_eq_ok.mp hf'
    cases hf'
    constructor
    · simp [cheb1ap, hn, cheb1Poles, splitPm, Function.comp_def, Arith.cpole, Arith.bilin, Arith.cshift, Arith.cradius,
        Arith.half, Arith.cheb]
    · simp
  · simp only [bandTransform, lp2bs] at hf'
    obtain ⟨d', -, hf'⟩ := bind_eq_ok.mp hf'
    cases hf'
    constructor
    · simp [cheb1ap, hn, cheb1Poles, splitPm, Function.comp_def, Arith.cpole, Arith.bilin, Arith.cshift, Arith.cradius,
        Arith.half, Arith.cheb]
    · intro _ x hx
      simp [cheb1ap, hn, cheb1Poles, bsZeros, Arith.bilin] at hx ⊢
      tauto

/-- The exact prototype pole, or its inverse. -/
noncomputable def exCZeta (n : ℕ) (rp : ℝ) (band : Band) (j : ℤ) : ℂ :=
  if band = .bandpass then exCheb n rp j else (exCheb n rp j)⁻¹

/-- The exact centre of the roots. -/
noncomputable def exCShift (n : ℕ) (rp : ℝ) (band : Band) (w0 w1 : ℝ) (j : ℤ) : ℂ :=
  ((w1 - w0) / 2 : ℝ) * exCZeta n rp band j

/-- The exact analog pole. -/
noncomputable def exCRoot (n : ℕ) (rp : ℝ) (band : Band) (e0 e1 : ℝ) (j : ℤ) (up : Bool) : ℂ :=
  signed up (exCShift n rp band (exWarp e0) (exWarp e1) j)
    (csqrt (exCShift n rp band (exWarp e0) (exWarp e1) j ^ 2 - ((exWarp e0 * exWarp e1 : ℝ) : ℂ)))

theorem cheb_band_poles_ex {eps : ℝ} {n : ℕ} (hn : n ≠ 0) {wn : List ℝ} {rp : ℝ} {rs : Option ℝ} {band : Band}
    {fs : Option ℝ} {g : Zpk} {e0 e1 : ℝ} (he : Spec.edges wn fs = [e0, e1]) (hW : 0 ≤ exWarp e0 * exWarp e1)
    (hb : band = .bandpass ∨ band = .bandstop)
    (h : design (.exact eps) n wn (some rp) rs band .chebyshevI false fs = .ok g) :
    g.p = (stepRange (-(n : ℤ) + 1) n).map (fun j => exBilin (exCRoot n rp band e0 e1 j true)) ++
      (stepRange (-(n : ℤ) + 1) n).map (fun j => exBilin (exCRoot n rp band e0 e1 j false)) := by
  have he' : edges (.exact eps) wn fs = [e0, e1] := by
    rw [← he]
    cases fs <;> rfl
  rw [(cheb_band_poles hn he' hb h).1]
  have ew : ∀ e, (Arith.exact eps).warped e = exWarp e := by
    intro e
    change 2 * 2 * Real.tan (Real.pi * e / 2) = _
    rw [exWarp]; ring
  have eb : ∀ p, (Arith.exact eps).bilin p = exBilin p := by
    intro p
    change (((2 * 2 : ℝ) : ℂ) + p) / (((2 * 2 : ℝ) : ℂ) - p) = _
    rw [exBilin]; push_cast; norm_num
  have ec : ∀ j, (Arith.exact eps).cheb n rp j = exCheb n rp j := by
    intro j
    have eζ : -Complex.sinh (⟨Real.arsinh (1 / Real.sqrt ((10 : ℝ) ^ (rp / 10) - 1)) / ((n : ℤ) : ℝ),
        Real.pi * (((j : ℤ) : ℝ) / ((2 * n : ℤ) : ℝ))⟩ : ℂ) = exCheb n rp j := by
      rw [exCheb, exMu, exRip, ← mul_div_assoc]; push_cast; rfl
    exact eζ
  have es : ∀ j, (Arith.exact eps).cshift n rp band (exWarp e0) (exWarp e1) j =
      exCShift n rp band (exWarp e0) (exWarp e1) j := by
    intro j
    have key : (if band = .bandpass then (Arith.exact eps).cheb n rp j * (((exWarp e1 - exWarp e0) / 2 : ℝ) : ℂ)
        else (⟨0, (exWarp e1 - exWarp e0) / 2⟩ : ℂ) / (Arith.exact eps).cheb n rp j * (-Complex.I)) =
        exCShift n rp band (exWarp e0) (exWarp e1) j := by
      rw [ec, exCShift, exCZeta]
      split
      · rw [mul_comm]
      · have : (⟨0, (exWarp e1 - exWarp e0) / 2⟩ : ℂ) = (((exWarp e1 - exWarp e0) / 2 : ℝ) : ℂ) * Complex.I := by
          apply Complex.ext <;> simp
        rw [this, div_eq_mul_inv]
        linear_combination -(((exWarp e1 - exWarp e0) / 2 : ℝ) : ℂ) * (exCheb n rp j)⁻¹ * Complex.I_mul_I
    exact key
  have er : ∀ j, (Arith.exact eps).cradius n rp band (exWarp e0) (exWarp e1) j =
      csqrt (exCShift n rp band (exWarp e0) (exWarp e1) j ^ 2 - ((exWarp e0 * exWarp e1 : ℝ) : ℂ)) := by
    intro j
    change csqrt ((Arith.exact eps).cshift n rp band (exWarp e0) (exWarp e1) j ^ 2 -
      ((√(exWarp e0 * exWarp e1) ^ 2 : ℝ) : ℂ)) = _
    rw [es, Real.sq_sqrt hW]
  congr 1 <;> refine List.map_congr_left (fun j _ => ?_) <;> unfold Arith.cpole <;> rw [eb, ew, ew, es, er] <;> rfl

/-- The band as the request says it. -/
def isStop (band : Band) : Bool := decide (band ≠ .bandpass)

/-- Where the exact prototype poles or their inverses lie. -/
theorem exCZeta_bounds {n : ℕ} (hn : n ≠ 0) {rp : ℝ} (hrp : 0 < rp) {Λ : ℝ} (hΛ : Real.cosh (exMu n rp) ≤ Λ)
    (hΛ1 : 1 ≤ Λ * Real.sinh (exMu n rp)) (band : Band) {j : ℤ} (hj : j ∈ stepRange (-(n : ℤ) + 1) n) :
    1 ≤ Λ ∧ 0 < ‖exCZeta n rp band j‖ ∧ ‖exCZeta n rp band j‖ ≤ Λ ∧ 1 ≤ Λ * ‖exCZeta n rp band j‖ ∧
    (exCZeta n rp band j).re ≤ -(1 / (n * Λ ^ 2) * ‖exCZeta n rp band j‖) ∧
    (j ≠ 0 → 1 / n * ‖exCZeta n rp band j‖ ≤ |(exCZeta n rp band j).im|) ∧
    (j = 0 → (exCZeta n rp band j).im = 0 ∧ ‖exCZeta n rp band j‖ = passSize n rp (isStop band)) ∧
    0 < ‖exCheb n rp j‖ ∧ 1 ≤ Λ * ‖exCheb n rp j‖ ∧
    (band ≠ .bandpass → ‖exCZeta n rp band j‖ = ‖exCheb n rp j‖⁻¹) := by
  obtain ⟨-, hmu, -⟩ := mu_facts hn hrp
  obtain ⟨-, -, jc, js⟩ := angle_facts hn hj
  obtain ⟨p1, p2⟩ := exCheb_parts n rp j
  have hN := exCheb_norm n rp j
  obtain ⟨-, hLC⟩ := exCheb_bounds hn hrp j
  have hn0 : (0 : ℝ) < n := by exact_mod_cast Nat.pos_of_ne_zero hn
  have hS0 : 0 < Real.sinh (exMu n rp) := Real.sinh_pos_iff.mpr hmu
  have hC1 := Real.one_le_cosh (exMu n rp)
  have hΛ2 : 1 ≤ Λ := hC1.trans hΛ
  obtain ⟨L, hL⟩ : ∃ L, L = ‖exCheb n rp j‖ := ⟨_, rfl⟩
  rw [← hL] at hN hLC
  have hL0' : 0 ≤ L := by rw [hL]; exact norm_nonneg _
  have hSL : Real.sinh (exMu n rp) ≤ L := by
    refine (sq_le_sq₀ hS0.le hL0').mp ?_
    rw [hN]; linarith [sq_nonneg (Real.sin (Real.pi * j / (2 * n)))]
  have hL0 : 0 < L := lt_of_lt_of_le hS0 hSL
  have hLΛ : L ≤ Λ := hLC.trans hΛ
  have hLΛ1 : 1 ≤ Λ * L := hΛ1.trans (mul_le_mul_of_nonneg_left hSL (by linarith))
  -- the direction
  have dre : (exCheb n rp j).re ≤ -(1 / (n * Λ ^ 2) * L) := by
    rw [p1, neg_le_neg_iff]
    have i1 : 1 / (n * Λ ^ 2) * L ≤ 1 / (n * Λ ^ 2) * Λ := mul_le_mul_of_nonneg_left hLΛ (by positivity)
    have i2 : 1 / (n * Λ ^ 2) * Λ = Λ⁻¹ * (1 / n) := by field_simp
    have i3 : Λ⁻¹ ≤ Real.sinh (exMu n rp) := by
      rw [inv_le_iff_one_le_mul₀' (by linarith)]; exact hΛ1
    rw [i2] at i1
    exact i1.trans (mul_le_mul i3 jc (by positivity) hS0.le)
  have dim : j ≠ 0 → 1 / n * L ≤ |(exCheb n rp j).im| := by
    intro hj0
    rw [p2, abs_neg, abs_mul, abs_of_pos (by linarith : 0 < Real.cosh (exMu n rp)), mul_comm]
    exact mul_le_mul hLC (js hj0) (by positivity) (by linarith)
  have d0 : j = 0 → (exCheb n rp j).im = 0 ∧ L = Real.sinh (exMu n rp) := by
    rintro rfl
    constructor
    · rw [p2]; simp
    · have : L ^ 2 = Real.sinh (exMu n rp) ^ 2 := by rw [hN]; simp
      exact (pow_left_inj₀ hL0.le hS0.le (by norm_num)).mp this
  rw [← hL]
  by_cases hb : band = .bandpass
  · have e1 : exCZeta n rp band j = exCheb n rp j := by rw [exCZeta, if_pos hb]
    rw [e1, ← hL]
    refine ⟨hΛ2, hL0, hLΛ, hLΛ1, dre, dim, fun hj0 => ⟨(d0 hj0).1, ?_⟩, hL0, hLΛ1, fun h => absurd hb h⟩
    rw [(d0 hj0).2, passSize, isStop]
    simp [hb]; rfl
  · have e1 : exCZeta n rp band j = (exCheb n rp j)⁻¹ := by rw [exCZeta, if_neg hb]
    have e2 : Complex.normSq (exCheb n rp j) = L ^ 2 := by rw [← Complex.sq_norm, hL]
    have e3 : L⁻¹ = L / L ^ 2 := by field_simp
    rw [e1, norm_inv, ← hL, Complex.inv_re, Complex.inv_im, e2]
    have hL2 : 0 < L ^ 2 := by positivity
    refine ⟨hΛ2, by positivity, ?_, ?_, ?_, fun hj0 => ?_, fun hj0 => ⟨?_, ?_⟩, hL0, hLΛ1, fun _ => rfl⟩
    · rw [inv_le_iff_one_le_mul₀ hL0]; exact hLΛ1
    · rw [← div_eq_mul_inv, le_div_iff₀ hL0]; linarith
    · rw [e3, ← mul_div_assoc, ← neg_div]
      exact div_le_div_of_nonneg_right dre hL2.le
    · rw [e3, ← mul_div_assoc, abs_div, abs_neg, abs_of_pos hL2]
      exact div_le_div_of_nonneg_right (dim hj0) hL2.le
    · rw [(d0 hj0).1]; simp
    · rw [(d0 hj0).2, passSize, isStop]
      simp [hb]; rfl

end SciRs.Rounded

import Verif.Lemmas.Rounded.BandError

/-! # The poles of Butterworth band-pass and band-stop designs in floating point -/

namespace SciRs.Rounded

open SciRs.Spec SciRs.Design

/-- The computed half bandwidth. -/
noncomputable def Arith.half (A : Arith) (w0 w1 : ℝ) : ℝ := A.div (A.sub w1 w0) 2

/-- The computed centre of the roots. -/
noncomputable def Arith.shift (A : Arith) (n : ℕ) (band : Band) (w0 w1 : ℝ) (j : ℤ) : ℂ :=
  let ζ := -A.cexp ⟨0, A.div (A.mul A.pi (A.ofInt j)) (A.ofInt (2 * n))⟩
  if band = .bandpass then A.cmul ζ (A.half w0 w1 : ℝ) else A.cmul (A.cdiv (⟨0, A.half w0 w1⟩ : ℂ) ζ) (-Complex.I)

/-- The computed half difference of the roots. -/
noncomputable def Arith.radius (A : Arith) (n : ℕ) (band : Band) (w0 w1 : ℝ) (j : ℤ) : ℂ :=
  A.csqrt (A.csub (A.csq (A.shift n band w0 w1 j)) (A.powi (A.sqrt (A.mul w0 w1)) 2 : ℝ))

/-- The computed pre-warped edge. -/
noncomputable def Arith.warped (A : Arith) (e : ℝ) : ℝ := A.mul (A.mul 2 2) (A.tan (A.div (A.mul A.pi e) 2))

/-- The computed bilinear transformation. -/
noncomputable def Arith.bilin (A : Arith) (p : ℂ) : ℂ :=
  A.cdiv (A.cadd (A.mul 2 2 : ℝ) p) (A.csub (A.mul 2 2 : ℝ) p)

/-- The poles and zeros of the digital filter, in any arithmetic. -/
theorem band_poles {A : Arith} {n : ℕ} {wn : List ℝ} {rp rs : Option ℝ} {band : Band} {fs : Option ℝ} {g : Zpk}
    {e0 e1 : ℝ} (he : edges A wn fs = [e0, e1]) (hb : band = .bandpass ∨ band = .bandstop)
    (h : design A n wn rp rs band .butterworth false fs = .ok g) :
    g.p = (stepRange (-(n : ℤ) + 1) n).map (fun j =>
        A.bilin (A.cadd (A.shift n band (A.warped e0) (A.warped e1) j) (A.radius n band (A.warped e0) (A.warped e1) j))) ++
      (stepRange (-(n : ℤ) + 1) n).map (fun j =>
        A.bilin (A.csub (A.shift n band (A.warped e0) (A.warped e1) j) (A.radius n band (A.warped e0) (A.warped e1) j))) ∧
    (band = .bandstop → ∀ x ∈ g.z,
      x = A.bilin ⟨0, A.mul 1 (A.sqrt (A.mul (A.warped e0) (A.warped e1)))⟩ ∨
      x = A.bilin ⟨0, A.mul (-1) (A.sqrt (A.mul (A.warped e0) (A.warped e1)))⟩ ∨ x = -1) := by
  unfold design at h
  simp only [bind_eq_ok] at h
  obtain ⟨w, hw, f, hf, v, hv, f', hf', h⟩ := h
  rw [validate_eq_ok] at hw
  obtain ⟨rfl, -⟩ := hw
  unfold warp at hv
  rw [if_pos rfl, he] at hv
  obtain ⟨u, -, hv⟩ := bind_eq_ok.mp hv
  have hv2 : v = [A.warped e0, A.warped e1] := by
    simpa [pure, Except.pure, Arith.warped] using hv.symm
  subst hv2
  cases hf
  unfold discretise bilinear at h
  rw [if_pos rfl] at h
  obtain ⟨d, -, h⟩ := bind_eq_ok.mp h
  cases h
  rcases hb with rfl | rfl
  · simp only [bandTransform, lp2bp] at hf'
    obtain ⟨d', -, hf'⟩ := bind_eq_ok.mp hf'
    cases hf'
    constructor
    · simp [buttap, splitPm, Function.comp_def, Arith.bilin, Arith.shift, Arith.radius, Arith.half]
    · simp
  · simp only [bandTransform, lp2bs] at hf'
    obtain ⟨d', -, hf'⟩ := bind_eq_ok.mp hf'
    cases hf'
    constructor
    · simp [buttap, splitPm, Function.comp_def, Arith.bilin, Arith.shift, Arith.radius, Arith.half]
    · intro _ x hx
      simp [buttap, bsZeros, Arith.bilin] at hx ⊢
      tauto

/-- The exact prototype pole, or its inverse. -/
noncomputable def exZeta (n : ℕ) (band : Band) (j : ℤ) : ℂ :=
  if band = .bandpass then exProto n j else (exProto n j)⁻¹

/-- The exact centre of the roots. -/
noncomputable def exShift (n : ℕ) (band : Band) (w0 w1 : ℝ) (j : ℤ) : ℂ := ((w1 - w0) / 2 : ℝ) * exZeta n band j

/-- The exact half difference of the roots. -/
noncomputable def exRadius (n : ℕ) (band : Band) (w0 w1 : ℝ) (j : ℤ) : ℂ :=
  csqrt (exShift n band w0 w1 j ^ 2 - (w0 * w1 : ℝ))

/-- The exact bilinear transformation. -/
noncomputable def exBilin (p : ℂ) : ℂ := (4 + p) / (4 - p)

theorem band_poles_ex {eps : ℝ} {n : ℕ} {wn : List ℝ} {rp rs : Option ℝ} {band : Band} {fs : Option ℝ} {g : Zpk}
    {e0 e1 : ℝ} (he : Spec.edges wn fs = [e0, e1]) (hW : 0 ≤ exWarp e0 * exWarp e1)
    (hb : band = .bandpass ∨ band = .bandstop)
    (h : design (.exact eps) n wn rp rs band .butterworth false fs = .ok g) :
    g.p = (stepRange (-(n : ℤ) + 1) n).map (fun j =>
        exBilin (exShift n band (exWarp e0) (exWarp e1) j + exRadius n band (exWarp e0) (exWarp e1) j)) ++
      (stepRange (-(n : ℤ) + 1) n).map (fun j =>
        exBilin (exShift n band (exWarp e0) (exWarp e1) j - exRadius n band (exWarp e0) (exWarp e1) j)) := by
  have he' : edges (.exact eps) wn fs = [e0, e1] := by
    rw [← he]
    cases fs <;> rfl
  rw [(band_poles he' hb h).1]
  have ew : ∀ e, (Arith.exact eps).warped e = exWarp e := by
    intro e
    change 2 * 2 * Real.tan (Real.pi * e / 2) = _
    rw [exWarp]; ring
  have eb : ∀ p, (Arith.exact eps).bilin p = exBilin p := by
    intro p
    change (((2 * 2 : ℝ) : ℂ) + p) / (((2 * 2 : ℝ) : ℂ) - p) = _
    rw [exBilin]; push_cast; norm_num
  have es : ∀ j, (Arith.exact eps).shift n band (exWarp e0) (exWarp e1) j =
      exShift n band (exWarp e0) (exWarp e1) j := by
    intro j
    have eζ : -Complex.exp (⟨0, Real.pi * ((j : ℤ) : ℝ) / ((2 * n : ℤ) : ℝ)⟩ : ℂ) = exProto n j := by
      rw [exProto]; push_cast; rfl
    have key : (if band = .bandpass then -Complex.exp (⟨0, Real.pi * ((j : ℤ) : ℝ) / ((2 * n : ℤ) : ℝ)⟩ : ℂ) *
          (((exWarp e1 - exWarp e0) / 2 : ℝ) : ℂ)
        else (⟨0, (exWarp e1 - exWarp e0) / 2⟩ : ℂ) /
          (-Complex.exp (⟨0, Real.pi * ((j : ℤ) : ℝ) / ((2 * n : ℤ) : ℝ)⟩ : ℂ)) * (-Complex.I)) =
        exShift n band (exWarp e0) (exWarp e1) j := by
      rw [eζ, exShift, exZeta]
      split
      · rw [mul_comm]
      · have : (⟨0, (exWarp e1 - exWarp e0) / 2⟩ : ℂ) = (((exWarp e1 - exWarp e0) / 2 : ℝ) : ℂ) * Complex.I := by
          apply Complex.ext <;> simp
        rw [this, div_eq_mul_inv]
        linear_combination -(((exWarp e1 - exWarp e0) / 2 : ℝ) : ℂ) * (exProto n j)⁻¹ * Complex.I_mul_I
    exact key
  have er : ∀ j, (Arith.exact eps).radius n band (exWarp e0) (exWarp e1) j =
      exRadius n band (exWarp e0) (exWarp e1) j := by
    intro j
    change csqrt ((Arith.exact eps).shift n band (exWarp e0) (exWarp e1) j ^ 2 -
      ((√(exWarp e0 * exWarp e1) ^ 2 : ℝ) : ℂ)) = _
    rw [es, Real.sq_sqrt hW, exRadius]
  rw [ew, ew]
  congr 1 <;> refine List.map_congr_left (fun j _ => ?_) <;> rw [eb, es, er] <;> rfl

theorem exZeta_parts {n : ℕ} (band : Band) (j : ℤ) :
    ‖exZeta n band j‖ = 1 ∧ (exZeta n band j).re = -Real.cos (Real.pi * j / (2 * n)) ∧
    |(exZeta n band j).im| = |Real.sin (Real.pi * j / (2 * n))| := by
  obtain ⟨h1, h2⟩ := exProto_parts n j
  have h3 := exProto_norm n j
  unfold exZeta
  split
  · exact ⟨h3, h1, by rw [h2, abs_neg]⟩
  · have h4 : Complex.normSq (exProto n j) = 1 := by rw [← Complex.sq_norm, h3]; norm_num
    refine ⟨by rw [norm_inv, h3, inv_one], ?_, ?_⟩
    · rw [Complex.inv_re, h4, h1, div_one]
    · rw [Complex.inv_im, h4, h2, div_one, neg_neg]

theorem exZeta_bounds {n : ℕ} (hn : n ≠ 0) (band : Band) {j : ℤ} (hj : j ∈ stepRange (-(n : ℤ) + 1) n) :
    (exZeta n band j).re ≤ -(1 / n) ∧ (j ≠ 0 → 1 / n ≤ |(exZeta n band j).im|) ∧
      (j = 0 → (exZeta n band j).im = 0) := by
  obtain ⟨-, p1, p2⟩ := exZeta_parts (n := n) band j
  have hn0 : (0 : ℝ) < n := by exact_mod_cast Nat.pos_of_ne_zero hn
  have hpi := Real.pi_pos
  obtain ⟨j1, j2⟩ := mem_stepRange_sym hj
  have ja : |(j : ℝ)| + 1 ≤ n := by
    rw [← Int.cast_abs]
    have : |j| + 1 ≤ (n : ℤ) := by rcases abs_cases j with h | h <;> omega
    exact_mod_cast this
  obtain ⟨x, hx⟩ : ∃ x, x = Real.pi * j / (2 * n) := ⟨_, rfl⟩
  rw [← hx] at p1 p2
  have hxa : 2 / Real.pi * |x| = |(j : ℝ)| / n := by
    rw [hx, abs_div, abs_mul, abs_of_pos hpi, abs_of_pos (by positivity : (0 : ℝ) < 2 * n)]
    field_simp
  have hx2 : |x| ≤ Real.pi / 2 := by
    rw [hx, abs_div, abs_mul, abs_of_pos hpi, abs_of_pos (by positivity : (0 : ℝ) < 2 * n), div_le_iff₀ (by positivity)]
    nlinarith
  refine ⟨?_, fun hj0 => ?_, fun hj0 => ?_⟩
  · have := Real.one_sub_mul_le_cos (abs_nonneg x) hx2
    rw [hxa, Real.cos_abs] at this
    rw [p1, neg_le_neg_iff]
    refine le_trans ?_ this
    rw [div_le_iff₀ hn0, sub_mul, div_mul_cancel₀ _ hn0.ne']
    linarith
  · have := Real.mul_abs_le_abs_sin hx2
    rw [hxa] at this
    rw [p2]
    refine le_trans (div_le_div_of_nonneg_right ?_ hn0.le) this
    rw [← Int.cast_abs]; exact_mod_cast Int.one_le_abs hj0
  · rw [hj0] at hx
    have : x = 0 := by rw [hx]; simp
    rw [this, Real.sin_zero, abs_zero] at p2
    exact abs_eq_zero.mp p2

end SciRs.Rounded

import Verif.Lemmas.Rounded.GainError
import Verif.Lemmas.Rounded.ChebPoles

/-! # The error of the gain of Chebyshev I low-pass and high-pass designs in floating point -/

namespace SciRs.Rounded

open SciRs.Spec SciRs.Design

/-- The gain of the digital filter, in any arithmetic. -/
theorem cheb_gain {A : Arith} {n : ℕ} (hn : n ≠ 0) {wn : List ℝ} {rp : ℝ} {rs : Option ℝ} {band : Band}
    {fs : Option ℝ} {g : Zpk} {e : ℝ} (he : edges A wn fs = [e]) (hb : band = .lowpass ∨ band = .highpass)
    (h : design A n wn (some rp) rs band .chebyshevI false fs = .ok g) :
    g.k =
      let w := A.mul (A.mul 2 2) (A.tan (A.div (A.mul A.pi e) 2))
      let ε := A.sqrt (A.sub (A.powf 10 (A.div rp 10)) 1)
      let mu := A.div (A.asinh (A.div 1 ε)) (A.ofInt n)
      let ζ := fun j : ℤ => -A.csinh ⟨mu, A.mul A.pi (A.div (A.ofInt j) (A.ofInt (2 * n)))⟩
      let p := fun j : ℤ => if band = .lowpass then A.cmul (ζ j) (w : ℂ) else A.cdiv (w : ℂ) (ζ j)
      let J := stepRange (-(n : ℤ) + 1) n
      let k0 := (foldMul A (J.map (fun j => -ζ j))).re
      let k := if n % 2 = 0 then A.div k0 (A.sqrt (A.add 1 (A.mul ε ε))) else k0
      let D := foldMul A (J.map (fun j => A.csub (A.mul 2 2 : ℝ) (p j)))
      if band = .lowpass then A.mul (A.mul k (A.powi w n)) (A.cdiv 1 D).re
      else A.mul (A.mul k (A.cdiv 1 (foldMul A (J.map (fun j => A.cmul (-1) (ζ j))))).re)
        (A.cdiv (foldMul A (J.map (fun _ => A.csub (A.mul 2 2 : ℝ) 0))) D).re := by
  unfold design at h
  simp only [bind_eq_ok] at h
  obtain ⟨w, hw, f, hf, v, hv, f', hf', h⟩ := h
  rw [validate_eq_ok] at hw
  obtain ⟨rfl, -⟩ := hw
  unfold warp at hv
  rw [if_pos rfl, he] at hv
  obtain ⟨u, -, hv⟩ := bind_eq_ok.mp hv
  have hv2 : v = [A.mul (A.mul 2 2) (A.tan (A.div (A.mul A.pi e) 2))] := by
    simpa [pure, Except.pure] using hv.symm
  subst hv2
  cases hf
  unfold discretise bilinear at h
  rw [if_pos rfl] at h
  obtain ⟨d, -, h⟩ := bind_eq_ok.mp h
  cases h
  have hd : ∀ d', relativeDegree (cheb1ap A n rp).z (cheb1ap A n rp).p = .ok d' → d' = n := by
    intro d' hd'
    rw [relativeDegree_ok (by simp [cheb1ap, hn])] at hd'
    cases hd'
    simp [cheb1ap, hn, cheb1Poles, stepRange_sym_length]
  rcases hb with rfl | rfl
  · simp only [bandTransform, lp2lp] at hf'
    obtain ⟨d', hd', hf'⟩ := bind_eq_ok.mp hf'
    obtain rfl := hd d' hd'
    cases hf'
    simp [cheb1ap, hn, cheb1Poles, Function.comp_def, foldMul]
  · simp only [bandTransform, lp2hp] at hf'
    obtain ⟨d', hd', hf'⟩ := bind_eq_ok.mp hf'
    obtain rfl := hd d' hd'
    cases hf'
    have hrep : ∀ c : ℂ, (stepRange (-(d' : ℤ) + 1) d').map (fun _ => c) = List.replicate d' c := by
      intro c
      rw [List.map_const', stepRange_sym_length]
    simp [cheb1ap, hn, cheb1Poles, Function.comp_def, foldMul, hrep]

/-- The zeros of the digital filter, in any arithmetic. -/
theorem cheb_zeros {A : Arith} {n : ℕ} (hn : n ≠ 0) {wn : List ℝ} {rp : ℝ} {rs : Option ℝ} {band : Band}
    {fs : Option ℝ} {g : Zpk} {e : ℝ} (he : edges A wn fs = [e]) (hb : band = .lowpass ∨ band = .highpass)
    (h : design A n wn (some rp) rs band .chebyshevI false fs = .ok g) :
    g.z = List.replicate n (if band = .lowpass then -1
      else A.cdiv (A.cadd (A.mul 2 2 : ℝ) 0) (A.csub (A.mul 2 2 : ℝ) 0)) := by
  unfold design at h
  simp only [bind_eq_ok] at h
  obtain ⟨w, hw, f, hf, v, hv, f', hf', h⟩ := h
  rw [validate_eq_ok] at hw
  obtain ⟨rfl, -⟩ := hw
  unfold warp at hv
  rw [if_pos rfl, he] at hv
  obtain ⟨u, -, hv⟩ := bind_eq_ok.mp hv
  have hv2 : v = [A.mul (A.mul 2 2) (A.tan (A.div (A.mul A.pi e) 2))] := by
    simpa [pure, Except.pure] using hv.symm
  subst hv2
  cases hf
  unfold discretise bilinear at h
  rw [if_pos rfl] at h
  obtain ⟨d, hd', h⟩ := bind_eq_ok.mp h
  cases h
  have hz : (cheb1ap A n rp).z = [] := by simp [cheb1ap, hn]
  have hl : (cheb1ap A n rp).p.length = n := by simp [cheb1ap, hn, cheb1Poles, stepRange_sym_length]
  rcases hb with rfl | rfl
  · simp only [bandTransform, lp2lp] at hf'
    obtain ⟨d', hd2, hf'⟩ := bind_eq_ok.mp hf'
    cases hf'
    rw [relativeDegree_ok (by simp [hz])] at hd'
    cases hd'
    simp [hz, hl]
  · simp only [bandTransform, lp2hp] at hf'
    obtain ⟨d', hd2, hf'⟩ := bind_eq_ok.mp hf'
    rw [relativeDegree_ok (by simp [hz])] at hd2
    cases hd2
    cases hf'
    rw [relativeDegree_ok (by simp [hz, hl])] at hd'
    cases hd'
    simp [hz, hl]

/-- The exact product of the `4 - p`. -/
noncomputable def exCDen (n : ℕ) (rp : ℝ) (band : Band) (e : ℝ) : ℂ :=
  ((stepRange (-(n : ℤ) + 1) n).map (fun j => 4 - exCAnalog n rp band e j)).prod

/-- The exact product of the `-ζ`. -/
noncomputable def exCUnit (n : ℕ) (rp : ℝ) : ℂ :=
  ((stepRange (-(n : ℤ) + 1) n).map (fun j => -exCheb n rp j)).prod

/-- The exact gain of the prototype. -/
noncomputable def exKp (n : ℕ) (rp : ℝ) : ℝ :=
  if n % 2 = 0 then (exCUnit n rp).re / √(1 + exRip rp * exRip rp) else (exCUnit n rp).re

/-- The exact gain. -/
noncomputable def exCGain (n : ℕ) (rp : ℝ) (band : Band) (e : ℝ) : ℝ :=
  if band = .lowpass then exKp n rp * exWarp e ^ n * (1 / exCDen n rp band e).re
  else exKp n rp * (1 / exCUnit n rp).re * (4 ^ n / exCDen n rp band e).re

/-- The computed product of the `4 - p`. -/
noncomputable def flCDen (r : Rounding) (m : Libm) (n : ℕ) (rp : ℝ) (band : Band) (e : ℝ) : ℂ :=
  foldMul (.ofRounding r m) ((stepRange (-(n : ℤ) + 1) n).map (fun j =>
    (⟨r.rnd (r.rnd (2 * 2) - (flCAnalog r m n rp band e j).re), r.rnd (0 - (flCAnalog r m n rp band e j).im)⟩ : ℂ)))

/-- The product of the `-ζ` as computed with the prototype. -/
noncomputable def flCUnit (r : Rounding) (m : Libm) (n : ℕ) (rp : ℝ) : ℂ :=
  foldMul (.ofRounding r m) ((stepRange (-(n : ℤ) + 1) n).map (fun j => -flCheb r m n rp j))

/-- The product of the `-1·ζ` as computed by the band transformation. -/
noncomputable def flCUnit' (r : Rounding) (m : Libm) (n : ℕ) (rp : ℝ) : ℂ :=
  foldMul (.ofRounding r m) ((stepRange (-(n : ℤ) + 1) n).map (fun j => flMul r (-1) (flCheb r m n rp j)))

/-- The computed amplitude correction of even orders. -/
noncomputable def flRoot (r : Rounding) (m : Libm) (rp : ℝ) : ℝ :=
  r.rnd √(r.rnd (1 + r.rnd (flRip r m rp * flRip r m rp)))

/-- The computed gain of the prototype. -/
noncomputable def flKp (r : Rounding) (m : Libm) (n : ℕ) (rp : ℝ) : ℝ :=
  if n % 2 = 0 then r.rnd ((flCUnit r m n rp).re / flRoot r m rp) else (flCUnit r m n rp).re

/-- The computed gain. -/
noncomputable def flCGain (r : Rounding) (m : Libm) (n : ℕ) (rp : ℝ) (band : Band) (e : ℝ) : ℝ :=
  if band = .lowpass then
    r.rnd (r.rnd (flKp r m n rp * m.powi (flWarp r m e) n) * (flDiv r 1 (flCDen r m n rp band e)).re)
  else r.rnd (r.rnd (flKp r m n rp * (flDiv r 1 (flCUnit' r m n rp)).re) *
    (flDiv r (flNum r m n) (flCDen r m n rp band e)).re)

theorem cheb_gain_fl {r : Rounding} {m : Libm} {n : ℕ} (hn : n ≠ 0) {wn : List ℝ} {rp : ℝ} {rs : Option ℝ}
    {band : Band} {fs : Option ℝ} {g : Zpk} {e : ℝ} (he : edges (.ofRounding r m) wn fs = [e])
    (hb : band = .lowpass ∨ band = .highpass)
    (h : design (.ofRounding r m) n wn (some rp) rs band .chebyshevI false fs = .ok g) :
    g.k = flCGain r m n rp band e := by
  rw [cheb_gain hn he hb h]
  rfl

theorem cheb_gain_ex {eps : ℝ} {n : ℕ} (hn : n ≠ 0) {wn : List ℝ} {rp : ℝ} {rs : Option ℝ} {band : Band}
    {fs : Option ℝ} {g : Zpk} {e : ℝ} (he : Spec.edges wn fs = [e])
    (hb : band = .lowpass ∨ band = .highpass)
    (h : design (.exact eps) n wn (some rp) rs band .chebyshevI false fs = .ok g) :
    g.k = exCGain n rp band e := by
  have he' : edges (.exact eps) wn fs = [e] := by
    rw [← he]
    cases fs <;> rfl
  rw [cheb_gain hn he' hb h]
  have hf : ∀ l : List ℂ, foldMul (.exact eps) l = l.prod := fun l => Design.foldMul_eq l
  simp only [hf]
  have e4 : (((2 * 2 : ℝ)) : ℂ) = 4 := by push_cast; norm_num
  have ew : (2 * 2 * Real.tan (Real.pi * e / 2) : ℝ) = exWarp e := by
    rw [exWarp]; ring
  have eζ : ∀ j : ℤ, -Complex.sinh (⟨Real.arsinh (1 / Real.sqrt ((10 : ℝ) ^ (rp / 10) - 1)) / ((n : ℤ) : ℝ),
      Real.pi * (((j : ℤ) : ℝ) / ((2 * n : ℤ) : ℝ))⟩ : ℂ) = exCheb n rp j := by
    intro j
    rw [exCheb, exMu, exRip, ← mul_div_assoc]; push_cast; rfl
  have h1 : (stepRange (-(n : ℤ) + 1) n).map (fun _ => (4 : ℂ)) = List.replicate n 4 := by
    rw [List.map_const', stepRange_sym_length]
  obtain ⟨ζ, hζ⟩ : ∃ ζ : ℤ → ℂ, ζ = fun j : ℤ => -Complex.sinh (⟨Real.arsinh (1 / Real.sqrt ((10 : ℝ) ^ (rp / 10) - 1)) / ((n : ℤ) : ℝ),
      Real.pi * (((j : ℤ) : ℝ) / ((2 * n : ℤ) : ℝ))⟩ : ℂ) := ⟨_, rfl⟩
  have key : ∀ j, ζ j = exCheb n rp j := fun j => by rw [hζ]; exact eζ j
  have : (let k0 := (((stepRange (-(n : ℤ) + 1) n).map (fun j => -ζ j)).prod).re
    let k := if n % 2 = 0 then k0 / √(1 + √((10 : ℝ) ^ (rp / 10) - 1) * √((10 : ℝ) ^ (rp / 10) - 1)) else k0
    let D := ((stepRange (-(n : ℤ) + 1) n).map (fun j => (((2 * 2 : ℝ)) : ℂ) -
      (if band = .lowpass then ζ j * ((2 * 2 * Real.tan (Real.pi * e / 2) : ℝ) : ℂ)
        else ((2 * 2 * Real.tan (Real.pi * e / 2) : ℝ) : ℂ) / ζ j))).prod
    if band = .lowpass then k * (2 * 2 * Real.tan (Real.pi * e / 2)) ^ n * (1 / D).re
    else k * (1 / ((stepRange (-(n : ℤ) + 1) n).map (fun j => -1 * ζ j)).prod).re *
      (((stepRange (-(n : ℤ) + 1) n).map (fun _ => (((2 * 2 : ℝ)) : ℂ) - 0)).prod / D).re) = exCGain n rp band e := by
    simp only [ew, key, e4, sub_zero, neg_mul, one_mul, h1, List.prod_replicate]
    simp only [exCGain, exCDen, exKp, exCUnit, exCAnalog, exRip]
    rcases hb with rfl | rfl
    · simp [mul_comm]
    · simp
  rw [← this, hζ]
  rfl

variable {r : Rounding} {m : Libm} {h σ : ℝ}

theorem foldl_flMul_err' (S : Small r h σ) (hh : h ≤ 1 / 64) (hr : r.Nearest) {b c : ℝ} (hb0 : 0 < b) (hb1 : b ≤ 1)
    (hc : 0 ≤ c) {α : Type} (x x' : α → ℂ) (l : List α) (hx : ∀ q ∈ l, ‖x' q - x q‖ ≤ c * ‖x q‖)
    (h1 : ∀ q ∈ l, b ≤ ‖x q‖) :
    ∀ (a a' : ℂ) (E : ℝ), 0 ≤ E → σ ≤ ‖a‖ * b ^ l.length → ‖a' - a‖ ≤ E * ‖a‖ →
      ‖(l.map x').foldl (fun acc y => Rounded.flMul r acc y) a' - a * (l.map x).prod‖ ≤
        ((1 + E) * ((1 + c) * (1 + 4.4 * h)) ^ l.length - 1) * ‖a * (l.map x).prod‖ := by
  have h0 := S.h_nonneg
  have hk1 : 1 ≤ (1 + c) * (1 + 4.4 * h) := by nlinarith [mul_nonneg hc h0]
  induction l with
  | nil =>
    intro a a' E hE ha hE'
    simpa using hE'
  | cons q l ih =>
    intro a a' E hE ha hE'
    have hq := hx q (by simp)
    have hq1 := h1 q (by simp)
    have ih := ih (fun q hq => hx q (by simp [hq])) (fun q hq => h1 q (by simp [hq]))
      (a * x q) (Rounded.flMul r a' (x' q)) ((1 + E) * ((1 + c) * (1 + 4.4 * h)) - 1)
    have e1 : (1 + ((1 + E) * ((1 + c) * (1 + 4.4 * h)) - 1)) * ((1 + c) * (1 + 4.4 * h)) ^ l.length =
        (1 + E) * ((1 + c) * (1 + 4.4 * h)) ^ (q :: l).length := by
      rw [List.length_cons, pow_succ]; ring
    rw [e1] at ih
    rw [List.length_cons, pow_succ] at ha
    have hbl : 0 < b ^ l.length := pow_pos hb0 _
    have hbl1 : b ^ l.length ≤ 1 := pow_le_one₀ hb0.le hb1
    have hab : ‖a‖ * (b ^ l.length * b) ≤ ‖a‖ * ‖x q‖ * b ^ l.length := by
      have := mul_le_mul_of_nonneg_left hq1 (mul_nonneg (norm_nonneg a) hbl.le)
      linarith
    rw [List.map_cons, List.foldl_cons, List.map_cons, List.prod_cons, ← mul_assoc]
    refine ih ?_ ?_ ?_
    · nlinarith
    · rw [norm_mul]; linarith
    · have n1 : ‖a'‖ ≤ (1 + E) * ‖a‖ := by
        have := norm_add_le (a' - a) a
        rw [sub_add_cancel] at this
        linarith
      have n2 : ‖x' q‖ ≤ (1 + c) * ‖x q‖ := by
        have := norm_add_le (x' q - x q) (x q)
        rw [sub_add_cancel] at this
        linarith
      have n3 : ‖a'‖ * ‖x' q‖ ≤ (1 + E) * (1 + c) * (‖a‖ * ‖x q‖) := by
        calc ‖a'‖ * ‖x' q‖ ≤ ((1 + E) * ‖a‖) * ((1 + c) * ‖x q‖) :=
              mul_le_mul n1 n2 (norm_nonneg _) (by positivity)
          _ = _ := by ring
      have n0 : 0 ≤ ‖a‖ * ‖x q‖ := by positivity
      have n4 : σ ≤ ‖a‖ * ‖x q‖ := by
        have := mul_le_mul_of_nonneg_left hbl1 n0
        linarith
      have n5 : σ ≤ (1 + E) * (1 + c) * (‖a‖ * ‖x q‖) := by
        have : 1 * (‖a‖ * ‖x q‖) ≤ (1 + E) * (1 + c) * (‖a‖ * ‖x q‖) :=
          mul_le_mul_of_nonneg_right (by nlinarith [mul_nonneg hE hc]) n0
        linarith
      have s1 := S.flMul hh hr n3 n5
      have s2 : ‖a' * x' q - a * x q‖ ≤ ((1 + E) * (1 + c) - 1) * (‖a‖ * ‖x q‖) := by
        have e : a' * x' q - a * x q = (a' - a) * x' q + a * (x' q - x q) := by ring
        rw [e]
        refine (norm_add_le _ _).trans ?_
        rw [norm_mul, norm_mul]
        have t1 : ‖a' - a‖ * ‖x' q‖ ≤ (E * ‖a‖) * ((1 + c) * ‖x q‖) :=
          mul_le_mul hE' n2 (norm_nonneg _) (by positivity)
        have t2 : ‖a‖ * ‖x' q - x q‖ ≤ ‖a‖ * (c * ‖x q‖) := mul_le_mul_of_nonneg_left hq (norm_nonneg _)
        linarith
      have s3 := norm_add_le (Rounded.flMul r a' (x' q) - a' * x' q) (a' * x' q - a * x q)
      rw [sub_add_sub_cancel] at s3
      rw [norm_mul a]
      linarith

/-- The error of a product of factors that may be small. -/
theorem foldMul_err' (S : Small r h σ) (hh : h ≤ 1 / 64) (hr : r.Nearest) {m : Libm} {b c κ : ℝ}
    (hb0 : 0 < b) (hb1 : b ≤ 1)
    (hc : 0 ≤ c) (hκ : (1 + c) * (1 + 4.4 * h) ≤ 1 + κ) {α : Type} (x x' : α → ℂ) (l : List α)
    (hx : ∀ q ∈ l, ‖x' q - x q‖ ≤ c * ‖x q‖) (h1 : ∀ q ∈ l, b ≤ ‖x q‖) (hσ : σ ≤ b ^ l.length)
    (hl : l.length * κ ≤ 1 / 11) :
    ‖foldMul (.ofRounding r m) (l.map x') - (l.map x).prod‖ ≤ 1.1 * (l.length * κ) * ‖(l.map x).prod‖ := by
  have h0 := S.h_nonneg
  have hκ0 : 0 ≤ κ := by nlinarith [mul_nonneg hc h0]
  have hp := one_add_pow_le hκ0 hl
  have hp' : ((1 + c) * (1 + 4.4 * h)) ^ l.length ≤ (1 + κ) ^ l.length :=
    pow_le_pow_left₀ (by positivity) hκ _
  have := foldl_flMul_err' S hh hr hb0 hb1 hc x x' l hx h1 1 1 0 le_rfl (by simpa using hσ) (by simp)
  rw [one_mul, add_zero, one_mul] at this
  refine this.trans (mul_le_mul_of_nonneg_right ?_ (norm_nonneg _))
  linarith

theorem le_norm_prod {l : List ℂ} {b : ℝ} (hb : 0 ≤ b) (hl : ∀ x ∈ l, b ≤ ‖x‖) : b ^ l.length ≤ ‖l.prod‖ := by
  induction l with
  | nil => simp
  | cons a l ih =>
    rw [List.prod_cons, norm_mul, List.length_cons, pow_succ, mul_comm]
    exact mul_le_mul (hl a (by simp)) (ih (fun x hx => hl x (by simp [hx]))) (by positivity) (norm_nonneg _)

theorem exCheb_conj (n : ℕ) (rp : ℝ) (j : ℤ) : (starRingEnd ℂ) (exCheb n rp j) = exCheb n rp (-j) := by
  obtain ⟨a1, a2⟩ := exCheb_parts n rp j
  obtain ⟨b1, b2⟩ := exCheb_parts n rp (-j)
  have e : Real.pi * ((-j : ℤ) : ℝ) / (2 * n) = -(Real.pi * j / (2 * n)) := by push_cast; ring
  rw [e, Real.cos_neg] at b1
  rw [e, Real.sin_neg] at b2
  apply Complex.ext
  · rw [Complex.conj_re, a1, b1]
  · rw [Complex.conj_im, a2, b2]; ring

theorem exCAnalog_conj (n : ℕ) (rp : ℝ) (band : Band) (e : ℝ) (j : ℤ) :
    (starRingEnd ℂ) (exCAnalog n rp band e j) = exCAnalog n rp band e (-j) := by
  unfold exCAnalog
  split
  · rw [map_mul, Complex.conj_ofReal, exCheb_conj]
  · rw [map_div₀, Complex.conj_ofReal, exCheb_conj]

/-- What the request says about the sizes. -/
theorem cheb_sizes {e : ℝ} (h0 : 0 < e) (h1 : e < 1) (hw : 0 < exWarp e) {n : ℕ} (hn : n ≠ 0) {rp : ℝ}
    (hrp : 0 < rp) {B σ κ : ℝ} (hκ : κ = rippleCond rp) (hB : B = (rippleFloor rp / n) ^ n)
    (hσ : σ = (rippleFloor rp * chebMargin n rp e / 20) ^ n) :
    0 < B ∧ B ≤ rippleFloor rp ∧ σ ≤ e * rippleFloor rp ^ 2 / (4 * n ^ 2 * rippleCond rp) ∧
    σ ≤ 0.1 * (B * B) ∧ σ ≤ 0.9 * (B * B * (1 / (κ * (4 + exWarp e))) ^ n) ∧
    σ ≤ B * B * (exWarp e / (κ * (4 + exWarp e))) ^ n := by
  obtain ⟨-, k1, -, -, -, -, g0, g1, -⟩ := ripple_facts hrp
  obtain ⟨s1, -, s3, s4⟩ := edge_sizes h0 h1 hw hn
  have hn1 : (1 : ℝ) ≤ n := by exact_mod_cast Nat.one_le_iff_ne_zero.mpr hn
  have hcm : chebMargin n rp e = e * (1 - e) * rippleFloor rp / (n ^ 2 * rippleCond rp) := rfl
  rw [← hκ] at k1 hcm ⊢
  have hκ0 : 0 < κ := by linarith
  generalize rippleFloor rp = γ at *
  have h1e : 0 < 1 - e := by linarith
  obtain ⟨x, hx⟩ : ∃ x, x = e * (1 - e) := ⟨_, rfl⟩
  have hx0 : 0 < x := by rw [hx]; positivity
  have hx4 : x ≤ 1 / 4 := by rw [hx]; nlinarith [sq_nonneg (e - 1 / 2)]
  rw [← hx] at s1 s3 s4
  have hβ0 : 0 < γ / n := by positivity
  have hβ1 : γ / n ≤ γ := div_le_self g0.le hn1
  have hB0 : 0 < B := by rw [hB]; positivity
  have hBγ : B ≤ γ := by
    rw [hB]; exact (pow_le_of_le_one hβ0.le (by linarith) hn).trans hβ1
  have hb0 : γ * chebMargin n rp e / 20 = x / 20 * (γ / n) * (γ / n) * (1 / κ) := by
    rw [hcm, hx]; field_simp
  have hσ' : σ = (x / 20) ^ n * (B * B) * (1 / κ) ^ n := by
    rw [hσ, hb0, mul_pow, mul_pow, mul_pow, hB]; ring
  have hki : (1 / κ) ^ n ≤ 1 := pow_le_one₀ (by positivity) (by rw [div_le_one hκ0]; exact k1)
  have hki0 : 0 < (1 / κ) ^ n := by positivity
  have hBB : 0 < B * B := by positivity
  have hx20 : (x / 20) ^ n ≤ x / 20 := pow_le_of_le_one (by positivity) (by linarith) hn
  refine ⟨hB0, hBγ, ?_, ?_, ?_, ?_⟩
  · have hle : γ * chebMargin n rp e / 20 ≤ 1 := by
      rw [hb0]
      have a1 : γ / n * (γ / n) ≤ 1 := by nlinarith
      have a2 : 1 / κ ≤ 1 := by rw [div_le_one hκ0]; exact k1
      have a3 : γ / n * (γ / n) * (1 / κ) ≤ 1 := mul_le_one₀ a1 (by positivity) a2
      have a4 : 0 < γ / n * (γ / n) * (1 / κ) := by positivity
      nlinarith
    have hnn : 0 ≤ γ * chebMargin n rp e / 20 := by rw [hb0]; positivity
    rw [hσ]
    refine (pow_le_of_le_one hnn hle hn).trans ?_
    rw [hb0]
    have e1 : e * γ ^ 2 / (4 * n ^ 2 * κ) = e / 4 * (γ / n) * (γ / n) * (1 / κ) := by
      field_simp
    rw [e1]
    refine mul_le_mul_of_nonneg_right (mul_le_mul_of_nonneg_right (mul_le_mul_of_nonneg_right ?_ hβ0.le) hβ0.le)
      (by positivity)
    have : x ≤ e := by rw [hx]; nlinarith
    linarith
  · rw [hσ']
    have a1 : (x / 20) ^ n * (B * B) * (1 / κ) ^ n ≤ (x / 20) ^ n * (B * B) * 1 :=
      mul_le_mul_of_nonneg_left hki (by positivity)
    have a2 : (x / 20) ^ n * (B * B) ≤ 0.1 * (B * B) := mul_le_mul_of_nonneg_right (by linarith) hBB.le
    linarith
  · rw [hσ', show (1 / (κ * (4 + exWarp e))) ^ n = (1 / (4 + exWarp e)) ^ n * (1 / κ) ^ n by
      rw [← mul_pow]; congr 1; field_simp]
    have := mul_le_mul_of_nonneg_right s3 (mul_pos hBB hki0).le
    linarith
  · rw [hσ', show (exWarp e / (κ * (4 + exWarp e))) ^ n = (exWarp e / (4 + exWarp e)) ^ n * (1 / κ) ^ n by
      rw [← mul_pow]; congr 1; field_simp]
    have := mul_le_mul_of_nonneg_right s4 (mul_pos hBB hki0).le
    linarith

/-- The computed denominator. -/
theorem cheb_den_err {e e' H : ℝ} {n : ℕ} (hn : n ≠ 0) {rp : ℝ} (hrp : 0 < rp) (S : Small r h σ) (hσ : σ ≤ 1 / 4)
    (hr : r.Nearest) (he0 : 0 < e) (he : e < 1) (hw : 0 < exWarp e) (hhH : h ≤ H) (hη : n * H ≤ 1 / 1024)
    (band : Band) (hb : band = .lowpass ∨ band = .highpass)
    (ea : ∀ j ∈ stepRange (-(n : ℤ) + 1) n,
      ‖flCAnalog r m n rp band e' j - exCAnalog n rp band e j‖ ≤ 38 * H * ‖exCAnalog n rp band e j‖) :
    1 ≤ ‖exCDen n rp band e‖ ∧ (exCDen n rp band e).im = 0 ∧
    (band = .lowpass → ‖exCDen n rp band e‖ ≤ (rippleCond rp * (4 + exWarp e)) ^ n) ∧
    (band = .highpass → ‖exCDen n rp band e‖ ≤ ((4 + exWarp e) / (rippleFloor rp / n)) ^ n) ∧
    ‖flCDen r m n rp band e' - exCDen n rp band e‖ ≤ 49.5 * (n * H) * ‖exCDen n rp band e‖ := by
  obtain ⟨-, hmu, -, f2, f3, -, -⟩ := mu_facts hn hrp
  obtain ⟨-, k1, -, -, -, -, g0, g1, -⟩ := ripple_facts hrp
  have h0 := S.h_nonneg
  have hH0 := h0.trans hhH
  have hn1 : (1 : ℝ) ≤ n := by exact_mod_cast Nat.one_le_iff_ne_zero.mpr hn
  have hHs : H ≤ 1 / 1024 := by nlinarith
  have h4 : ‖(4 : ℂ)‖ = 4 := by simp
  have fac : ∀ j ∈ stepRange (-(n : ℤ) + 1) n, 4 ≤ ‖4 - exCAnalog n rp band e j‖ ∧
      ‖(⟨r.rnd (r.rnd (2 * 2) - (flCAnalog r m n rp band e' j).re), r.rnd (0 - (flCAnalog r m n rp band e' j).im)⟩ : ℂ) -
        (4 - exCAnalog n rp band e j)‖ ≤ 40 * H * ‖4 - exCAnalog n rp band e j‖ := by
    intro j hj
    exact factor_err S hσ hr hhH hHs (cheb_margin hn hrp band he0 he hj rfl).1 (ea j hj)
  refine ⟨?_, ?_, ?_, ?_, ?_⟩
  · refine one_le_norm_prod (fun x hx => ?_)
    obtain ⟨j, hj, rfl⟩ := List.mem_map.mp hx
    linarith [(fac j hj).1]
  · refine prod_sym_real n (fun j => ?_)
    rw [map_sub, exCAnalog_conj, map_ofNat]
  · rintro rfl
    have := norm_prod_le (l := (stepRange (-(n : ℤ) + 1) n).map (fun j => 4 - exCAnalog n rp .lowpass e j))
      (c := rippleCond rp * (4 + exWarp e)) (fun x hx => by
        obtain ⟨j, hj, rfl⟩ := List.mem_map.mp hx
        refine (norm_sub_le _ _).trans ?_
        have hC := Real.one_le_cosh (exMu n rp)
        have b2 := (exCheb_bounds hn hrp j).2
        have b3 : ‖exCheb n rp j‖ ≤ rippleCond rp := by nlinarith
        rw [exCAnalog, if_pos rfl, norm_mul, Complex.norm_real, Real.norm_of_nonneg hw.le, h4]
        nlinarith)
    rwa [List.length_map, stepRange_sym_length] at this
  · rintro rfl
    have hβ : 0 < rippleFloor rp / n := by positivity
    have hβ1 : rippleFloor rp / n ≤ 1 := (div_le_self g0.le hn1).trans g1
    have := norm_prod_le (l := (stepRange (-(n : ℤ) + 1) n).map (fun j => 4 - exCAnalog n rp .highpass e j))
      (c := (4 + exWarp e) / (rippleFloor rp / n)) (fun x hx => by
        obtain ⟨j, hj, rfl⟩ := List.mem_map.mp hx
        refine (norm_sub_le _ _).trans ?_
        have b1 := (exCheb_bounds hn hrp j).1
        rw [exCAnalog, if_neg (by simp), norm_div, Complex.norm_real, Real.norm_of_nonneg hw.le, h4, add_div]
        refine add_le_add ?_ (div_le_div_of_nonneg_left hw.le hβ b1)
        rw [le_div_iff₀ hβ]
        linarith)
    rwa [List.length_map, stepRange_sym_length] at this
  · have k := foldMul_err (m := m) S hσ (by linarith) hr (c := 40 * H) (κ := 45 * H) (by positivity) (by linarith)
      (by nlinarith [mul_le_mul hHs hhH h0 (by norm_num)]) (fun j => 4 - exCAnalog n rp band e j) (fun j =>
        (⟨r.rnd (r.rnd (2 * 2) - (flCAnalog r m n rp band e' j).re), r.rnd (0 - (flCAnalog r m n rp band e' j).im)⟩ : ℂ))
      (stepRange (-(n : ℤ) + 1) n) (fun j hj => (fac j hj).2) (fun j hj => by linarith [(fac j hj).1])
      (by rw [stepRange_sym_length]; linarith)
    rw [stepRange_sym_length] at k
    refine k.trans (mul_le_mul_of_nonneg_right (by linarith) (norm_nonneg _))

/-- The products of the negated prototype poles. -/
theorem cheb_unit_err {H : ℝ} {n : ℕ} (hn : n ≠ 0) {rp : ℝ} (hrp : 0 < rp) (S : Small r h σ)
    (hσ : σ ≤ (rippleFloor rp / n) ^ n) (hr : r.Nearest) (hhH : h ≤ H) (hη : n * H ≤ 1 / 1024)
    (eζ : ∀ j ∈ stepRange (-(n : ℤ) + 1) n, ‖flCheb r m n rp j - exCheb n rp j‖ ≤ 16 * H * ‖exCheb n rp j‖) :
    (rippleFloor rp / n) ^ n ≤ ‖exCUnit n rp‖ ∧ ‖exCUnit n rp‖ ≤ rippleCond rp ^ n ∧ (exCUnit n rp).im = 0 ∧
    ‖flCUnit r m n rp - exCUnit n rp‖ ≤ 22.6 * (n * H) * ‖exCUnit n rp‖ ∧
    ‖flCUnit' r m n rp - exCUnit n rp‖ ≤ 28.6 * (n * H) * ‖exCUnit n rp‖ := by
  obtain ⟨-, hmu, -, f2, f3, -, -⟩ := mu_facts hn hrp
  obtain ⟨-, k1, -, -, -, -, g0, g1, -⟩ := ripple_facts hrp
  have h0 := S.h_nonneg
  have hH0 := h0.trans hhH
  have hn1 : (1 : ℝ) ≤ n := by exact_mod_cast Nat.one_le_iff_ne_zero.mpr hn
  have hHs : H ≤ 1 / 1024 := by nlinarith
  have hβ : 0 < rippleFloor rp / n := by positivity
  have hβ1 : rippleFloor rp / n ≤ 1 := (div_le_self g0.le hn1).trans g1
  have hHh : H * h ≤ 1 / 1024 * H := by
    have := mul_le_mul_of_nonneg_left (hhH.trans hHs) hH0
    linarith
  refine ⟨?_, ?_, ?_, ?_, ?_⟩
  · have := le_norm_prod hβ.le (l := (stepRange (-(n : ℤ) + 1) n).map (fun j => -exCheb n rp j)) (fun x hx => by
      obtain ⟨j, hj, rfl⟩ := List.mem_map.mp hx
      rw [norm_neg]; exact (exCheb_bounds hn hrp j).1)
    rwa [List.length_map, stepRange_sym_length] at this
  · have := norm_prod_le (l := (stepRange (-(n : ℤ) + 1) n).map (fun j => -exCheb n rp j)) (c := rippleCond rp)
      (fun x hx => by
        obtain ⟨j, hj, rfl⟩ := List.mem_map.mp hx
        have hC := Real.one_le_cosh (exMu n rp)
        have b2 := (exCheb_bounds hn hrp j).2
        rw [norm_neg]; nlinarith)
    rwa [List.length_map, stepRange_sym_length] at this
  · refine prod_sym_real n (fun j => ?_)
    rw [map_neg, exCheb_conj]
  · have k := foldMul_err' (m := m) S (by linarith) hr hβ hβ1 (c := 16 * H) (κ := 20.5 * H) (by positivity)
      (by linarith) (fun j => -exCheb n rp j) (fun j => -flCheb r m n rp j) (stepRange (-(n : ℤ) + 1) n)
      (fun j hj => ?_) (fun j _ => by rw [norm_neg]; exact (exCheb_bounds hn hrp j).1)
      (by rw [stepRange_sym_length]; exact hσ) (by rw [stepRange_sym_length]; linarith)
    · rw [stepRange_sym_length] at k
      have h3 : 0 ≤ n * H := by positivity
      refine k.trans (mul_le_mul_of_nonneg_right (by linarith) (norm_nonneg _))
    · rw [norm_neg, ← neg_sub', norm_neg]; exact eζ j hj
  · have k := foldMul_err' (m := m) S (by linarith) hr hβ hβ1 (c := 20.6 * H) (κ := 26 * H) (by positivity)
      (by linarith) (fun j => -exCheb n rp j) (fun j => flMul r (-1) (flCheb r m n rp j)) (stepRange (-(n : ℤ) + 1) n)
      (fun j hj => ?_) (fun j _ => by rw [norm_neg]; exact (exCheb_bounds hn hrp j).1)
      (by rw [stepRange_sym_length]; exact hσ) (by rw [stepRange_sym_length]; linarith)
    · rw [stepRange_sym_length] at k
      have h3 : 0 ≤ n * H := by positivity
      refine k.trans (mul_le_mul_of_nonneg_right (by linarith) (norm_nonneg _))
    · have e1 := eζ j hj
      have b1 := (exCheb_bounds hn hrp j).1
      rw [norm_neg]
      have hN0 := norm_nonneg (exCheb n rp j)
      have n1 : ‖flCheb r m n rp j‖ ≤ 1.02 * ‖exCheb n rp j‖ := by
        have := norm_add_le (flCheb r m n rp j - exCheb n rp j) (exCheb n rp j)
        rw [sub_add_cancel] at this
        have := mul_le_mul_of_nonneg_right hHs hN0
        linarith
      have hσ1 : (rippleFloor rp / n) ^ n ≤ rippleFloor rp / n := pow_le_of_le_one hβ.le hβ1 hn
      have s1 := S.flMul (by linarith) hr (a := -1) (b := flCheb r m n rp j) (B := 1.02 * ‖exCheb n rp j‖) (by
        rw [norm_neg, norm_one, one_mul]; exact n1) (by linarith)
      have e : flMul r (-1) (flCheb r m n rp j) - -exCheb n rp j =
        (flMul r (-1) (flCheb r m n rp j) - -1 * flCheb r m n rp j) - (flCheb r m n rp j - exCheb n rp j) := by ring
      rw [e]
      refine (norm_sub_le _ _).trans ?_
      have := mul_le_mul_of_nonneg_right hhH hN0
      have := mul_nonneg hH0 hN0
      linarith

/-- A quotient of two real numbers known up to relative errors. -/
theorem Small.div_rel (S : Small r h σ) {x x' s s' α β : ℝ} (hx : x ≠ 0) (hs : 0 < s) (hα : α ≤ 1 / 20)
    (hβ : β ≤ 1 / 20) (ex : |x' - x| ≤ α * |x|) (es : |s' - s| ≤ β * s) (hσ : σ ≤ |x / s|) :
    |r.rnd (x' / s') - x / s| ≤ (1.06 * (α + β) + 1.12 * h) * |x / s| := by
  have h0 := S.h_nonneg
  have hx0 : 0 < |x| := abs_pos.mpr hx
  have hα0 : 0 ≤ α := nonneg_of_mul_nonneg_left ((abs_nonneg _).trans ex) hx0
  have hβ0 : 0 ≤ β := nonneg_of_mul_nonneg_left ((abs_nonneg _).trans es) hs
  have g1 : 0.95 * s ≤ s' := by
    have := (abs_le.mp es).1
    have := mul_le_mul_of_nonneg_right hβ hs.le
    linarith
  have hs' : 0 < s' := by linarith
  have k1 : |x' / s' - x / s| ≤ 1.06 * (α + β) * |x / s| := by
    have e : x' / s' - x / s = ((x' - x) * s - x * (s' - s)) / (s' * s) := by field_simp; ring
    rw [e, abs_div, abs_of_pos (by positivity : 0 < s' * s), div_le_iff₀ (by positivity)]
    refine (abs_sub _ _).trans ?_
    rw [abs_mul, abs_mul, abs_of_pos hs, abs_div, abs_of_pos hs]
    have i1 := mul_le_mul_of_nonneg_right ex hs.le
    have i2 := mul_le_mul_of_nonneg_left es hx0.le
    have i3 : 1.06 * (α + β) * (|x| / s) * (0.95 * s * s) ≤ 1.06 * (α + β) * (|x| / s) * (s' * s) := by gcongr
    have i4 : 1.06 * (α + β) * (|x| / s) * (0.95 * s * s) = 1.06 * 0.95 * ((α + β) * (|x| * s)) := by field_simp
    have i5 : 0 ≤ (α + β) * (|x| * s) := by positivity
    linarith
  have k2 : |x' / s'| ≤ 1.12 * |x / s| := by
    have := abs_add_le (x' / s' - x / s) (x / s)
    rw [sub_add_cancel] at this
    have : 1.06 * (α + β) * |x / s| ≤ 0.12 * |x / s| := mul_le_mul_of_nonneg_right (by linarith) (abs_nonneg _)
    linarith
  have k3 := S.fl k2 (by linarith [S.pos])
  have k4 := abs_add_le (r.rnd (x' / s') - x' / s') (x' / s' - x / s)
  rw [sub_add_sub_cancel] at k4
  linarith

theorem root_err {H : ℝ} {rp : ℝ} (hrp : 0 < rp) (S : Small r h σ) (hσ : σ ≤ 1 / 4) (hhH : h ≤ H) (hHs : H ≤ 1 / 1024)
    (eR : Rel (0.8 * H) (flRip r m rp) (exRip rp)) :
    Rel (5 * H) (flRoot r m rp) (√(1 + exRip rp * exRip rp)) ∧
      rippleFloor rp * √(1 + exRip rp * exRip rp) = 1 := by
  obtain ⟨hQ, -, -, -, -, -, g0, g1, g2⟩ := ripple_facts hrp
  have h0 := S.h_nonneg
  have hH0 := h0.trans hhH
  have hE : 0 ≤ exRip rp := Real.sqrt_nonneg _
  have hE2 : exRip rp * exRip rp = (10 : ℝ) ^ (rp / 10) - 1 := Real.mul_self_sqrt hQ.le
  constructor
  · unfold flRoot
    have e1 := eR.le hE (by linarith)
    have e2 := eR.ge hE (by linarith)
    unfold Rel at eR
    generalize flRip r m rp = y at *
    generalize exRip rp = x at *
    have hy0 : 0 ≤ y := by linarith
    obtain ⟨T, hT⟩ : ∃ T, T = 1 + x * x := ⟨_, rfl⟩
    have hxT : x * x ≤ T := by rw [hT]; linarith
    have hT1 : 1 ≤ T := by rw [hT]; nlinarith
    have i1 : |y * y - x * x| ≤ 1.64 * H * T := by
      rw [show y * y - x * x = (y - x) * (y + x) by ring, abs_mul, abs_of_nonneg (by linarith : 0 ≤ y + x)]
      have j1 : |y - x| * (y + x) ≤ 0.8 * H * x * (2.05 * x) :=
        mul_le_mul eR (by linarith) (by linarith) (by positivity)
      have j2 := mul_le_mul_of_nonneg_left hxT hH0
      linarith
    have hHT : H * T ≤ 1 / 1024 * T := mul_le_mul_of_nonneg_right hHs (by linarith)
    have hhT : h * T ≤ H * T := mul_le_mul_of_nonneg_right hhH (by linarith)
    have i2 : |y * y| ≤ 1.1 * T := by
      have := abs_add_le (y * y - x * x) (x * x)
      rw [sub_add_cancel, abs_of_nonneg (by positivity : 0 ≤ x * x)] at this
      linarith
    have i3 := S.fl i2 (by linarith)
    have i4 : |1 + r.rnd (y * y) - T| ≤ 2.74 * H * T := by
      rw [hT, show 1 + r.rnd (y * y) - (1 + x * x) = (r.rnd (y * y) - y * y) + (y * y - x * x) by ring, ← hT]
      have := abs_add_le (r.rnd (y * y) - y * y) (y * y - x * x)
      linarith
    have i5 : |1 + r.rnd (y * y)| ≤ 1.2 * T := by
      have := abs_add_le (1 + r.rnd (y * y) - T) T
      rw [sub_add_cancel, abs_of_pos (by linarith : 0 < T)] at this
      linarith
    have i6 := S.fl i5 (by linarith)
    have i7 : Rel (3.94 * H) (r.rnd (1 + r.rnd (y * y))) T := by
      unfold Rel
      have := abs_add_le (r.rnd (1 + r.rnd (y * y)) - (1 + r.rnd (y * y))) (1 + r.rnd (y * y) - T)
      rw [sub_add_sub_cancel] at this
      linarith
    rw [← hT]
    have i8 := i7.sqrt (by linarith) (by linarith)
    have hs1 : 1 ≤ √T := Real.one_le_sqrt.mpr hT1
    exact (i8.fl S (by linarith) (by linarith)).mono (by linarith) (by linarith)
  · rw [hE2, show 1 + ((10 : ℝ) ^ (rp / 10) - 1) = (10 : ℝ) ^ (rp / 10) by ring]
    have hG : 0 < (10 : ℝ) ^ (rp / 10) := Real.rpow_pos_of_pos (by norm_num) _
    have : (rippleFloor rp * √((10 : ℝ) ^ (rp / 10))) ^ 2 = 1 ^ 2 := by
      rw [mul_pow, Real.sq_sqrt hG.le, g2, one_pow]
    exact (sq_eq_sq₀ (by positivity) (by norm_num)).mp this

/-- The gain of the prototype. -/
theorem kp_err {H B : ℝ} {n : ℕ} (hn : n ≠ 0) {rp : ℝ} (hrp : 0 < rp) (S : Small r h σ)
    (hσ4 : σ ≤ 1 / 4) (hB0 : 0 < B) (hBγ : B ≤ rippleFloor rp) (hσ : σ ≤ 0.1 * (B * B)) (hBU : B ≤ ‖exCUnit n rp‖)
    (hU : (exCUnit n rp).im = 0)
    (hhH : h ≤ H) (hη : n * H ≤ 1 / 1024) (eR : Rel (0.8 * H) (flRip r m rp) (exRip rp))
    (eU : ‖flCUnit r m n rp - exCUnit n rp‖ ≤ 22.6 * (n * H) * ‖exCUnit n rp‖) :
    exKp n rp ≠ 0 ∧ rippleFloor rp * ‖exCUnit n rp‖ ≤ |exKp n rp| ∧
    |flKp r m n rp - exKp n rp| ≤ 31 * (n * H) * |exKp n rp| := by
  obtain ⟨-, -, -, -, -, -, g0, g1, -⟩ := ripple_facts hrp
  have h0 := S.h_nonneg
  have hH0 := h0.trans hhH
  have hn1 : (1 : ℝ) ≤ n := by exact_mod_cast Nat.one_le_iff_ne_zero.mpr hn
  have hHη : H ≤ n * H := by nlinarith
  have hHs : H ≤ 1 / 1024 := by linarith
  have hUn : |(exCUnit n rp).re| = ‖exCUnit n rp‖ := Complex.abs_re_eq_norm.mpr hU
  have hU0 : 0 < ‖exCUnit n rp‖ := by linarith
  have eU' : |(flCUnit r m n rp).re - (exCUnit n rp).re| ≤ 22.6 * (n * H) * |(exCUnit n rp).re| := by
    rw [hUn, ← Complex.sub_re]
    exact (Complex.abs_re_le_norm _).trans eU
  have hre : (exCUnit n rp).re ≠ 0 := by rw [← abs_pos, hUn]; exact hU0
  obtain ⟨r1, r2⟩ := root_err hrp S hσ4 hhH hHs eR
  unfold exKp flKp
  split
  · have hR0 : 0 < √(1 + exRip rp * exRip rp) := Real.sqrt_pos.mpr (by
      have := mul_self_nonneg (exRip rp)
      linarith)
    have hdiv : |(exCUnit n rp).re / √(1 + exRip rp * exRip rp)| = rippleFloor rp * ‖exCUnit n rp‖ := by
      rw [abs_div, hUn, abs_of_pos hR0, div_eq_iff hR0.ne']
      calc ‖exCUnit n rp‖ = (rippleFloor rp * √(1 + exRip rp * exRip rp)) * ‖exCUnit n rp‖ := by rw [r2, one_mul]
        _ = _ := by ring
    have hBB : B * B ≤ rippleFloor rp * ‖exCUnit n rp‖ := mul_le_mul hBγ hBU hB0.le g0.le
    have hBB0 : 0 < B * B := by positivity
    refine ⟨div_ne_zero hre hR0.ne', hdiv.ge, ?_⟩
    have := S.div_rel hre hR0 (by linarith) (by linarith) eU' r1 (by rw [hdiv]; linarith)
    refine this.trans (mul_le_mul_of_nonneg_right ?_ (abs_nonneg _))
    linarith
  · refine ⟨hre, ?_, eU'.trans (mul_le_mul_of_nonneg_right (by
      have : 0 ≤ n * H := by positivity
      linarith) (abs_nonneg _))⟩
    rw [hUn]
    exact mul_le_of_le_one_left hU0.le g1

set_option maxHeartbeats 1600000 in
/-- The error of the gain. -/
theorem cheb_gain_err {e e' : ℝ} {n : ℕ} (hn : n ≠ 0) {rp : ℝ} (hrp : 0 < rp) (he0 : 0 < e) (he : e < 1)
    (S : Small r h ((rippleFloor rp * chebMargin n rp e / 20) ^ n)) (hr : r.Nearest) (hee : |e' - e| ≤ h * e)
    (hm : m.Accurate r h) (hm2 : m.AccurateHyp r h) {band : Band} (hb : band = .lowpass ∨ band = .highpass)
    {H : ℝ} (hH : H = 4 * (n * rippleCond rp ^ 2 * h) / (1 - e)) (hη : n * H ≤ 1 / 1024) :
    exCGain n rp band e ≠ 0 ∧
    |flCGain r m n rp band e' - exCGain n rp band e| ≤ 160 * (n * H) * |exCGain n rp band e| := by
  have h0 := S.h_nonneg
  have h1e : 0 < 1 - e := by linarith
  have hn1 : (1 : ℝ) ≤ n := by exact_mod_cast Nat.one_le_iff_ne_zero.mpr hn
  obtain ⟨-, k1, -, -, -, -, g0, g1, -⟩ := ripple_facts hrp
  have hw0 : 0 < exWarp e := by
    rw [exWarp]
    have hpi := Real.pi_pos
    have : 0 < Real.tan (Real.pi * e / 2) := Real.tan_pos_of_pos_of_lt_pi_div_two (by positivity) (by nlinarith)
    linarith
  obtain ⟨B, hB⟩ : ∃ B, B = (rippleFloor rp / n) ^ n := ⟨_, rfl⟩
  obtain ⟨σ, hσ⟩ : ∃ σ, σ = (rippleFloor rp * chebMargin n rp e / 20) ^ n := ⟨_, rfl⟩
  obtain ⟨hB0, hBγ, s3, s4, s5, s6⟩ := cheb_sizes he0 he hw0 hn hrp rfl hB hσ
  rw [← hσ] at S
  have hB1 : B ≤ 1 := hBγ.trans g1
  have hBB : B * B ≤ B := by nlinarith
  have hBB0 : 0 < B * B := by positivity
  have hσ4 : σ ≤ 1 / 4 := by linarith
  have hH0 : 0 ≤ H := by rw [hH]; positivity
  have hHη : H ≤ n * H := by nlinarith
  have hhK : 4096 * (n * rippleCond rp ^ 2 * h) ≤ 1 - e := by
    have : H ≤ 1 / 1024 := by linarith
    rw [hH, div_le_iff₀ h1e] at this
    linarith
  obtain ⟨Se, hhH, hHs, hκH, -, -, ew, hσκ, key⟩ :=
    cheb_analog_err (band := band) hn hrp (S.weaken s3) hr he0 he hee hhK hm hm2 hH
  obtain ⟨D1, D3, D2, D2', D4⟩ := cheb_den_err (m := m) hn hrp S hσ4 hr he0 he hw0 hhH hη band hb
    (fun j hj => (key j hj).2)
  obtain ⟨U1, U2, U3, U4, U5⟩ := cheb_unit_err (m := m) hn hrp S (by rw [← hB]; linarith) hr hhH hη
    (fun j hj => (key j hj).1)
  rw [← hB] at U1
  have eR : Rel (0.8 * H) (flRip r m rp) (exRip rp) := by
    refine (rip_err (S.weaken s3) hm2 hrp hσκ (by linarith)).mono (Real.sqrt_nonneg _) ?_
    linarith
  obtain ⟨K1, K2, K3⟩ := kp_err hn hrp S hσ4 hB0 hBγ s4 U1 U3 hhH hη eR U4
  have hD0 : 0 < ‖exCDen n rp band e‖ := by linarith
  have hU0 : 0 < ‖exCUnit n rp‖ := by linarith
  have hwn : 0 < exWarp e ^ n := pow_pos hw0 n
  have hBK : B * B ≤ |exKp n rp| := (mul_le_mul hBγ U1 hB0.le g0.le).trans K2
  have hK0 : 0 < |exKp n rp| := by linarith
  have hκ0 : 0 < rippleCond rp := by linarith
  rcases hb with rfl | rfl
  · have D2 := D2 rfl
    have inv1 : (1 / (rippleCond rp * (4 + exWarp e))) ^ n ≤ 1 / ‖exCDen n rp .lowpass e‖ := by
      rw [one_div_pow]
      exact one_div_le_one_div_of_le hD0 D2
    have inv2 : (exWarp e / (rippleCond rp * (4 + exWarp e))) ^ n ≤ exWarp e ^ n / ‖exCDen n rp .lowpass e‖ := by
      rw [div_pow]
      exact div_le_div_of_nonneg_left (by positivity) hD0 D2
    have q0 : |(1 / exCDen n rp .lowpass e).re| = 1 / ‖exCDen n rp .lowpass e‖ := by
      rw [re_of_real_quotient (by simp) D3, norm_one]
    have t1 : σ ≤ 0.9 * (1 / ‖exCDen n rp .lowpass e‖) := by
      have i1 : 0 < (1 / (rippleCond rp * (4 + exWarp e))) ^ n := by positivity
      have i2 : B * B * (1 / (rippleCond rp * (4 + exWarp e))) ^ n ≤ 1 * (1 / ‖exCDen n rp .lowpass e‖) :=
        mul_le_mul (by linarith) inv1 i1.le (by norm_num)
      linarith
    have q1 := S.flDiv_rel hσ4 (by linarith) hr (N := 1) (N' := 1) (α := 0) (by norm_num) (by linarith) (by simp) D4
      (by simp) D1 (by rw [norm_one]; exact t1)
    rw [norm_one] at q1
    have q2 : |(flDiv r 1 (flCDen r m n rp .lowpass e')).re - (1 / exCDen n rp .lowpass e).re| ≤
        64.8 * (n * H) * |(1 / exCDen n rp .lowpass e).re| := by
      rw [q0, ← Complex.sub_re]
      refine (Complex.abs_re_le_norm _).trans (q1.trans (mul_le_mul_of_nonneg_right ?_ (by positivity)))
      linarith
    have hq : (1 / exCDen n rp .lowpass e).re ≠ 0 := by
      rw [← abs_pos, q0]; positivity
    have t2 : σ ≤ B * B * (exWarp e ^ n / ‖exCDen n rp .lowpass e‖) :=
      s6.trans (mul_le_mul_of_nonneg_left inv2 hBB0.le)
    have t3 : σ ≤ B * B * exWarp e ^ n :=
      t2.trans (mul_le_mul_of_nonneg_left (div_le_self hwn.le D1) hBB0.le)
    have p1 := powi_err S hm hn hw0 hhH hη ew (t3.trans (mul_le_of_le_one_left hwn.le (by linarith)))
    have p2 := S.mul_rel (y := exWarp e ^ n) (y' := m.powi (flWarp r m e') n) (β := 13.7 * (n * H)) K1 hwn.ne' (by linarith) (by linarith) K3
      (by rw [abs_of_pos hwn]; exact p1) (by
        rw [abs_mul, abs_of_pos hwn]
        exact t3.trans (mul_le_mul_of_nonneg_right hBK hwn.le))
    have k := S.mul_rel (α := 47.4 * (n * H)) (mul_ne_zero K1 hwn.ne') hq (by linarith) (by linarith)
      (p2.trans (mul_le_mul_of_nonneg_right (by linarith) (abs_nonneg _))) q2 (by
        rw [abs_mul, abs_mul, q0, abs_of_pos hwn, mul_assoc, mul_one_div]
        exact t2.trans (mul_le_mul_of_nonneg_right hBK (by positivity)))
    have hG : exCGain n rp .lowpass e = exKp n rp * exWarp e ^ n * (1 / exCDen n rp .lowpass e).re := by
      simp [exCGain]
    have hF : flCGain r m n rp .lowpass e' = r.rnd (r.rnd (flKp r m n rp * m.powi (flWarp r m e') n) *
        (flDiv r 1 (flCDen r m n rp .lowpass e')).re) := by simp [flCGain]
    rw [hG, hF]
    refine ⟨mul_ne_zero (mul_ne_zero K1 hwn.ne') hq, k.trans (mul_le_mul_of_nonneg_right ?_ (abs_nonneg _))⟩
    linarith
  · have D2 := D2' rfl
    have hhn : 1024 * (n * h) ≤ 1 := by
      have := mul_le_mul_of_nonneg_left hhH (by linarith : (0 : ℝ) ≤ n)
      linarith
    have hhη : n * h ≤ n * H := mul_le_mul_of_nonneg_left hhH (by linarith)
    have hw4 : 0 < 4 + exWarp e := by linarith
    have inv1 : B * (1 / (4 + exWarp e)) ^ n ≤ 1 / ‖exCDen n rp .highpass e‖ := by
      have : B * (1 / (4 + exWarp e)) ^ n = 1 / ((4 + exWarp e) / (rippleFloor rp / n)) ^ n := by
        rw [hB, ← mul_pow, ← one_div_pow]; congr 1; field_simp
      rw [this]
      exact one_div_le_one_div_of_le hD0 D2
    have u0 : |(1 / exCUnit n rp).re| = 1 / ‖exCUnit n rp‖ := by
      rw [re_of_real_quotient (by simp) U3, norm_one]
    have t1 : B * B * (1 / (rippleCond rp * (4 + exWarp e))) ^ n ≤ B * (B * (1 / (4 + exWarp e)) ^ n) := by
      rw [mul_assoc]
      refine mul_le_mul_of_nonneg_left (mul_le_mul_of_nonneg_left (pow_le_pow_left₀ (by positivity) ?_ n) hB0.le) hB0.le
      exact one_div_le_one_div_of_le hw4 (by nlinarith)
    have t2 : B * (B * (1 / (4 + exWarp e)) ^ n) ≤ B * (1 / ‖exCDen n rp .highpass e‖) :=
      mul_le_mul_of_nonneg_left inv1 hB0.le
    have t3 : B * B * (1 / (rippleCond rp * (4 + exWarp e))) ^ n ≤ 1 / ‖exCUnit n rp‖ := by
      have i1 : (1 / (rippleCond rp * (4 + exWarp e))) ^ n ≤ (1 / rippleCond rp) ^ n := by
        refine pow_le_pow_left₀ (by positivity) (one_div_le_one_div_of_le hκ0 ?_) n
        nlinarith
      have i2 : (1 / rippleCond rp) ^ n ≤ 1 / ‖exCUnit n rp‖ := by
        rw [one_div_pow]; exact one_div_le_one_div_of_le hU0 U2
      have i3 : B * B * (1 / (rippleCond rp * (4 + exWarp e))) ^ n ≤ 1 * (1 / ‖exCUnit n rp‖) :=
        mul_le_mul (by linarith) (i1.trans i2) (by positivity) (by norm_num)
      linarith
    have hUU : B * B ≤ ‖exCUnit n rp‖ ^ 2 := by rw [pow_two]; exact mul_le_mul U1 U1 hB0.le hU0.le
    have u1 := S.flDiv_rel' (by linarith) hr (N := 1) (N' := 1) (α := 0) (by norm_num) (by linarith) (by simp) U5
      (by linarith) (by rw [norm_one, one_mul]; linarith) (by rw [norm_one]; linarith)
    rw [norm_one] at u1
    have u2 : |(flDiv r 1 (flCUnit' r m n rp)).re - (1 / exCUnit n rp).re| ≤
        42.6 * (n * H) * |(1 / exCUnit n rp).re| := by
      rw [u0, ← Complex.sub_re]
      refine (Complex.abs_re_le_norm _).trans (u1.trans (mul_le_mul_of_nonneg_right ?_ (by positivity)))
      linarith
    have hu : (1 / exCUnit n rp).re ≠ 0 := by
      rw [← abs_pos, u0]; positivity
    have hKU : rippleFloor rp ≤ |exKp n rp * (1 / exCUnit n rp).re| := by
      rw [abs_mul, u0, mul_one_div, le_div_iff₀ hU0]
      exact K2
    have u5 := S.mul_rel K1 hu (by linarith) (by linarith) K3 u2 (by linarith)
    have N1 := num_err (m := m) S hσ4 hr hn hhn
    have n0 : ‖(4 : ℂ) ^ n‖ = 4 ^ n := by rw [norm_pow]; simp
    have n1 : (1 : ℝ) ≤ 4 ^ n := one_le_pow₀ (by norm_num)
    have n4 : ((4 : ℂ) ^ n).im = 0 := by
      have : ((4 : ℂ) ^ n) = (((4 : ℝ) ^ n : ℝ) : ℂ) := by push_cast; rfl
      rw [this, Complex.ofReal_im]
    have q0 : |(4 ^ n / exCDen n rp .highpass e).re| = 4 ^ n / ‖exCDen n rp .highpass e‖ := by
      rw [re_of_real_quotient n4 D3, n0]
    have q4 : 1 / ‖exCDen n rp .highpass e‖ ≤ 4 ^ n / ‖exCDen n rp .highpass e‖ := div_le_div_of_nonneg_right n1 hD0.le
    have q5 : 0 < (4 : ℝ) ^ n / ‖exCDen n rp .highpass e‖ := by positivity
    have t4 : σ ≤ 0.9 * (B * (4 ^ n / ‖exCDen n rp .highpass e‖)) := by
      have := mul_le_mul_of_nonneg_left q4 hB0.le
      linarith
    have t5 : B * (4 ^ n / ‖exCDen n rp .highpass e‖) ≤ 4 ^ n / ‖exCDen n rp .highpass e‖ :=
      mul_le_of_le_one_left q5.le hB1
    have q1 := S.flDiv_rel hσ4 (by linarith) hr (by linarith) (by linarith) N1 D4
      (by rw [n0]; exact n1) D1 (by rw [n0]; linarith)
    rw [n0] at q1
    have q2 : |(flDiv r (flNum r m n) (flCDen r m n rp .highpass e')).re - (4 ^ n / exCDen n rp .highpass e).re| ≤
        69.9 * (n * H) * |(4 ^ n / exCDen n rp .highpass e).re| := by
      rw [q0, ← Complex.sub_re]
      refine (Complex.abs_re_le_norm _).trans (q1.trans (mul_le_mul_of_nonneg_right ?_ (by positivity)))
      linarith
    have hq : (4 ^ n / exCDen n rp .highpass e).re ≠ 0 := by
      rw [← abs_pos, q0]; exact q5
    have k := S.mul_rel (α := 79.1 * (n * H)) (mul_ne_zero K1 hu) hq (by linarith) (by linarith)
      (u5.trans (mul_le_mul_of_nonneg_right (by linarith) (abs_nonneg _))) q2 (by
        rw [abs_mul, q0]
        have := mul_le_mul_of_nonneg_right (hBγ.trans hKU) q5.le
        have i0 : 0 ≤ B * (4 ^ n / ‖exCDen n rp .highpass e‖) := by positivity
        linarith)
    have hG : exCGain n rp .highpass e = exKp n rp * (1 / exCUnit n rp).re * (4 ^ n / exCDen n rp .highpass e).re := by
      simp [exCGain]
    have hF : flCGain r m n rp .highpass e' = r.rnd (r.rnd (flKp r m n rp * (flDiv r 1 (flCUnit' r m n rp)).re) *
        (flDiv r (flNum r m n) (flCDen r m n rp .highpass e')).re) := by simp [flCGain]
    rw [hG, hF]
    refine ⟨mul_ne_zero (mul_ne_zero K1 hu) hq, k.trans (mul_le_mul_of_nonneg_right ?_ (abs_nonneg _))⟩
    linarith

end SciRs.Rounded

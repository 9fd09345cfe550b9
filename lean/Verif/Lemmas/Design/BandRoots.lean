import Verif.Lemmas.Design.Formats

/-! # The zeros and poles of band-pass and band-stop designs, and their distance from the real axis -/

namespace SciRs.Design

open Complex SciRs.Spec SciRs.Props

/-- The bilinear image of `σ` is real or far from the real axis exactly when `σ` is, in this sense. -/
theorem bilinear_apart {tol : ℝ} {σ p : ℂ} (hσ : σ.re ≤ 0) (hp : p = (1 + σ) / (1 - σ)) :
    (p.im = 0 ∨ tol * |p.re| < |p.im|) ↔ (σ.im = 0 ∨ tol * |1 - normSq σ| < 2 * |σ.im|) := by
  have hD : 0 < normSq (1 - σ) := by
    rw [normSq_pos]
    intro h0
    have := congrArg Complex.re h0
    simp only [sub_re, one_re, zero_re] at this
    linarith
  have hre : p.re = (1 - normSq σ) / normSq (1 - σ) := by
    rw [hp, div_re, ← add_div]
    congr 1
    simp only [add_re, sub_re, add_im, sub_im, one_re, one_im, normSq_apply]
    ring
  have him : p.im = (2 * σ.im) / normSq (1 - σ) := by
    rw [hp, div_im, ← sub_div]
    congr 1
    simp only [add_re, sub_re, add_im, sub_im, one_re, one_im]
    ring
  refine or_congr ?_ ?_
  · rw [him, div_eq_zero_iff]
    simp [hD.ne']
  · rw [hre, him, abs_div, abs_div, abs_of_pos hD, ← mul_div_assoc, div_lt_div_iff_of_pos_right hD, abs_mul,
      abs_of_pos (by norm_num : (0 : ℝ) < 2)]

/-- The solutions of `σ² - (b - a) q σ + ab = 0` with `‖q‖ ≤ 1` lie in the ring `a ≤ ‖σ‖ ≤ b`. -/
theorem band_ring {a b : ℝ} (ha : 0 < a) (hab : a < b) {q σ : ℂ} (hq : ‖q‖ ≤ 1)
    (h : σ ^ 2 - ((b - a : ℝ) : ℂ) * q * σ + ((a * b : ℝ) : ℂ) = 0) : a ≤ ‖σ‖ ∧ ‖σ‖ ≤ b := by
  have hb : 0 < b := ha.trans hab
  have hab0 : 0 < a * b := mul_pos ha hb
  have hba : ‖((b - a : ℝ) : ℂ)‖ = b - a := by rw [norm_real, Real.norm_of_nonneg (by linarith)]
  have hr : ‖((b - a : ℝ) : ℂ) * q * σ‖ ≤ (b - a) * ‖σ‖ := by
    rw [norm_mul, norm_mul, hba]
    have := mul_le_mul_of_nonneg_left hq (by linarith : 0 ≤ b - a)
    have := mul_le_mul_of_nonneg_right this (norm_nonneg σ)
    linarith
  have h1 : ‖σ‖ ^ 2 ≤ (b - a) * ‖σ‖ + a * b := by
    have e : σ ^ 2 = ((b - a : ℝ) : ℂ) * q * σ - ((a * b : ℝ) : ℂ) := by linear_combination h
    calc ‖σ‖ ^ 2 = ‖σ ^ 2‖ := (norm_pow _ _).symm
      _ ≤ ‖((b - a : ℝ) : ℂ) * q * σ‖ + ‖((a * b : ℝ) : ℂ)‖ := by rw [e]; exact norm_sub_le _ _
      _ ≤ _ := by rw [norm_real, Real.norm_of_nonneg hab0.le]; linarith
  have h2 : a * b ≤ (b - a) * ‖σ‖ + ‖σ‖ ^ 2 := by
    have e : ((a * b : ℝ) : ℂ) = ((b - a : ℝ) : ℂ) * q * σ - σ ^ 2 := by linear_combination h
    calc a * b = ‖((a * b : ℝ) : ℂ)‖ := by rw [norm_real, Real.norm_of_nonneg hab0.le]
      _ ≤ ‖((b - a : ℝ) : ℂ) * q * σ‖ + ‖σ ^ 2‖ := by rw [e]; exact norm_sub_le _ _
      _ ≤ _ := by rw [norm_pow]; linarith
  have hn := norm_nonneg σ
  constructor
  · by_contra hc
    push Not at hc
    nlinarith
  · by_contra hc
    push Not at hc
    nlinarith

/-- Poles of a band-pass or band-stop filter that come from a complex prototype pole. -/
theorem band_apart {a b tol : ℝ} (htol : 0 ≤ tol) (ha : 0 < a) (hab : a < b) {q σ : ℂ} (hq : ‖q‖ ≤ 1)
    (h : σ ^ 2 - ((b - a : ℝ) : ℂ) * q * σ + ((a * b : ℝ) : ℂ) = 0)
    (h1 : tol * (1 + a ^ 2) < 2 * a * |q.im|) (h2 : tol * (1 + b ^ 2) < 2 * b * |q.im|) :
    tol * |1 - normSq σ| < 2 * |σ.im| := by
  have hb : 0 < b := ha.trans hab
  obtain ⟨hr1, hr2⟩ := band_ring ha hab hq h
  set r := ‖σ‖ with hr
  have hr0 : 0 < r := ha.trans_le hr1
  have hns : normSq σ = r ^ 2 := normSq_eq_norm_sq σ
  have hσ : σ ≠ 0 := by
    intro h0
    rw [h0, norm_zero] at hr
    linarith
  -- the imaginary part
  have him : σ.im * (r ^ 2 - a * b) = (b - a) * q.im * r ^ 2 := by
    have e : σ * (r ^ 2 : ℝ) + ((a * b : ℝ) : ℂ) * (starRingEnd ℂ) σ = ((b - a : ℝ) : ℂ) * q * (r ^ 2 : ℝ) := by
      have : σ * (starRingEnd ℂ) σ = ((r ^ 2 : ℝ) : ℂ) := by rw [mul_conj, hns]
      rw [← this]
      linear_combination (starRingEnd ℂ) σ * h
    have := congrArg Complex.im e
    rw [mul_assoc] at this
    simp only [add_im, im_ofReal_mul, conj_im, im_mul_ofReal] at this
    linear_combination this
  have hab0 : 0 < b - a := by linarith
  have hq0 : 0 < |q.im| := by
    by_contra hc
    have : |q.im| = 0 := le_antisymm (not_lt.mp hc) (abs_nonneg _)
    rw [this, mul_zero] at h1
    have := mul_nonneg htol (by positivity : 0 ≤ 1 + a ^ 2)
    linarith
  have habs : |σ.im| * |r ^ 2 - a * b| = (b - a) * |q.im| * r ^ 2 := by
    rw [← abs_mul, him, abs_mul, abs_mul, abs_of_pos hab0, abs_of_pos (by positivity : 0 < r ^ 2)]
  have hne : 0 < |r ^ 2 - a * b| := by
    rcases (abs_nonneg (r ^ 2 - a * b)).eq_or_lt with h0 | h0
    · rw [← h0, mul_zero] at habs
      have : 0 < (b - a) * |q.im| * r ^ 2 := by positivity
      linarith
    · exact h0
  have h3 : |1 - normSq σ| ≤ 1 + r ^ 2 := by
    rw [hns, abs_le]; constructor <;> nlinarith
  refine (mul_le_mul_of_nonneg_left h3 htol).trans_lt ?_
  rw [← mul_lt_mul_iff_left₀ hne, mul_assoc 2, habs]
  rcases le_total (a * b) (r ^ 2) with hc | hc
  · rw [abs_of_nonneg (by linarith)]
    -- (1 + r²)(r² - ab) b ≤ (1 + b²)(b - a) r²
    have e : (1 + r ^ 2) * (r ^ 2 - a * b) * b ≤ (1 + b ^ 2) * (b - a) * b * r ^ 2 / b := by
      rw [le_div_iff₀ hb]
      have : 0 ≤ (b ^ 2 - r ^ 2) * (r ^ 2 * b + a) := by
        have : r ^ 2 ≤ b ^ 2 := by nlinarith
        exact mul_nonneg (by linarith) (by positivity)
      nlinarith [mul_nonneg this hb.le]
    have e' : tol * (1 + r ^ 2) * (r ^ 2 - a * b) * b ≤ tol * (1 + b ^ 2) * ((b - a) * r ^ 2) := by
      have := mul_le_mul_of_nonneg_left e htol
      rw [show (1 + b ^ 2) * (b - a) * b * r ^ 2 / b = (1 + b ^ 2) * (b - a) * r ^ 2 by field_simp] at this
      linarith
    have e2 : tol * (1 + b ^ 2) * ((b - a) * r ^ 2) < 2 * b * |q.im| * ((b - a) * r ^ 2) :=
      mul_lt_mul_of_pos_right h2 (by positivity)
    nlinarith
  · rw [abs_of_nonpos (by linarith)]
    have e : (1 + r ^ 2) * (a * b - r ^ 2) * a ≤ (1 + a ^ 2) * (b - a) * r ^ 2 := by
      have : 0 ≤ (r ^ 2 - a ^ 2) * (r ^ 2 * a + b) := by
        have : a ^ 2 ≤ r ^ 2 := by nlinarith
        exact mul_nonneg (by linarith) (by positivity)
      nlinarith
    have e' : tol * (1 + r ^ 2) * (a * b - r ^ 2) * a ≤ tol * (1 + a ^ 2) * ((b - a) * r ^ 2) := by
      have := mul_le_mul_of_nonneg_left e htol
      linarith
    have e2 : tol * (1 + a ^ 2) * ((b - a) * r ^ 2) < 2 * a * |q.im| * ((b - a) * r ^ 2) :=
      mul_lt_mul_of_pos_right h1 (by positivity)
    nlinarith

/-- Poles of a band-pass or band-stop filter that come from a real prototype pole `-1`, exactly. -/
theorem band_apart_real {a b tol : ℝ} (ha : 0 < a) (hab : a < b) {σ : ℂ}
    (h : σ ^ 2 + ((b - a : ℝ) : ℂ) * σ + ((a * b : ℝ) : ℂ) = 0) :
    (σ.im = 0 ∨ tol * |1 - normSq σ| < 2 * |σ.im|) ↔
      (6 * a * b ≤ a ^ 2 + b ^ 2 ∨ tol * |1 - a * b| < √(6 * a * b - a ^ 2 - b ^ 2)) := by
  have hb : 0 < b := ha.trans hab
  have hre := congrArg Complex.re h
  have him := congrArg Complex.im h
  simp only [pow_two, add_re, mul_re, ofReal_re, ofReal_im, zero_mul, sub_zero, zero_re, add_im, mul_im, add_zero,
    zero_im] at hre him
  have him' : σ.im * (2 * σ.re + (b - a)) = 0 := by linear_combination him
  by_cases h0 : σ.im = 0
  · rw [h0] at hre
    have : 6 * a * b ≤ a ^ 2 + b ^ 2 := by nlinarith [sq_nonneg (2 * σ.re + (b - a))]
    simp [h0, this]
  · have hr : 2 * σ.re + (b - a) = 0 := (mul_eq_zero.mp him').resolve_left h0
    have hr' : σ.re = -(b - a) / 2 := by linarith
    have hi : (2 * σ.im) ^ 2 = 6 * a * b - a ^ 2 - b ^ 2 := by
      rw [hr'] at hre
      nlinarith
    have hn : normSq σ = a * b := by
      rw [normSq_apply]
      rw [hr'] at hre ⊢
      nlinarith
    have hpos : 0 < (2 * σ.im) ^ 2 := by positivity
    have h6 : ¬ 6 * a * b ≤ a ^ 2 + b ^ 2 := by linarith
    rw [hn, ← hi, Real.sqrt_sq_eq_abs, abs_mul, abs_of_pos (by norm_num : (0 : ℝ) < 2)]
    simp [h0, h6]

/-! ### The roots of the designs -/

theorem sqrt_four {a b : ℝ} : √((4 * a) * (4 * b)) = 4 * √(a * b) := by
  rw [show (4 * a) * (4 * b) = 4 ^ 2 * (a * b) by ring, Real.sqrt_mul (by norm_num), Real.sqrt_sq (by norm_num)]

theorem bilinear_pole_four {s : ℂ} : ((2 * 2 : ℝ) + s) / ((2 * 2 : ℝ) - s) = (1 + s / 4) / (1 - s / 4) := by
  rw [← mul_div_mul_left (c := (4 : ℂ)) (1 + s / 4) (1 - s / 4) (by norm_num)]
  congr 1 <;> push_cast <;> ring

/-- Band-pass and band-stop designs of an all-pole prototype. -/
theorem band_roots {N : ℕ} {wn : List ℝ} {A B : ℝ} {rp rs : Option ℝ} {ftype : FType} {fs : Option ℝ} {band : Band}
    (hb : band = .bandpass ∨ band = .bandstop) (hv : ValidRequest wn rp rs band ftype false fs)
    (hW : edges wn fs = [A, B]) (h0 : 0 < A) (hAB : A < B) (h1 : B < 1) {f d : Zpk}
    (hf : prototype N ftype rp rs = .ok f) (hz : f.z = []) (hleft : ∀ q ∈ f.p, q.re < 0)
    (hd : design N wn rp rs band ftype false fs = .ok d) {a b : ℝ} (ha : a = Real.tan (Real.pi * A / 2))
    (hb' : b = Real.tan (Real.pi * B / 2)) :
    (∀ z ∈ d.z, z.im = 0 ∨ band = .bandstop ∧ ∃ σ : ℂ, σ.re = 0 ∧ σ.im ^ 2 = a * b ∧ z = (1 + σ) / (1 - σ)) ∧
    ∀ p ∈ d.p, ∃ q ∈ f.p, ∃ σ : ℂ, σ.re < 0 ∧ p = (1 + σ) / (1 - σ) ∧
      σ ^ 2 - ((b - a : ℝ) : ℂ) * (if band = .bandpass then q else q⁻¹) * σ + ((a * b : ℝ) : ℂ) = 0 := by
  have ha0 : 0 < a := ha ▸ tan_pos_of h0 (hAB.trans h1)
  have hab : a < b := by rw [ha, hb']; exact tan_lt_of h0 hAB h1
  have hwo : 0 < √(a * b) := Real.sqrt_pos.mpr (mul_pos ha0 (by linarith))
  have hwo2 : √(a * b) ^ 2 = a * b := Real.sq_sqrt (mul_pos ha0 (by linarith)).le
  have hwC : ((√(a * b) : ℝ) : ℂ) ^ 2 = ((a * b : ℝ) : ℂ) := by rw [← ofReal_pow, hwo2]
  unfold design at hd
  rw [validate_valid hv, ok_bind, hf, ok_bind, hW,
    warp_digital (by simpa using ⟨⟨h0, hAB.trans h1⟩, h0.trans hAB, h1⟩), ok_bind] at hd
  have hr : relativeDegree f.z f.p = .ok (f.p.length - f.z.length) :=
    relativeDegree_ok (by rw [hz]; exact Nat.zero_le _)
  rcases hb with rfl | rfl
  · simp only [bandTransform, lp2bp, List.map_cons, List.map_nil, hr, ok_bind, pure, Except.pure, discretise,
      if_true, ← ha, ← hb', sqrt_four, Option.getD_some] at hd
    rw [bilinear, relativeDegree_ok (by simp [hz, splitPm]), ok_bind] at hd
    cases hd
    refine ⟨?_, ?_⟩
    · intro z hz'
      left
      simp only [hz, List.map_nil, splitPm, List.nil_append, List.mem_append, List.map_replicate] at hz'
      rcases hz' with hz' | hz'
      · rw [(List.mem_replicate.mp hz').2]; norm_num
      · rw [(List.mem_replicate.mp hz').2]; simp
    · intro p hp
      obtain ⟨s, hs, rfl⟩ := List.mem_map.mp hp
      obtain ⟨q', hq', h⟩ := mem_splitPm hs
      obtain ⟨q, hq, rfl⟩ := List.mem_map.mp hq'
      have hsre : s.re < 0 := split_left (by positivity : 4 * √(a * b) ≠ 0) h
        (mul_left_half (by linarith) (hleft q hq))
      refine ⟨q, hq, s / 4, ?_, bilinear_pole_four, ?_⟩
      · rw [show s / 4 = ((1 / 4 : ℝ) : ℂ) * s by push_cast; ring, re_ofReal_mul]; linarith
      · rw [if_pos rfl, ← hwC]
        push_cast at h ⊢
        linear_combination h / 16
  · simp only [bandTransform, lp2bs, List.map_cons, List.map_nil, hr, ok_bind, pure, Except.pure, discretise,
      if_true, ← ha, ← hb', sqrt_four, Option.getD_some] at hd
    rw [bilinear, relativeDegree_ok (by simp [hz, splitPm, bsZeros]), ok_bind] at hd
    cases hd
    refine ⟨?_, ?_⟩
    · intro z hz'
      simp only [hz, List.map_nil, bsZeros, List.nil_append, List.mem_append, List.map_append,
        List.map_replicate] at hz'
      rcases hz' with (hz' | hz') | hz'
      · right
        rw [(List.mem_replicate.mp hz').2]
        refine ⟨rfl, (√(a * b) : ℂ) * I, by simp, by simp [hwo2], ?_⟩
        rw [bilinear_pole_four]
        congr 2 <;> push_cast <;> ring
      · right
        rw [(List.mem_replicate.mp hz').2]
        refine ⟨rfl, -(√(a * b) : ℂ) * I, by simp, by simp [hwo2], ?_⟩
        rw [bilinear_pole_four]
        congr 2 <;> push_cast <;> ring
      · left
        rw [(List.mem_replicate.mp hz').2]; simp
    · intro p hp
      obtain ⟨s, hs, rfl⟩ := List.mem_map.mp hp
      obtain ⟨q', hq', h⟩ := mem_splitPm hs
      obtain ⟨q, hq, rfl⟩ := List.mem_map.mp hq'
      have e : ((((4 * b - 4 * a) / 2 : ℝ) : ℂ) * I) / q * (-I) = (((4 * b - 4 * a) / 2 : ℝ) : ℂ) / q := by
        rw [show ((((4 * b - 4 * a) / 2 : ℝ) : ℂ) * I) / q * (-I) =
          -(I * I) * ((((4 * b - 4 * a) / 2 : ℝ) : ℂ) / q) by ring, I_mul_I]
        ring
      rw [e] at h
      have hsre : s.re < 0 := split_left (by positivity : 4 * √(a * b) ≠ 0) h (inv_left (by linarith) (hleft q hq))
      refine ⟨q, hq, s / 4, ?_, bilinear_pole_four, ?_⟩
      · rw [show s / 4 = ((1 / 4 : ℝ) : ℂ) * s by push_cast; ring, re_ofReal_mul]; linarith
      · rw [if_neg (by simp), ← hwC]
        push_cast at h ⊢
        linear_combination h / 16

end SciRs.Design

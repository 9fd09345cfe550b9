import Verif.Spec.IeeeLib
import Verif.Lemmas.Ieee
import Verif.Lemmas.Rounded.GainError

/-! # Operations on IEEE numbers that do not overflow -/

namespace SciRs.IeeeDesign

open SciRs.Spec SciRs.Spec.Ieee SciRs.Rounded SciRs.Design

variable {f : Format}

theorem is_pack {x : ℝ} {s : Bool} (h : |f.r.rnd x| ≤ f.top) : Is (pack f x s) (f.r.rnd x) := by
  unfold pack
  rw [if_neg (not_lt.mpr h)]
  exact ⟨_, rfl⟩

theorem Is.add {a b : Ieee f} {x y : ℝ} (ha : Is a x) (hb : Is b y) (h : |f.r.rnd (x + y)| ≤ f.top) :
    Is (a + b) (f.r.rnd (x + y)) := by
  obtain ⟨s, rfl⟩ := ha
  obtain ⟨t, rfl⟩ := hb
  exact is_pack h

theorem Is.neg {a : Ieee f} {x : ℝ} (ha : Is a x) : Is (-a) (-x) := by
  obtain ⟨s, rfl⟩ := ha
  exact ⟨!s, rfl⟩

theorem Is.sub {a b : Ieee f} {x y : ℝ} (ha : Is a x) (hb : Is b y) (h : |f.r.rnd (x - y)| ≤ f.top) :
    Is (a - b) (f.r.rnd (x - y)) := by
  rw [sub_eq_add_neg] at h ⊢
  exact Is.add ha (Is.neg hb) h

theorem Is.mul {a b : Ieee f} {x y : ℝ} (ha : Is a x) (hb : Is b y) (h : |f.r.rnd (x * y)| ≤ f.top) :
    Is (a * b) (f.r.rnd (x * y)) := by
  obtain ⟨s, rfl⟩ := ha
  obtain ⟨t, rfl⟩ := hb
  exact is_pack h

theorem Is.div {a b : Ieee f} {x y : ℝ} (ha : Is a x) (hb : Is b y) (hy : y ≠ 0) (h : |f.r.rnd (x / y)| ≤ f.top) :
    Is (a / b) (f.r.rnd (x / y)) := by
  obtain ⟨s, rfl⟩ := ha
  obtain ⟨t, rfl⟩ := hb
  rw [div_def, Ieee.div, if_neg hy]
  exact is_pack h

theorem is_lit (x : ℝ) : Is (lit f x) x := ⟨_, rfl⟩

theorem is_zero : Is (0 : Ieee f) 0 := ⟨_, rfl⟩

theorem is_one : Is (1 : Ieee f) 1 := ⟨_, rfl⟩

/-- A finite value is determined by the operations. -/
theorem Is.val_unique {a : Ieee f} {x y : ℝ} (h : Is a x) (k : Is a y) : x = y := by
  obtain ⟨s, rfl⟩ := h
  obtain ⟨t, h⟩ := k
  cases h
  rfl

theorem Is.finite {a : Ieee f} {x : ℝ} (h : Is a x) : a.Finite := by
  obtain ⟨s, rfl⟩ := h
  exact finite_fin _ _

/-! ### Sizes -/

/-- Rounding at most doubles, apart from underflow. -/
theorem rnd_size {r : Rounding} (hu : r.u ≤ 1) (ht : r.t ≤ 1) {x B : ℝ} (hx : |x| ≤ B) : |r.rnd x| ≤ 2 * B + 1 := by
  have h := r.err x
  have h1 := abs_sub_abs_le_abs_sub (r.rnd x) x
  have h2 := mul_le_mul_of_nonneg_right hu (abs_nonneg x)
  linarith

variable (hu : f.r.u ≤ 1) (ht : f.r.t ≤ 1)

include hu ht

theorem CIs.mul {a b : Cx f} {x y : ℂ} (ha : CIs a x) (hb : CIs b y) {B : ℝ} (hB : ‖x‖ * ‖y‖ ≤ B)
    (hT : 8 * B + 5 ≤ f.top) : CIs (a.mul b) (flMul f.r x y) := by
  have hB0 : 0 ≤ B := (mul_nonneg (norm_nonneg _) (norm_nonneg _)).trans hB
  have p : ∀ s t : ℝ, |s| ≤ ‖x‖ → |t| ≤ ‖y‖ → |s * t| ≤ B := fun s t h1 h2 => by
    rw [abs_mul]; exact (mul_le_mul h1 h2 (abs_nonneg _) (norm_nonneg _)).trans hB
  have xr := Complex.abs_re_le_norm x
  have xi := Complex.abs_im_le_norm x
  have yr := Complex.abs_re_le_norm y
  have yi := Complex.abs_im_le_norm y
  have q1 := rnd_size hu ht (p _ _ xr yr)
  have q2 := rnd_size hu ht (p _ _ xi yi)
  have q3 := rnd_size hu ht (p _ _ xr yi)
  have q4 := rnd_size hu ht (p _ _ xi yr)
  constructor
  · refine Is.sub (Is.mul ha.1 hb.1 (by linarith)) (Is.mul ha.2 hb.2 (by linarith)) ?_
    have := rnd_size hu ht ((abs_sub _ _).trans (add_le_add q1 q2))
    linarith
  · refine Is.add (Is.mul ha.1 hb.2 (by linarith)) (Is.mul ha.2 hb.1 (by linarith)) ?_
    have := rnd_size hu ht ((abs_add_le _ _).trans (add_le_add q3 q4))
    linarith

/-- The squared absolute value as the quotient computes it. -/
noncomputable def flNormSq (r : Rounding) (b : ℂ) : ℝ := r.rnd (r.rnd (b.re * b.re) + r.rnd (b.im * b.im))

theorem CIs.div {a b : Cx f} {x y : ℂ} (ha : CIs a x) (hb : CIs b y) {B : ℝ} (hB : ‖x‖ * ‖y‖ ≤ B)
    (hB' : ‖y‖ * ‖y‖ ≤ B) (hT : 8 * B + 5 ≤ f.top) (hn : flNormSq f.r y ≠ 0) (hq : ‖flDiv f.r x y‖ ≤ f.top) :
    CIs (a.div b) (flDiv f.r x y) := by
  have hB0 : 0 ≤ B := (mul_nonneg (norm_nonneg _) (norm_nonneg _)).trans hB
  have p : ∀ s t : ℝ, |s| ≤ ‖x‖ → |t| ≤ ‖y‖ → |s * t| ≤ B := fun s t h1 h2 => by
    rw [abs_mul]; exact (mul_le_mul h1 h2 (abs_nonneg _) (norm_nonneg _)).trans hB
  have p' : ∀ s t : ℝ, |s| ≤ ‖y‖ → |t| ≤ ‖y‖ → |s * t| ≤ B := fun s t h1 h2 => by
    rw [abs_mul]; exact (mul_le_mul h1 h2 (abs_nonneg _) (norm_nonneg _)).trans hB'
  have xr := Complex.abs_re_le_norm x
  have xi := Complex.abs_im_le_norm x
  have yr := Complex.abs_re_le_norm y
  have yi := Complex.abs_im_le_norm y
  have q1 := rnd_size hu ht (p _ _ xr yr)
  have q2 := rnd_size hu ht (p _ _ xi yi)
  have q3 := rnd_size hu ht (p _ _ xr yi)
  have q4 := rnd_size hu ht (p _ _ xi yr)
  have q5 := rnd_size hu ht (p' _ _ yr yr)
  have q6 := rnd_size hu ht (p' _ _ yi yi)
  have d : Is (b.re * b.re + b.im * b.im) (flNormSq f.r y) := by
    refine Is.add (Is.mul hb.1 hb.1 (by linarith)) (Is.mul hb.2 hb.2 (by linarith)) ?_
    have := rnd_size hu ht ((abs_add_le _ _).trans (add_le_add q5 q6))
    linarith
  constructor
  · refine Is.div (Is.add (Is.mul ha.1 hb.1 (by linarith)) (Is.mul ha.2 hb.2 (by linarith)) ?_) d hn
      ((Complex.abs_re_le_norm _).trans hq)
    have := rnd_size hu ht ((abs_add_le _ _).trans (add_le_add q1 q2))
    linarith
  · refine Is.div (Is.sub (Is.mul ha.2 hb.1 (by linarith)) (Is.mul ha.1 hb.2 (by linarith)) ?_) d hn
      ((Complex.abs_im_le_norm _).trans hq)
    have := rnd_size hu ht ((abs_sub _ _).trans (add_le_add q4 q3))
    linarith

theorem CIs.add {a b : Cx f} {x y : ℂ} (ha : CIs a x) (hb : CIs b y) {B : ℝ} (hB : ‖x‖ + ‖y‖ ≤ B)
    (hT : 2 * B + 1 ≤ f.top) : CIs (a.add b) ⟨f.r.rnd (x.re + y.re), f.r.rnd (x.im + y.im)⟩ := by
  have h1 := rnd_size hu ht ((abs_add_le x.re y.re).trans ((add_le_add (Complex.abs_re_le_norm x)
    (Complex.abs_re_le_norm y)).trans hB))
  have h2 := rnd_size hu ht ((abs_add_le x.im y.im).trans ((add_le_add (Complex.abs_im_le_norm x)
    (Complex.abs_im_le_norm y)).trans hB))
  exact ⟨Is.add ha.1 hb.1 (by linarith), Is.add ha.2 hb.2 (by linarith)⟩

theorem CIs.sub {a b : Cx f} {x y : ℂ} (ha : CIs a x) (hb : CIs b y) {B : ℝ} (hB : ‖x‖ + ‖y‖ ≤ B)
    (hT : 2 * B + 1 ≤ f.top) : CIs (a.sub b) ⟨f.r.rnd (x.re - y.re), f.r.rnd (x.im - y.im)⟩ := by
  have h1 := rnd_size hu ht ((abs_sub x.re y.re).trans ((add_le_add (Complex.abs_re_le_norm x)
    (Complex.abs_re_le_norm y)).trans hB))
  have h2 := rnd_size hu ht ((abs_sub x.im y.im).trans ((add_le_add (Complex.abs_im_le_norm x)
    (Complex.abs_im_le_norm y)).trans hB))
  exact ⟨Is.sub ha.1 hb.1 (by linarith), Is.sub ha.2 hb.2 (by linarith)⟩

omit hu ht in
theorem CIs.neg {a : Cx f} {x : ℂ} (ha : CIs a x) : CIs a.neg (-x) := ⟨Is.neg ha.1, Is.neg ha.2⟩

omit hu ht in
theorem cis_ofRe {a : Ieee f} {x : ℝ} (ha : Is a x) : CIs (Cx.ofRe a) (x : ℂ) := by
  exact ⟨by rw [Complex.ofReal_re]; exact ha, by rw [Complex.ofReal_im]; exact is_zero⟩

omit hu ht in
/-- The computed squared absolute value is of the right size. -/
theorem flNormSq_lower {r : Rounding} (hu : r.u ≤ 1 / 64) (ht : r.t ≤ 1 / 64) {b : ℂ} {B : ℝ} (hB : 1 / 4 ≤ B)
    (hb : B ≤ ‖b‖ ^ 2) : 0.7 * B ≤ flNormSq r b := by
  have e1 := (abs_le.mp (r.err (b.re * b.re))).1
  have e2 := (abs_le.mp (r.err (b.im * b.im))).1
  have e3 := (abs_le.mp (r.err (r.rnd (b.re * b.re) + r.rnd (b.im * b.im)))).1
  have hn : ‖b‖ ^ 2 = b.re * b.re + b.im * b.im := by rw [Complex.sq_norm, Complex.normSq_apply]
  rw [hn] at hb
  have z1 := mul_self_nonneg b.re
  have z2 := mul_self_nonneg b.im
  rw [abs_of_nonneg z1] at e1
  rw [abs_of_nonneg z2] at e2
  have i1 := mul_le_mul_of_nonneg_right hu z1
  have i2 := mul_le_mul_of_nonneg_right hu z2
  obtain ⟨s, hs⟩ : ∃ s, s = r.rnd (b.re * b.re) + r.rnd (b.im * b.im) := ⟨_, rfl⟩
  unfold flNormSq
  rw [← hs] at e3 ⊢
  have s1 : 0.8 * B ≤ s := by linarith
  have s0 : 0 ≤ s := by linarith
  rw [abs_of_nonneg s0] at e3
  have i3 := mul_le_mul_of_nonneg_right hu s0
  linarith

end SciRs.IeeeDesign

import Verif.Lemmas.Rounded.Error
import Verif.Spec.LibmPolar
import Verif.Lemmas.Design.Cplx
import Mathlib.Analysis.SpecialFunctions.Trigonometric.Bounds
import Mathlib.Analysis.Real.Pi.Bounds

/-! # Rounding errors of complex products and square roots -/

namespace SciRs.Rounded

open SciRs.Spec SciRs.Design

variable {r : Rounding} {m : Libm} {h σ : ℝ}

/-- The error of a complex product. -/
theorem Small.flMul (S : Small r h σ) (hh : h ≤ 1 / 64) (hr : r.Nearest) {a b : ℂ} {B : ℝ}
    (hB : ‖a‖ * ‖b‖ ≤ B) (h1 : σ ≤ B) : ‖Rounded.flMul r a b - a * b‖ ≤ 4.4 * h * B := by
  have h0 := S.h_nonneg
  have c1 : |a.re * b.re| + |a.im * b.im| ≤ B := by
    rw [abs_mul, abs_mul]
    refine (cauchy _ _ _ _).trans ?_
    rwa [← norm_eq_parts, ← norm_eq_parts]
  have c2 : |a.re * b.im| + |a.im * b.re| ≤ B := by
    rw [abs_mul, abs_mul]
    have := cauchy |a.re| |a.im| |b.im| |b.re|
    refine this.trans ?_
    rwa [add_comm (|b.im| ^ 2), ← norm_eq_parts, ← norm_eq_parts]
  have d1 := S.sum_sub hh hr c1 h1
  have d2 := S.sum hh c2 h1
  have k := norm_le_of_parts (z := Rounded.flMul r a b - a * b) (B := 3.04 * h * B)
    (by rw [Complex.sub_re, Complex.mul_re]; exact d1) (by rw [Complex.sub_im, Complex.mul_im]; exact d2)
  have : 0 ≤ h * B := mul_nonneg h0 (S.pos.le.trans h1)
  linarith

/-- The square root in polar coordinates. -/
theorem csqrt_polar {z : ℂ} (hz : z ≠ 0) : (csqrt z).re = √‖z‖ * Real.cos (z.arg / 2) ∧
    (csqrt z).im = √‖z‖ * Real.sin (z.arg / 2) := by
  have hn : 0 < ‖z‖ := norm_pos_iff.mpr hz
  have h1 : Complex.log z * (1 / 2 : ℂ) = ((Real.log ‖z‖ / 2 : ℝ) : ℂ) + ((z.arg / 2 : ℝ) : ℂ) * Complex.I := by
    apply Complex.ext <;> simp [Complex.log] <;> ring
  have h2 : Real.exp (Real.log ‖z‖ / 2) = √‖z‖ := by
    rw [Real.exp_half, Real.exp_log hn]
  unfold csqrt
  rw [Complex.cpow_def_of_ne_zero hz, h1, Complex.exp_add, ← Complex.ofReal_exp, h2, Complex.exp_mul_I]
  rw [← Complex.ofReal_cos, ← Complex.ofReal_sin]
  constructor <;> simp only [Complex.re_ofReal_mul, Complex.im_ofReal_mul, Complex.add_re, Complex.add_im,
    Complex.ofReal_re, Complex.ofReal_im, Complex.mul_re, Complex.mul_im, Complex.I_re, Complex.I_im] <;> ring

theorem csqrt_norm (z : ℂ) : ‖csqrt z‖ = √‖z‖ := by
  rw [← csqrt_sq z, norm_pow, Real.sqrt_sq (norm_nonneg _), csqrt_sq]

theorem csqrt_pos {x : ℝ} (hx : 0 ≤ x) : csqrt (x : ℂ) = (√x : ℂ) := by
  by_cases h0 : x = 0
  · subst h0; simp [csqrt]
  · have h1 : (x : ℂ) ≠ 0 := by exact_mod_cast h0
    obtain ⟨a, b⟩ := csqrt_polar h1
    rw [Complex.arg_ofReal_of_nonneg hx, Complex.norm_real, Real.norm_of_nonneg hx] at a b
    apply Complex.ext
    · simpa using a
    · simpa using b

theorem csqrt_neg {x : ℝ} (hx : x < 0) : csqrt (x : ℂ) = ⟨0, √(-x)⟩ := by
  have h1 : (x : ℂ) ≠ 0 := by exact_mod_cast hx.ne
  obtain ⟨a, b⟩ := csqrt_polar h1
  rw [Complex.arg_ofReal_of_neg hx, Complex.norm_real, Real.norm_of_nonpos hx.le] at a b
  apply Complex.ext
  · simpa using a
  · simpa using b

/-- Square roots of real numbers with errors. -/
theorem sqrt_diff {x y : ℝ} (hx : 0 ≤ x) (hy : 0 < y) : |√x - √y| * √y ≤ |x - y| := by
  have a1 : x - y = (√x - √y) * (√x + √y) := by
    have := Real.mul_self_sqrt hx
    have := Real.mul_self_sqrt hy.le
    nlinarith
  have a2 := Real.sqrt_nonneg x
  have a3 := Real.sqrt_pos.mpr hy
  rw [a1, abs_mul, abs_of_pos (by linarith : 0 < √x + √y)]
  exact mul_le_mul_of_nonneg_left (by linarith) (abs_nonneg _)

/-- A rounded root of a number with an error. -/
theorem Small.root (S : Small r h σ) (hh : h ≤ 1 / 64) {x y : ℝ} {c : ℝ} (hc : 0 ≤ c) (hc2 : c ≤ 30) (hx : 0 ≤ x) (hy : 0 < y)
    (e : |x - y| ≤ c * h * y) (hσ : σ ≤ √y) : |r.rnd √x - √y| ≤ (c + 1.5) * h * √y := by
  have h0 := S.h_nonneg
  have hq := Real.sqrt_pos.mpr hy
  have k1 := (sqrt_diff hx hy).trans e
  have k2 : |√x - √y| ≤ c * h * √y := by
    have e2 : c * h * y = c * h * √y * √y := by rw [mul_assoc _ √y, Real.mul_self_sqrt hy.le]
    rw [e2] at k1
    exact le_of_mul_le_mul_right k1 hq
  have k3 : |√x| ≤ 1.47 * √y := by
    have := abs_add_le (√x - √y) (√y)
    rw [sub_add_cancel, abs_of_pos hq] at this
    have : c * h * √y ≤ 30 * (1 / 64) * √y := by gcongr
    linarith
  have k4 := S.fl k3 (by linarith)
  have k5 := abs_add_le (r.rnd √x - √x) (√x - √y)
  rw [sub_add_sub_cancel] at k5
  have : 0 ≤ h * √y := by positivity
  nlinarith

set_option maxHeartbeats 800000 in
/-- The error of a complex square root. -/
theorem Small.flSqrt (S : Small r h σ) (hσ : σ ≤ 1) (hh : h ≤ 1 / 1024) (hm : m.Accurate r h)
    (hp : m.AccuratePolar r h) {z : ℂ} (hz : σ ≤ ‖z‖) :
    ‖Rounded.flSqrt r m z - csqrt z‖ ≤ 16 * h * √‖z‖ := by
  have h0 := S.h_nonneg
  have hn : 0 < ‖z‖ := lt_of_lt_of_le S.pos hz
  have hz0 : z ≠ 0 := norm_pos_iff.mp hn
  obtain ⟨p1, p2⟩ := csqrt_polar hz0
  have hρ0 := Real.sqrt_pos.mpr hn
  have hσρ : σ ≤ √‖z‖ := by
    rcases le_total 1 ‖z‖ with h1 | h1
    · exact hσ.trans (Real.one_le_sqrt.mpr h1)
    · refine hz.trans (Real.le_sqrt_of_sq_le ?_)
      nlinarith
  have ht : r.t ≤ h * ‖z‖ := by
    have i1 := S.t_le
    have i2 : (h - r.u) * σ ≤ h * σ := mul_le_mul_of_nonneg_right (by linarith [r.u_nonneg]) S.pos.le
    have i3 := mul_le_mul_of_nonneg_left hz h0
    linarith
  unfold Rounded.flSqrt
  split_ifs with c1 c2 c3 c4
  · have ez : z = (z.re : ℂ) := by apply Complex.ext <;> simp [c1]
    have en : ‖z‖ = z.re := by rw [ez, Complex.norm_real, Real.norm_of_nonneg c2]; simp
    rw [en] at hσρ ⊢
    have e1 : csqrt z = (√z.re : ℂ) := by rw [ez, csqrt_pos c2]; simp
    have k := S.fl (x := √z.re) (B := √z.re) (by rw [abs_of_nonneg (Real.sqrt_nonneg _)]) hσρ
    have e2 : (⟨r.rnd √z.re, z.im⟩ : ℂ) - csqrt z = ((r.rnd √z.re - √z.re : ℝ) : ℂ) := by
      rw [e1, c1]; apply Complex.ext <;> simp
    rw [e2, Complex.norm_real, Real.norm_eq_abs]
    have : 0 ≤ h * √z.re := by positivity
    linarith
  · push Not at c2
    have ez : z = (z.re : ℂ) := by apply Complex.ext <;> simp [c1]
    have en : ‖z‖ = -z.re := by rw [ez, Complex.norm_real, Real.norm_of_nonpos c2.le]; simp
    rw [en] at hσρ ⊢
    have e1 : csqrt z = ⟨0, √(-z.re)⟩ := by rw [ez, csqrt_neg c2]; simp
    have k := S.fl (x := √(-z.re)) (B := √(-z.re)) (by rw [abs_of_nonneg (Real.sqrt_nonneg _)]) hσρ
    have e2 : (⟨0, r.rnd √(-z.re)⟩ : ℂ) - csqrt z = ((r.rnd √(-z.re) - √(-z.re) : ℝ) : ℂ) * Complex.I := by
      rw [e1]; apply Complex.ext <;> simp
    rw [e2, norm_mul, Complex.norm_I, mul_one, Complex.norm_real, Real.norm_eq_abs]
    have : 0 ≤ h * √(-z.re) := by positivity
    linarith
  all_goals try
    have ez : z = ((z.im : ℝ) : ℂ) * Complex.I := by apply Complex.ext <;> simp [c3]
    have en : ‖z‖ = |z.im| := by
      conv_lhs => rw [ez]
      rw [norm_mul, Complex.norm_I, mul_one, Complex.norm_real, Real.norm_eq_abs]
    have hs2 : √(|z.im| / 2) = √‖z‖ * (√2 / 2) := by
      rw [en, Real.sqrt_div (abs_nonneg _)]
      have := Real.mul_self_sqrt (show (0 : ℝ) ≤ 2 by norm_num)
      have := Real.sqrt_pos.mpr (show (0 : ℝ) < 2 by norm_num)
      field_simp
      nlinarith
    have k0 : √(|z.im| / 2) ≤ √‖z‖ := Real.sqrt_le_sqrt (by rw [en]; linarith [abs_nonneg z.im])
    have ki : |r.rnd (|z.im| / 2) - |z.im| / 2| ≤ 2 * h * (|z.im| / 2) := by
      have := S.fl (x := |z.im| / 2) (B := |z.im|) (by rw [abs_of_nonneg (by positivity)]; linarith [abs_nonneg z.im]) (by rw [← en]; exact hz)
      linarith
    have k6 : 0 ≤ r.rnd (|z.im| / 2) := by
      rw [← r.zero]; exact r.mono _ _ (by positivity)
    have kx : |r.rnd √(r.rnd (|z.im| / 2)) - √(|z.im| / 2)| ≤ 3.5 * h * √‖z‖ := by
      have hv : 0 < |z.im| / 2 := by rw [← en]; positivity
      have k7 := sqrt_diff k6 hv
      have hq := Real.sqrt_pos.mpr hv
      have k2 : |√(r.rnd (|z.im| / 2)) - √(|z.im| / 2)| ≤ 2 * h * √(|z.im| / 2) := by
        have e2 : 2 * h * (|z.im| / 2) = 2 * h * √(|z.im| / 2) * √(|z.im| / 2) := by
          rw [mul_assoc _ √(|z.im| / 2), Real.mul_self_sqrt hv.le]
        have k1 := k7.trans ki
        rw [e2] at k1
        exact le_of_mul_le_mul_right k1 hq
      have k8 : 2 * h * √(|z.im| / 2) ≤ 2 * h * √‖z‖ := by gcongr
      have k3 : |√(r.rnd (|z.im| / 2))| ≤ 1.01 * √‖z‖ := by
        have := abs_add_le (√(r.rnd (|z.im| / 2)) - √(|z.im| / 2)) (√(|z.im| / 2))
        rw [sub_add_cancel, abs_of_pos hq] at this
        have : h * √‖z‖ ≤ 1 / 1024 * √‖z‖ := by gcongr
        linarith
      have k4 := S.fl k3 (by linarith)
      have k5 := abs_add_le (r.rnd √(r.rnd (|z.im| / 2)) - √(r.rnd (|z.im| / 2)))
        (√(r.rnd (|z.im| / 2)) - √(|z.im| / 2))
      rw [sub_add_sub_cancel] at k5
      have : 0 ≤ h * √‖z‖ := by positivity
      nlinarith
  · have har : z.arg = Real.pi / 2 := by
      rw [ez, Complex.arg_real_mul _ (lt_of_le_of_ne c4 (Ne.symm c1)), Complex.arg_I]
    rw [har, show Real.pi / 2 / 2 = Real.pi / 4 by ring, Real.cos_pi_div_four, ← hs2] at p1
    rw [har, show Real.pi / 2 / 2 = Real.pi / 4 by ring, Real.sin_pi_div_four, ← hs2] at p2
    have k := norm_le_of_parts (z := (⟨r.rnd √(r.rnd (|z.im| / 2)), r.rnd √(r.rnd (|z.im| / 2))⟩ : ℂ) - csqrt z)
      (B := 3.5 * h * √‖z‖) (by rw [Complex.sub_re, p1]; exact kx) (by rw [Complex.sub_im, p2]; exact kx)
    have : 0 ≤ h * √‖z‖ := by positivity
    refine k.trans ?_
    linarith
  · push Not at c4
    have har : z.arg = -(Real.pi / 2) := by
      rw [ez, show ((z.im : ℝ) : ℂ) * Complex.I = ((-z.im : ℝ) : ℂ) * (-Complex.I) by push_cast; ring,
        Complex.arg_real_mul _ (by linarith), Complex.arg_neg_I]
    rw [har, show -(Real.pi / 2) / 2 = -(Real.pi / 4) by ring, Real.cos_neg, Real.cos_pi_div_four, ← hs2] at p1
    rw [har, show -(Real.pi / 2) / 2 = -(Real.pi / 4) by ring, Real.sin_neg, Real.sin_pi_div_four, mul_neg, ← hs2] at p2
    have k := norm_le_of_parts (z := (⟨r.rnd √(r.rnd (|z.im| / 2)), -r.rnd √(r.rnd (|z.im| / 2))⟩ : ℂ) - csqrt z)
      (B := 3.5 * h * √‖z‖) (by rw [Complex.sub_re, p1]; exact kx)
      (by rw [Complex.sub_im, p2, ← neg_add', abs_neg, ← sub_eq_add_neg]; exact kx)
    have : 0 ≤ h * √‖z‖ := by positivity
    refine k.trans ?_
    linarith
  · have en : √(z.re ^ 2 + z.im ^ 2) = ‖z‖ := (Complex.norm_eq_sqrt_sq_add_sq z).symm
    have d1 := hp.hypot z.re z.im
    rw [en] at d1
    have d2 := S.root (c := 2) (by linarith) (by norm_num) (by norm_num) (m.hypot_nonneg z.re z.im) hn
      (by linarith) hσρ
    obtain ⟨q, hq⟩ : ∃ q, q = r.rnd √(m.hypot z.re z.im) := ⟨_, rfl⟩
    obtain ⟨ρ, hρ⟩ : ∃ ρ, ρ = √‖z‖ := ⟨_, rfl⟩
    have d3 := hp.atan2 z.re z.im
    have d4 := hm.atan2 z.re z.im
    have d5 := S.fl (x := m.atan2 z.im z.re / 2) (B := 2)
      (by rw [abs_div, abs_of_pos (by norm_num : (0 : ℝ) < 2)]; linarith) (by linarith)
    obtain ⟨t, htd⟩ : ∃ t, t = r.rnd (m.atan2 z.im z.re / 2) := ⟨_, rfl⟩
    rw [← hq, ← hρ] at d2
    rw [← htd] at d5
    rw [← hρ] at p1 p2 hρ0 hσρ
    have d6 : |t - z.arg / 2| ≤ 4 * h := by
      have i1 := abs_add_le (t - m.atan2 z.im z.re / 2) (m.atan2 z.im z.re / 2 - z.arg / 2)
      rw [sub_add_sub_cancel] at i1
      have i2 : m.atan2 z.im z.re / 2 - z.arg / 2 = (m.atan2 z.im z.re - Complex.arg ⟨z.re, z.im⟩) / 2 := by
        change _ = (m.atan2 z.im z.re - z.arg) / 2
        ring
      rw [i2, abs_div, abs_of_pos (by norm_num : (0 : ℝ) < 2)] at i1
      linarith
    have d7 : |t| ≤ 4 := by
      have i1 := abs_add_le (t - m.atan2 z.im z.re / 2) (m.atan2 z.im z.re / 2)
      rw [sub_add_cancel, abs_div, abs_of_pos (by norm_num : (0 : ℝ) < 2)] at i1
      linarith
    have hhρ : h * ρ ≤ 1 / 1024 * ρ := by gcongr
    have hρh : 0 ≤ h * ρ := by positivity
    have d8 : |q| ≤ 1.01 * ρ := by
      have := abs_add_le (q - ρ) ρ
      rw [sub_add_cancel, abs_of_pos hρ0] at this
      linarith
    have key : ∀ (f g : ℝ → ℝ), (∀ x, |x| ≤ 4 → |f x - g x| ≤ h) → (|g t - g (z.arg / 2)| ≤ |t - z.arg / 2|) →
        |g (z.arg / 2)| ≤ 1 → |r.rnd (q * f t) - ρ * g (z.arg / 2)| ≤ 9.8 * h * ρ := by
      intro f g a1 a2 a3
      have b1 := a1 t d7
      have b2 := abs_add_le (f t - g t) (g t - g (z.arg / 2))
      rw [sub_add_sub_cancel] at b2
      have b3 : q * f t - ρ * g (z.arg / 2) = q * (f t - g (z.arg / 2)) + (q - ρ) * g (z.arg / 2) := by ring
      have b4 : |q * f t - ρ * g (z.arg / 2)| ≤ 8.7 * h * ρ := by
        rw [b3]
        refine (abs_add_le _ _).trans ?_
        rw [abs_mul, abs_mul]
        have i1 := mul_le_mul d8 (show |f t - g (z.arg / 2)| ≤ 5 * h by linarith) (abs_nonneg _) (by positivity)
        have i2 := mul_le_mul d2 a3 (abs_nonneg _) (by positivity)
        linarith
      have b5 : |q * f t| ≤ 1.02 * ρ := by
        have i1 := abs_add_le (q * f t - ρ * g (z.arg / 2)) (ρ * g (z.arg / 2))
        rw [sub_add_cancel, abs_mul ρ, abs_of_pos hρ0] at i1
        have := mul_le_mul_of_nonneg_left a3 hρ0.le
        linarith
      have b6 := S.fl b5 (by linarith)
      have b7 := abs_add_le (r.rnd (q * f t) - q * f t) (q * f t - ρ * g (z.arg / 2))
      rw [sub_add_sub_cancel] at b7
      linarith
    have k := norm_le_of_parts (z := (⟨r.rnd (q * m.cos t), r.rnd (q * m.sin t)⟩ : ℂ) - csqrt z) (B := 9.8 * h * ρ)
      (by rw [Complex.sub_re, p1]
          exact key _ _ hm.cos (Real.abs_cos_sub_cos_le _ _) (Real.abs_cos_le_one _))
      (by rw [Complex.sub_im, p2]
          exact key _ _ hm.sin (Real.abs_sin_sub_sin_le _ _) (Real.abs_sin_le_one _))
    rw [← hρ]
    change ‖(⟨r.rnd (r.rnd √(m.hypot z.re z.im) * m.cos (r.rnd (m.atan2 z.im z.re / 2))),
      r.rnd (r.rnd √(m.hypot z.re z.im) * m.sin (r.rnd (m.atan2 z.im z.re / 2)))⟩ : ℂ) - csqrt z‖ ≤ _
    rw [← hq, ← htd]
    linarith

/-- Two numbers on the same side of the cut of the square root. -/
def SameSide (a b : ℂ) : Prop :=
  (0 < a.im ∧ 0 < b.im) ∨ (a.im < 0 ∧ b.im < 0) ∨ (a.im = 0 ∧ b.im = 0 ∧ (0 < a.re ∧ 0 < b.re ∨ a.re < 0 ∧ b.re < 0))

/-- Square roots of complex numbers with errors. -/
theorem csqrt_diff {a b : ℂ} (hs : SameSide a b) : ‖csqrt b - csqrt a‖ * ‖csqrt a‖ ≤ ‖b - a‖ := by
  have ha := csqrt_sq a
  have hb := csqrt_sq b
  have ra := csqrt_re_nonneg a
  have rb := csqrt_re_nonneg b
  have hin : 0 ≤ (csqrt a).re * (csqrt b).re + (csqrt a).im * (csqrt b).im := by
    rcases hs with ⟨h1, h2⟩ | ⟨h1, h2⟩ | ⟨h1, h2, h3⟩
    · rw [← ha, sq, Complex.mul_im] at h1
      rw [← hb, sq, Complex.mul_im] at h2
      have i1 : 0 < (csqrt a).im := by by_contra hc; push Not at hc; nlinarith
      have i2 : 0 < (csqrt b).im := by by_contra hc; push Not at hc; nlinarith
      positivity
    · rw [← ha, sq, Complex.mul_im] at h1
      rw [← hb, sq, Complex.mul_im] at h2
      have i1 : (csqrt a).im < 0 := by by_contra hc; push Not at hc; nlinarith
      have i2 : (csqrt b).im < 0 := by by_contra hc; push Not at hc; nlinarith
      have := mul_pos_of_neg_of_neg i1 i2
      have := mul_nonneg ra rb
      linarith
    · have ea : a = (a.re : ℂ) := by apply Complex.ext <;> simp [h1]
      have eb : b = (b.re : ℂ) := by apply Complex.ext <;> simp [h2]
      rw [ea, eb]
      rcases h3 with ⟨k1, k2⟩ | ⟨k1, k2⟩
      · rw [csqrt_pos k1.le, csqrt_pos k2.le]
        simp only [Complex.ofReal_re, Complex.ofReal_im]; positivity
      · rw [csqrt_neg k1, csqrt_neg k2]
        have := Real.sqrt_nonneg (-a.re)
        have := Real.sqrt_nonneg (-b.re)
        simp only [Complex.ofReal_re]; positivity
  have hn : ‖csqrt a‖ ≤ ‖csqrt b + csqrt a‖ := by
    refine (sq_le_sq₀ (norm_nonneg _) (norm_nonneg _)).mp ?_
    rw [Complex.sq_norm, Complex.sq_norm, Complex.normSq_apply, Complex.normSq_apply, Complex.add_re, Complex.add_im]
    nlinarith [sq_nonneg (csqrt b).re, sq_nonneg (csqrt b).im]
  calc ‖csqrt b - csqrt a‖ * ‖csqrt a‖ ≤ ‖csqrt b - csqrt a‖ * ‖csqrt b + csqrt a‖ :=
        mul_le_mul_of_nonneg_left hn (norm_nonneg _)
    _ = ‖b - a‖ := by
        rw [← norm_mul]
        congr 1
        conv_rhs => rw [← ha, ← hb]
        ring

end SciRs.Rounded

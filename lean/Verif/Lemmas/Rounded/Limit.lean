import Verif.Spec.Fine
import Verif.Lemmas.Rounded.CsqrtError
import Verif.Lemmas.Rounded.Exact
import Verif.Lemmas.Rounded.Iirfilter
import Verif.Lemmas.Rounded.Lawful
import Verif.Lemmas.Rounded.Zeros
import Mathlib.Analysis.SpecialFunctions.Complex.Arg
import Mathlib.Analysis.SpecialFunctions.Pow.Continuity

/-! # Lemmas: the operations of the design code as the precision grows -/

namespace SciRs.Rounded

open Complex SciRs.Design SciRs.Spec Filter Topology

/-- An arithmetic and its accuracy. -/
structure Setup where
  r : Rounding
  m : Libm
  h : ℝ
  acc : AccurateTo r m h

/-- The accuracy goes to zero. -/
def fine : Filter Setup := Filter.comap Setup.h (𝓝 0)

namespace Setup

/-- The arithmetic. -/
noncomputable abbrev A (i : Setup) : Arith := .ofRounding i.r i.m

theorem h_nonneg (i : Setup) : 0 ≤ i.h := i.r.u_nonneg.trans i.acc.basic.u_le

end Setup

theorem tendsto_h : Tendsto Setup.h fine (𝓝 0) := tendsto_comap

/-- What holds eventually holds for every arithmetic that is accurate enough. -/
theorem exists_of_eventually {P : Setup → Prop} (h : ∀ᶠ i in fine, P i) :
    ∃ h0 : ℝ, 0 < h0 ∧ ∀ i : Setup, i.h ≤ h0 → P i := by
  obtain ⟨t, ht, hs⟩ := Filter.mem_comap.mp h
  obtain ⟨ε, hε, hb⟩ := Metric.mem_nhds_iff.mp ht
  refine ⟨ε / 2, by positivity, fun i hi => hs (hb ?_)⟩
  rw [Metric.mem_ball, dist_zero_right, Real.norm_of_nonneg i.h_nonneg]
  linarith

theorem eventually_small {c : ℝ} (hc : 0 < c) : ∀ᶠ i in fine, Setup.h i < c :=
  tendsto_h.eventually (gt_mem_nhds hc)

theorem tendsto_of_close {a b e : Setup → ℝ} {x : ℝ} (hb : Tendsto b fine (𝓝 x)) (he : Tendsto e fine (𝓝 0))
    (h : ∀ᶠ i in fine, |a i - b i| ≤ e i) : Tendsto a fine (𝓝 x) := by
  have h1 : Tendsto (fun i => a i - b i) fine (𝓝 0) :=
    squeeze_zero_norm' (by simpa using h) he
  simpa using h1.add hb

theorem tendsto_closeC {a b : Setup → ℂ} {e : Setup → ℝ} {x : ℂ} (hb : Tendsto b fine (𝓝 x)) (he : Tendsto e fine (𝓝 0))
    (h : ∀ᶠ i in fine, ‖a i - b i‖ ≤ e i) : Tendsto a fine (𝓝 x) := by
  have h1 : Tendsto (fun i => a i - b i) fine (𝓝 0) := squeeze_zero_norm' h he
  simpa using h1.add hb

theorem tendsto_rnd {a : Setup → ℝ} {x : ℝ} (h : Tendsto a fine (𝓝 x)) : Tendsto (fun i => i.r.rnd (a i)) fine (𝓝 x) := by
  refine tendsto_of_close (e := fun i => i.h * (|a i| + 1)) h ?_ (Eventually.of_forall fun i => ?_)
  · simpa using tendsto_h.mul (h.abs.add_const 1)
  · have h1 := i.r.err (a i)
    have h2 := mul_le_mul_of_nonneg_right i.acc.basic.u_le (abs_nonneg (a i))
    have h3 := i.acc.t_le
    linarith

theorem tendsto_mk {a b : Setup → ℝ} {x y : ℝ} (h1 : Tendsto a fine (𝓝 x)) (h2 : Tendsto b fine (𝓝 y)) :
    Tendsto (fun i => (⟨a i, b i⟩ : ℂ)) fine (𝓝 ⟨x, y⟩) := by
  have h : Tendsto (fun i => (a i : ℂ) + (b i : ℂ) * I) fine (𝓝 ((x : ℂ) + (y : ℂ) * I)) :=
    ((continuous_ofReal.tendsto x).comp h1).add (((continuous_ofReal.tendsto y).comp h2).mul_const I)
  have e : ∀ x y : ℝ, (x : ℂ) + (y : ℂ) * I = ⟨x, y⟩ := fun x y => by apply Complex.ext <;> simp
  simpa only [e] using h

theorem tendsto_re {a : Setup → ℂ} {x : ℂ} (h : Tendsto a fine (𝓝 x)) : Tendsto (fun i => (a i).re) fine (𝓝 x.re) :=
  (continuous_re.tendsto x).comp h

theorem tendsto_im {a : Setup → ℂ} {x : ℂ} (h : Tendsto a fine (𝓝 x)) : Tendsto (fun i => (a i).im) fine (𝓝 x.im) :=
  (continuous_im.tendsto x).comp h

theorem tendsto_ofReal {a : Setup → ℝ} {x : ℝ} (h : Tendsto a fine (𝓝 x)) : Tendsto (fun i => (a i : ℂ)) fine (𝓝 (x : ℂ)) :=
  (continuous_ofReal.tendsto x).comp h

section ops

variable {a b : Setup → ℂ} {x y : ℂ}

theorem tendsto_cadd (h1 : Tendsto a fine (𝓝 x)) (h2 : Tendsto b fine (𝓝 y)) :
    Tendsto (fun i => i.A.cadd (a i) (b i)) fine (𝓝 (x + y)) := by
  have := tendsto_mk (tendsto_rnd ((tendsto_re h1).add (tendsto_re h2))) (tendsto_rnd ((tendsto_im h1).add (tendsto_im h2)))
  have e : (⟨x.re + y.re, x.im + y.im⟩ : ℂ) = x + y := rfl
  rw [e] at this
  exact this

theorem tendsto_csub (h1 : Tendsto a fine (𝓝 x)) (h2 : Tendsto b fine (𝓝 y)) :
    Tendsto (fun i => i.A.csub (a i) (b i)) fine (𝓝 (x - y)) := by
  have := tendsto_mk (tendsto_rnd ((tendsto_re h1).sub (tendsto_re h2))) (tendsto_rnd ((tendsto_im h1).sub (tendsto_im h2)))
  have e : (⟨x.re - y.re, x.im - y.im⟩ : ℂ) = x - y := rfl
  rw [e] at this
  exact this

theorem tendsto_cmul (h1 : Tendsto a fine (𝓝 x)) (h2 : Tendsto b fine (𝓝 y)) :
    Tendsto (fun i => i.A.cmul (a i) (b i)) fine (𝓝 (x * y)) := by
  have := tendsto_mk (tendsto_rnd ((tendsto_rnd ((tendsto_re h1).mul (tendsto_re h2))).sub
    (tendsto_rnd ((tendsto_im h1).mul (tendsto_im h2))))) (tendsto_rnd ((tendsto_rnd ((tendsto_re h1).mul (tendsto_im h2))).add
    (tendsto_rnd ((tendsto_im h1).mul (tendsto_re h2)))))
  have e : (⟨x.re * y.re - x.im * y.im, x.re * y.im + x.im * y.re⟩ : ℂ) = x * y := rfl
  rw [e] at this
  exact this

theorem tendsto_cdiv (h1 : Tendsto a fine (𝓝 x)) (h2 : Tendsto b fine (𝓝 y)) (hy : y ≠ 0) :
    Tendsto (fun i => i.A.cdiv (a i) (b i)) fine (𝓝 (x / y)) := by
  have hn : y.re * y.re + y.im * y.im ≠ 0 := by
    rw [← normSq_apply]; exact fun h => hy (normSq_eq_zero.mp h)
  have n := tendsto_rnd ((tendsto_rnd ((tendsto_re h2).mul (tendsto_re h2))).add
    (tendsto_rnd ((tendsto_im h2).mul (tendsto_im h2))))
  have := tendsto_mk (tendsto_rnd ((tendsto_rnd ((tendsto_rnd ((tendsto_re h1).mul (tendsto_re h2))).add
    (tendsto_rnd ((tendsto_im h1).mul (tendsto_im h2))))).div n hn))
    (tendsto_rnd ((tendsto_rnd ((tendsto_rnd ((tendsto_im h1).mul (tendsto_re h2))).sub
    (tendsto_rnd ((tendsto_re h1).mul (tendsto_im h2))))).div n hn))
  have e : (⟨(x.re * y.re + x.im * y.im) / (y.re * y.re + y.im * y.im),
      (x.im * y.re - x.re * y.im) / (y.re * y.re + y.im * y.im)⟩ : ℂ) = x / y := by
    apply Complex.ext
    · rw [div_re, normSq_apply]; ring
    · rw [div_im, normSq_apply]; ring
  rw [e] at this
  exact this

theorem tendsto_csq (h1 : Tendsto a fine (𝓝 x)) : Tendsto (fun i => i.A.csq (a i)) fine (𝓝 (x ^ 2)) := by
  rw [sq]; exact tendsto_cmul h1 h1

end ops

section libm

variable {a b : Setup → ℝ} {x y : ℝ}

theorem tendsto_add (h1 : Tendsto a fine (𝓝 x)) (h2 : Tendsto b fine (𝓝 y)) :
    Tendsto (fun i => i.A.add (a i) (b i)) fine (𝓝 (x + y)) := tendsto_rnd (h1.add h2)

theorem tendsto_sub (h1 : Tendsto a fine (𝓝 x)) (h2 : Tendsto b fine (𝓝 y)) :
    Tendsto (fun i => i.A.sub (a i) (b i)) fine (𝓝 (x - y)) := tendsto_rnd (h1.sub h2)

theorem tendsto_mul (h1 : Tendsto a fine (𝓝 x)) (h2 : Tendsto b fine (𝓝 y)) :
    Tendsto (fun i => i.A.mul (a i) (b i)) fine (𝓝 (x * y)) := tendsto_rnd (h1.mul h2)

theorem tendsto_div (h1 : Tendsto a fine (𝓝 x)) (h2 : Tendsto b fine (𝓝 y)) (hy : y ≠ 0) :
    Tendsto (fun i => i.A.div (a i) (b i)) fine (𝓝 (x / y)) := tendsto_rnd (h1.div h2 hy)

theorem tendsto_sqrt (h1 : Tendsto a fine (𝓝 x)) : Tendsto (fun i => i.A.sqrt (a i)) fine (𝓝 (√x)) :=
  tendsto_rnd ((Real.continuous_sqrt.tendsto x).comp h1)

theorem tendsto_ofInt (n : ℤ) : Tendsto (fun i => i.A.ofInt n) fine (𝓝 (n : ℝ)) := tendsto_rnd tendsto_const_nhds

theorem tendsto_pi : Tendsto (fun i => i.A.pi) fine (𝓝 Real.pi) := by
  refine tendsto_of_close (e := fun i => i.h * Real.pi) (b := fun _ => Real.pi) tendsto_const_nhds ?_
    (Eventually.of_forall fun i => i.acc.basic.pi)
  simpa using tendsto_h.mul_const Real.pi

theorem tendsto_t : Tendsto (fun i : Setup => i.r.t) fine (𝓝 0) :=
  squeeze_zero (fun i => i.r.t_nonneg) (fun i => i.acc.t_le) tendsto_h

/-- A library function that is accurate near the limit. -/
theorem tendsto_libm {f : ℝ → ℝ} {F : Setup → ℝ → ℝ} (h1 : Tendsto a fine (𝓝 x)) (hf : ContinuousAt f x)
    (h : ∀ᶠ i in fine, |F i (a i) - f (a i)| ≤ i.h * (|f (a i)| + 1) + i.r.t) :
    Tendsto (fun i => F i (a i)) fine (𝓝 (f x)) := by
  have h2 : Tendsto (fun i => f (a i)) fine (𝓝 (f x)) := hf.tendsto.comp h1
  refine tendsto_of_close h2 ?_ h
  simpa using (tendsto_h.mul (h2.abs.add_const 1)).add tendsto_t

theorem tendsto_sin (h1 : Tendsto a fine (𝓝 x)) (hx : |x| < 4) :
    Tendsto (fun i => i.A.sin (a i)) fine (𝓝 (Real.sin x)) := by
  refine tendsto_libm (f := Real.sin) (F := fun i => i.m.sin) h1 Real.continuous_sin.continuousAt ?_
  filter_upwards [h1.abs.eventually (gt_mem_nhds hx)] with i hi
  have := i.acc.basic.sin (a i) hi.le
  nlinarith [i.h_nonneg, i.r.t_nonneg, abs_nonneg (Real.sin (a i)), mul_nonneg i.h_nonneg (abs_nonneg (Real.sin (a i)))]

theorem tendsto_cos (h1 : Tendsto a fine (𝓝 x)) (hx : |x| < 4) :
    Tendsto (fun i => i.m.cos (a i)) fine (𝓝 (Real.cos x)) := by
  refine tendsto_libm (f := Real.cos) (F := fun i => i.m.cos) h1 Real.continuous_cos.continuousAt ?_
  filter_upwards [h1.abs.eventually (gt_mem_nhds hx)] with i hi
  have := i.acc.basic.cos (a i) hi.le
  nlinarith [i.h_nonneg, i.r.t_nonneg, abs_nonneg (Real.cos (a i)), mul_nonneg i.h_nonneg (abs_nonneg (Real.cos (a i)))]

theorem tendsto_tan (h1 : Tendsto a fine (𝓝 x)) (hx : 0 < x) (hx' : x < Real.pi / 2) :
    Tendsto (fun i => i.A.tan (a i)) fine (𝓝 (Real.tan x)) := by
  have hc : Real.cos x ≠ 0 := (Real.cos_pos_of_mem_Ioo ⟨by linarith [Real.pi_pos], hx'⟩).ne'
  refine tendsto_libm (f := Real.tan) (F := fun i => i.m.tan) h1 (Real.continuousAt_tan.mpr hc) ?_
  filter_upwards [h1.eventually (lt_mem_nhds hx), h1.eventually (gt_mem_nhds hx')] with i hi hi'
  have := i.acc.basic.tan (a i) hi hi'
  nlinarith [i.h_nonneg, mul_le_mul_of_nonneg_left (le_abs_self (Real.tan (a i))) i.h_nonneg]

theorem tendsto_powf (h1 : Tendsto a fine (𝓝 x)) (hx : 0 < x) :
    Tendsto (fun i => i.A.powf 10 (a i)) fine (𝓝 ((10 : ℝ) ^ x)) := by
  refine tendsto_libm (f := fun y => (10 : ℝ) ^ y) (F := fun i => i.m.powf 10) h1
    (Real.continuousAt_const_rpow (by norm_num)) ?_
  filter_upwards [h1.eventually (lt_mem_nhds hx)] with i hi
  have := i.acc.hyp.powf (a i) hi.le
  nlinarith [i.h_nonneg, i.r.t_nonneg, mul_le_mul_of_nonneg_left (le_abs_self ((10 : ℝ) ^ (a i))) i.h_nonneg]

theorem tendsto_asinh (h1 : Tendsto a fine (𝓝 x)) (hx : 0 < x) :
    Tendsto (fun i => i.A.asinh (a i)) fine (𝓝 (Real.arsinh x)) := by
  refine tendsto_libm (f := Real.arsinh) (F := fun i => i.m.asinh) h1 Real.continuous_arsinh.continuousAt ?_
  filter_upwards [h1.eventually (lt_mem_nhds hx)] with i hi
  have := i.acc.hyp.asinh (a i) hi
  nlinarith [i.h_nonneg, mul_le_mul_of_nonneg_left (le_abs_self (Real.arsinh (a i))) i.h_nonneg]

theorem tendsto_sinh (h1 : Tendsto a fine (𝓝 x)) (hx : 0 < x) :
    Tendsto (fun i => i.A.sinh (a i)) fine (𝓝 (Real.sinh x)) := by
  refine tendsto_libm (f := Real.sinh) (F := fun i => i.m.sinh) h1 Real.continuous_sinh.continuousAt ?_
  filter_upwards [h1.eventually (lt_mem_nhds hx)] with i hi
  have := i.acc.hyp.sinh (a i) hi
  nlinarith [i.h_nonneg, mul_le_mul_of_nonneg_left (le_abs_self (Real.sinh (a i))) i.h_nonneg]

theorem tendsto_cosh (h1 : Tendsto a fine (𝓝 x)) (hx : 0 < x) :
    Tendsto (fun i => i.A.cosh (a i)) fine (𝓝 (Real.cosh x)) := by
  refine tendsto_libm (f := Real.cosh) (F := fun i => i.m.cosh) h1 Real.continuous_cosh.continuousAt ?_
  filter_upwards [h1.eventually (lt_mem_nhds hx)] with i hi
  have := i.acc.hyp.cosh (a i) hi
  nlinarith [i.h_nonneg, i.r.t_nonneg, mul_le_mul_of_nonneg_left (le_abs_self (Real.cosh (a i))) i.h_nonneg]

theorem tendsto_powi (n : ℕ) (h1 : Tendsto a fine (𝓝 x)) (hx : 0 < x) :
    Tendsto (fun i => i.A.powi (a i) n) fine (𝓝 (x ^ n)) := by
  have h2 : Tendsto (fun i => a i ^ n) fine (𝓝 (x ^ n)) := h1.pow n
  refine tendsto_of_close (e := fun i => n * (i.h * a i ^ n + 2 * i.r.t)) h2 ?_ ?_
  · simpa using ((tendsto_h.mul h2).add (tendsto_t.const_mul 2)).const_mul (n : ℝ)
  · filter_upwards [h1.eventually (lt_mem_nhds hx)] with i hi
    exact i.acc.basic.powi (a i) n hi

end libm

/-- The exponential of an imaginary number. -/
theorem tendsto_cexp {a : Setup → ℝ} {x : ℝ} (h1 : Tendsto a fine (𝓝 x)) (hx : |x| < 4) :
    Tendsto (fun i => i.A.cexp ⟨0, a i⟩) fine (𝓝 (exp ⟨0, x⟩)) := by
  have e : exp ⟨0, x⟩ = ⟨Real.cos x, Real.sin x⟩ := by
    apply Complex.ext <;> simp [exp_re, exp_im]
  rw [e]
  have h2 : ∀ i : Setup, i.A.cexp ⟨0, a i⟩ = ⟨i.r.rnd (i.m.cos (a i)), i.r.rnd (i.m.sin (a i))⟩ := by
    intro i
    change (⟨i.r.rnd (i.m.exp 0 * i.m.cos (a i)), i.r.rnd (i.m.exp 0 * i.m.sin (a i))⟩ : ℂ) = _
    rw [i.acc.basic.exp_zero, one_mul, one_mul]
  simp only [h2]
  exact tendsto_mk (tendsto_rnd (tendsto_cos h1 hx)) (tendsto_rnd (tendsto_sin h1 hx))

theorem tendsto_csinh {a b : Setup → ℝ} {x y : ℝ} (h1 : Tendsto a fine (𝓝 x)) (hx : 0 < x) (h2 : Tendsto b fine (𝓝 y))
    (hy : |y| < 4) : Tendsto (fun i => i.A.csinh ⟨a i, b i⟩) fine (𝓝 (Complex.sinh ⟨x, y⟩)) := by
  have e : Complex.sinh ⟨x, y⟩ = ⟨Real.sinh x * Real.cos y, Real.cosh x * Real.sin y⟩ := by
    have : (⟨x, y⟩ : ℂ) = (x : ℂ) + (y : ℂ) * I := by apply Complex.ext <;> simp
    rw [this, Complex.sinh_add, Complex.cosh_mul_I, Complex.sinh_mul_I, ← ofReal_sinh, ← ofReal_cosh, ← ofReal_sin, ← ofReal_cos]
    apply Complex.ext <;> simp [-ofReal_sin, -ofReal_cos, -ofReal_sinh, -ofReal_cosh]
  rw [e]
  exact tendsto_mk (tendsto_rnd ((tendsto_sinh h1 hx).mul (tendsto_cos h2 hy)))
    (tendsto_rnd ((tendsto_cosh h1 hx).mul (tendsto_sin h2 hy)))

/-- The square root off the real axis. -/
theorem tendsto_csqrt {a : Setup → ℂ} {x : ℂ} (h1 : Tendsto a fine (𝓝 x)) (hx : x.im ≠ 0) :
    Tendsto (fun i => i.A.csqrt (a i)) fine (𝓝 (csqrt x)) := by
  have hx0 : 0 < ‖x‖ := norm_pos_iff.mpr (fun h => hx (by rw [h]; rfl))
  obtain ⟨σ, hσ⟩ : ∃ σ, σ = min 1 (‖x‖ / 2) := ⟨_, rfl⟩
  have hσ0 : 0 < σ := by rw [hσ]; positivity
  have hσ1 : σ ≤ 1 := by rw [hσ]; exact min_le_left _ _
  have hσ2 : σ ≤ ‖x‖ / 2 := by rw [hσ]; exact min_le_right _ _
  have hc : Tendsto (fun i => csqrt (a i)) fine (𝓝 (csqrt x)) := by
    have : ContinuousAt csqrt x := by
      unfold csqrt
      exact continuousAt_cpow_const (Complex.mem_slitPlane_iff.mpr (.inr hx))
    exact this.tendsto.comp h1
  have hk : Tendsto (fun i : Setup => i.h * (1 + 1 / σ)) fine (𝓝 0) := by simpa using tendsto_h.mul_const (1 + 1 / σ)
  refine tendsto_closeC hc (e := fun i => 16 * (i.h * (1 + 1 / σ)) * √‖a i‖) ?_ ?_
  · simpa using (hk.const_mul 16).mul ((Real.continuous_sqrt.tendsto _).comp h1.norm)
  · filter_upwards [hk.eventually (gt_mem_nhds (show (0 : ℝ) < 1 / 1024 by norm_num)),
      h1.norm.eventually (lt_mem_nhds (show ‖x‖ / 2 < ‖x‖ by linarith))] with i hi hn
    have hle : i.h ≤ i.h * (1 + 1 / σ) := by
      have : 0 ≤ i.h * (1 / σ) := mul_nonneg i.h_nonneg (by positivity)
      nlinarith
    have hu := i.acc.basic.u_le
    have S : Small i.r (i.h * (1 + 1 / σ)) σ := by
      refine ⟨hu.trans hle, ?_, hσ0⟩
      have e : (i.h * (1 + 1 / σ) - i.r.u) * σ = (i.h - i.r.u) * σ + i.h := by field_simp; ring
      rw [e]
      nlinarith [i.acc.t_le, mul_nonneg (sub_nonneg.mpr hu) hσ0.le]
    have hb : i.m.Accurate i.r (i.h * (1 + 1 / σ)) := by
      have B := i.acc.basic
      refine ⟨hu.trans hle, B.eps.trans (by linarith), B.pi.trans (mul_le_mul_of_nonneg_right hle Real.pi_pos.le),
        B.exp_zero, fun y hy => (B.sin y hy).trans hle, fun y hy => (B.cos y hy).trans hle, fun y n hy => ?_,
        fun y h1 h2 => ?_, B.hypot, B.atan2⟩
      · refine (B.powi y n hy).trans (mul_le_mul_of_nonneg_left ?_ (Nat.cast_nonneg n))
        have := mul_le_mul_of_nonneg_right hle (pow_pos hy n).le
        linarith
      · have := mul_le_mul_of_nonneg_right hle (Real.tan_pos_of_pos_of_lt_pi_div_two h1 h2).le
        linarith [B.tan y h1 h2]
    have hp : i.m.AccuratePolar i.r (i.h * (1 + 1 / σ)) := by
      refine ⟨fun y z => (i.acc.polar.hypot y z).trans ?_, fun y z => (i.acc.polar.atan2 y z).trans (by linarith)⟩
      have := mul_le_mul_of_nonneg_right hle (Real.sqrt_nonneg (y ^ 2 + z ^ 2))
      linarith
    exact Small.flSqrt S hσ1 hi.le hb hp (hσ2.trans hn.le)

/-- The square root of numbers that are exactly real. -/
theorem tendsto_csqrt_real {a : Setup → ℂ} {x : ℂ} (h1 : Tendsto a fine (𝓝 x)) (hx : x.im = 0)
    (ha : ∀ i, (a i).im = 0) : Tendsto (fun i => i.A.csqrt (a i)) fine (𝓝 (csqrt x)) := by
  have ex : x = (x.re : ℂ) := by apply Complex.ext <;> simp [hx]
  have e1 : csqrt x = ⟨√x.re, √(-x.re)⟩ := by
    rw [ex]
    rcases le_or_gt 0 x.re with h | h
    · rw [csqrt_pos h]
      apply Complex.ext <;> simp [Real.sqrt_eq_zero_of_nonpos (show -x.re ≤ 0 by linarith)]
    · rw [csqrt_neg h]
      apply Complex.ext <;> simp [Real.sqrt_eq_zero_of_nonpos h.le]
  have e2 : ∀ i : Setup, i.A.csqrt (a i) = ⟨i.r.rnd √(a i).re, i.r.rnd √(-(a i).re)⟩ := by
    intro i
    change flSqrt i.r i.m (a i) = _
    unfold flSqrt
    rw [if_pos (ha i)]
    split
    · rename_i h
      rw [Real.sqrt_eq_zero_of_nonpos (show -(a i).re ≤ 0 by linarith), i.r.zero, ha i]
    · rename_i h
      rw [Real.sqrt_eq_zero_of_nonpos (not_le.mp h).le, i.r.zero]
  rw [e1]
  simp only [e2]
  have h2 := tendsto_re h1
  exact tendsto_mk (tendsto_rnd ((Real.continuous_sqrt.tendsto _).comp h2))
    (tendsto_rnd ((Real.continuous_sqrt.tendsto _).comp h2.neg))

end SciRs.Rounded

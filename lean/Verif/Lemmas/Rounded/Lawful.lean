import Verif.Spec.ArithLaws
import Verif.Spec.NumComplex
import Verif.Lemmas.BinaryRounding
import Verif.Lemmas.Design.Cplx

/-! # Exact arithmetic and floating-point arithmetic obey the laws -/

namespace SciRs.Rounded

open Complex SciRs.Spec

theorem binary_nearest {p : ℕ} {emin : ℤ} (hp : 1 ≤ p) (he : emin ≤ 0) : (Binary.rounding p emin hp).Nearest where
  odd := Binary.rnd_neg p emin
  idem := Binary.rnd_rnd p emin hp
  double := Binary.rnd_double p emin
  one := by
    have h1 : |(1 : ℤ)| < 2 ^ p := by
      rw [abs_one]
      exact one_lt_pow₀ (by norm_num) (by omega)
    have := Binary.rnd_int p emin he 1 h1
    rw [Int.cast_one] at this
    exact this

theorem binary64_nearest : binary64.Nearest := binary_nearest (by norm_num) (by norm_num)
theorem binary32_nearest : binary32.Nearest := binary_nearest (by norm_num) (by norm_num)

theorem exact_lawful (eps : ℝ) (he : 0 ≤ eps) : (Arith.exact eps).Lawful where
  ofInt_neg := fun n => by simp [Arith.exact]
  mul_neg := fun x y => by simp [Arith.exact]
  neg_mul := fun x y => by simp [Arith.exact]
  neg_div := fun x y => by simp only [Arith.exact]; ring
  sin_neg := fun x => Real.sin_neg x
  conj_cadd := fun x y => map_add _ x y
  conj_csub := fun x y => map_sub _ x y
  conj_cmul := fun x y => map_mul _ x y
  conj_cdiv := fun x y => map_div₀ _ x y
  conj_csq := fun x => map_pow _ x 2
  conj_cexp := fun x => (Complex.exp_conj x).symm
  conj_csinh := fun x => (Complex.sinh_conj x).symm
  conj_csqrt := fun x => by
    change ((starRingEnd ℂ) x) ^ (1 / 2 : ℂ) = _ ∨ _
    by_cases h : x.arg = Real.pi
    · right
      have h1 := Complex.arg_eq_pi_iff.mp h
      have h2 : (starRingEnd ℂ) x = x := Complex.conj_eq_iff_im.mpr h1.2
      have h3 : (x ^ (1 / 2 : ℂ)).re = 0 := by
        have hx : x ≠ 0 := by rintro rfl; simp at h1
        rw [Complex.cpow_def_of_ne_zero hx, Complex.exp_re]
        have : (Complex.log x * (1 / 2)).im = Real.pi / 2 := by
          have e : (Complex.log x * (1 / 2)).im = x.arg / 2 := by
            rw [show (1 / 2 : ℂ) = ((1 / 2 : ℝ) : ℂ) by norm_num, Complex.im_mul_ofReal, Complex.log_im]; ring
          rw [e, h]
        rw [this, Real.cos_pi_div_two, mul_zero]
      refine ⟨?_, h3⟩
      change _ = -(starRingEnd ℂ) (x ^ (1 / 2 : ℂ))
      rw [h2]
      change x ^ (1 / 2 : ℂ) = _
      apply Complex.ext
      · rw [neg_re, conj_re, h3, neg_zero]
      · rw [neg_im, conj_im, neg_neg]
    · left
      have h1 := Complex.cpow_conj x (1 / 2) h
      rw [show (starRingEnd ℂ) (1 / 2 : ℂ) = 1 / 2 by rw [map_div₀, map_one, Complex.conj_ofNat]] at h1
      change _ = (starRingEnd ℂ) (x ^ (1 / 2 : ℂ))
      rw [h1, Complex.conj_conj]
  cadd_neg := fun x y => by simp only [Arith.exact]; ring
  csub_neg := fun x y => by simp only [Arith.exact]; ring
  cmul_neg := fun x y => by simp [Arith.exact]
  neg_cmul := fun x y => by simp [Arith.exact]
  neg_cdiv := fun x y => by simp only [Arith.exact]; ring
  cdiv_neg := fun x y => by simp only [Arith.exact]; ring
  csqrt_sq_re := fun x _ => Design.csqrt_re_nonneg _
  mul_nonneg := fun x y hx hy => mul_nonneg hx hy
  eps_nonneg := he
  cabs_nonneg := fun x => norm_nonneg x
  cabs_zero := norm_zero
  csub_self := fun x => sub_self x
  cmul_one_one := one_mul 1
  cadd_zero_one := zero_add 1
  rep_zero := trivial
  rep_neg_one := trivial
  rep_cdiv := fun _ _ => ⟨trivial, trivial⟩
  halve_double := fun x _ _ => by
    simp only [Arith.exact]
    push_cast
    ring

section
variable {r : Rounding} (hr : r.Nearest) (m : Libm)

theorem rnd_nonneg {x : ℝ} (h : 0 ≤ x) : 0 ≤ r.rnd x := by
  rw [← r.zero]; exact r.mono _ _ h

include hr

theorem rnd_neg_add (x y : ℝ) : r.rnd (-x + -y) = -r.rnd (x + y) := by
  rw [← hr.odd]; congr 1; ring

theorem rnd_neg_sub (x y : ℝ) : r.rnd (-x - -y) = -r.rnd (x - y) := by
  rw [← hr.odd]; congr 1; ring

theorem rnd_neg_add' (x y : ℝ) : r.rnd (-x + y) = -r.rnd (x - y) := by
  rw [← hr.odd]; congr 1; ring

theorem rnd_neg_sub' (x y : ℝ) : r.rnd (-x - y) = -r.rnd (x + y) := by
  rw [← hr.odd]; congr 1; ring

theorem conj_csqrt_rounded (x : ℂ) :
    flSqrt r m ((starRingEnd ℂ) x) = (starRingEnd ℂ) (flSqrt r m x) ∨
      (flSqrt r m ((starRingEnd ℂ) x) = -(starRingEnd ℂ) (flSqrt r m x) ∧ (flSqrt r m x).re = 0) := by
  obtain ⟨a, b⟩ := x
  have e : (starRingEnd ℂ) (⟨a, b⟩ : ℂ) = ⟨a, -b⟩ := rfl
  rw [e]
  by_cases h : b = 0
  · subst h
    simp only [flSqrt, neg_zero, if_true]
    split
    · left; apply Complex.ext <;> simp
    · right
      refine ⟨?_, rfl⟩
      apply Complex.ext <;> simp
  · left
    by_cases ha : a = 0
    · subst ha
      simp only [flSqrt, neg_eq_zero, if_neg h, if_true, abs_neg]
      rcases lt_or_gt_of_ne h with hb | hb
      · rw [if_pos (by linarith), if_neg (by linarith)]
        apply Complex.ext <;> simp
      · rw [if_neg (by linarith), if_pos (by linarith)]
        apply Complex.ext <;> simp
    · simp only [flSqrt, neg_eq_zero, if_neg h, if_neg ha, m.hypot_neg, m.atan2_neg _ _ h, neg_div, hr.odd,
        m.cos_neg, m.sin_neg, mul_neg]
      rfl

theorem ofRounding_lawful : (Arith.ofRounding r m).Lawful where
  ofInt_neg := fun n => by simp [Arith.ofRounding, hr.odd]
  mul_neg := fun x y => by simp [Arith.ofRounding, hr.odd]
  neg_mul := fun x y => by simp [Arith.ofRounding, hr.odd]
  neg_div := fun x y => by simp [Arith.ofRounding, neg_div, hr.odd]
  sin_neg := m.sin_neg
  conj_cadd := fun x y => by
    apply Complex.ext <;> simp [Arith.ofRounding]
    rw [← hr.odd]; congr 1; ring
  conj_csub := fun x y => by
    apply Complex.ext <;> simp [Arith.ofRounding]
    rw [← hr.odd]; congr 1; ring
  conj_cmul := fun x y => by
    apply Complex.ext <;> simp [Arith.ofRounding, flMul, hr.odd]
    rw [← hr.odd]; congr 1; ring
  conj_cdiv := fun x y => by
    apply Complex.ext <;> simp [Arith.ofRounding, flDiv, hr.odd]
    rw [← hr.odd, ← neg_div]; congr 2
    rw [← hr.odd]; congr 1; ring
  conj_csq := fun x => by
    apply Complex.ext <;> simp [Arith.ofRounding, flMul, hr.odd]
    rw [← hr.odd]; congr 1; ring
  conj_cexp := fun x => by
    apply Complex.ext <;> simp [Arith.ofRounding, hr.odd, m.cos_neg, m.sin_neg]
  conj_csinh := fun x => by
    apply Complex.ext <;> simp [Arith.ofRounding, hr.odd, m.cos_neg, m.sin_neg]
  conj_csqrt := conj_csqrt_rounded hr m
  cadd_neg := fun x y => by apply Complex.ext <;> simp [Arith.ofRounding, sub_eq_add_neg]
  csub_neg := fun x y => by apply Complex.ext <;> simp [Arith.ofRounding]
  cmul_neg := fun x y => by
    apply Complex.ext <;> simp only [Arith.ofRounding, flMul, neg_re, neg_im, mul_neg, neg_mul, hr.odd]
    · rw [rnd_neg_sub hr]
    · rw [rnd_neg_add hr]
  neg_cmul := fun x y => by
    apply Complex.ext <;> simp only [Arith.ofRounding, flMul, neg_re, neg_im, mul_neg, neg_mul, hr.odd]
    · rw [rnd_neg_sub hr]
    · rw [rnd_neg_add hr]
  neg_cdiv := fun x y => by
    apply Complex.ext <;> simp only [Arith.ofRounding, flDiv, neg_re, neg_im, neg_mul, hr.odd]
    · rw [rnd_neg_add hr, neg_div, hr.odd]
    · rw [rnd_neg_sub hr, neg_div, hr.odd]
  cdiv_neg := fun x y => by
    apply Complex.ext <;> simp only [Arith.ofRounding, flDiv, neg_re, neg_im, mul_neg, neg_mul, neg_neg, hr.odd]
    · rw [rnd_neg_add hr, neg_div, hr.odd]
    · rw [rnd_neg_sub hr, neg_div, hr.odd]
  csqrt_sq_re := fun x h => by
    have h1 : ((Arith.ofRounding r m).cmul x x).im = 0 := by
      simp [Arith.ofRounding, flMul, h, r.zero]
    have h2 : 0 ≤ ((Arith.ofRounding r m).cmul x x).re := by
      simp only [Arith.ofRounding, flMul, h, mul_zero, r.zero, sub_zero]
      exact rnd_nonneg (rnd_nonneg (mul_self_nonneg _))
    change 0 ≤ (flSqrt r m _).re
    unfold flSqrt
    rw [if_pos h1, if_pos h2]
    exact rnd_nonneg (Real.sqrt_nonneg _)
  mul_nonneg := fun x y hx hy => rnd_nonneg (mul_nonneg hx hy)
  eps_nonneg := m.eps_nonneg
  cabs_nonneg := fun x => m.hypot_nonneg _ _
  cabs_zero := m.hypot_zero
  csub_self := fun x => by apply Complex.ext <;> simp [Arith.ofRounding, r.zero]
  cmul_one_one := by apply Complex.ext <;> simp [Arith.ofRounding, flMul, r.zero, hr.one]
  cadd_zero_one := by apply Complex.ext <;> simp [Arith.ofRounding, r.zero, hr.one]
  rep_zero := r.zero
  rep_neg_one := by
    change r.rnd (-1) = -1
    rw [hr.odd, hr.one]
  rep_cdiv := fun x y => ⟨hr.idem _, hr.idem _⟩
  halve_double := fun x h1 h2 => by
    change r.rnd x.re = x.re at h1
    change r.rnd x.im = x.im at h2
    apply Complex.ext
    · change r.rnd (r.rnd (x.re + x.re) / 2) = x.re
      rw [hr.double _ h1, show (x.re + x.re) / 2 = x.re by ring, h1]
    · change r.rnd (r.rnd (x.im + x.im) / 2) = x.im
      rw [hr.double _ h2, show (x.im + x.im) / 2 = x.im by ring, h2]

end

end SciRs.Rounded

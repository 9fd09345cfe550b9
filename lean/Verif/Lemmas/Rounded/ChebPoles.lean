import Verif.Lemmas.Rounded.ButterPoles
import Verif.Lemmas.Rounded.Ripple

/-! # The poles of Chebyshev I low-pass and high-pass designs in floating point -/

namespace SciRs.Rounded

open SciRs.Spec SciRs.Design

variable {r : Rounding} {m : Libm} {h σ : ℝ}

theorem Small.weaken {τ : ℝ} (S : Small r h σ) (hτ : σ ≤ τ) : Small r h τ :=
  ⟨S.u_le, S.t_le.trans (mul_le_mul_of_nonneg_left hτ (sub_nonneg.mpr S.u_le)), lt_of_lt_of_le S.pos hτ⟩

/-- The computed angle of a pole of the Chebyshev prototype. -/
noncomputable def flCAngle (r : Rounding) (m : Libm) (n : ℕ) (j : ℤ) : ℝ :=
  r.rnd (m.pi * r.rnd (r.rnd j / r.rnd ((2 * n : ℤ) : ℝ)))

theorem flCAngle_zero (n : ℕ) : flCAngle r m n 0 = 0 := by
  simp [flCAngle, r.zero]

theorem cangle_err (S : Small r h σ) (hσ : σ ≤ 1) (hh : h ≤ 1 / 1024) (hm : m.Accurate r h) {n : ℕ} (hn : 1 ≤ n)
    {j : ℤ} (hj : |(j : ℝ)| ≤ n) : |flCAngle r m n j - Real.pi * j / (2 * n)| ≤ 11 * h := by
  have h0 := S.h_nonneg
  by_cases hj0 : j = 0
  · subst hj0; rw [flCAngle_zero]; simpa using h0
  have hj1 : 1 ≤ |(j : ℝ)| := by
    rw [← Int.cast_abs]; exact_mod_cast Int.one_le_abs hj0
  have hn1 : (1 : ℝ) ≤ n := by exact_mod_cast hn
  have hpi3 := Real.pi_gt_three
  have hpi4 : Real.pi < 3.15 := Real.pi_lt_d2
  have e1 := S.fl (x := (j : ℝ)) le_rfl (by linarith)
  have e2 := S.fl (x := ((2 * n : ℤ) : ℝ)) (B := 2 * n) (by push_cast; rw [abs_of_nonneg (by linarith)]) (by linarith)
  have e3 := hm.pi
  unfold flCAngle
  obtain ⟨j', hj'⟩ : ∃ j', j' = r.rnd (j : ℝ) := ⟨_, rfl⟩
  obtain ⟨n', hn'⟩ : ∃ n', n' = r.rnd ((2 * n : ℤ) : ℝ) := ⟨_, rfl⟩
  rw [← hj'] at e1 ⊢
  rw [← hn'] at e2 ⊢
  push_cast at e2
  have g1 := abs_le.mp e2
  have hn2 : 1.99 * n ≤ n' := by nlinarith
  have hn0 : 0 < n' := by linarith
  obtain ⟨x, hx⟩ : ∃ x, x = (j : ℝ) / (2 * n) := ⟨_, rfl⟩
  have hxa : |x| ≤ 1 / 2 := by
    rw [hx, abs_div, abs_of_pos (by positivity : (0 : ℝ) < 2 * n), div_le_iff₀ (by positivity)]
    linarith
  have g2 : j' / n' - x = ((j' - j) - x * (n' - 2 * n)) / n' := by
    rw [hx]; field_simp; ring
  have g3 : |j' / n' - x| ≤ 1.01 * h := by
    rw [g2, abs_div, abs_of_pos hn0, div_le_iff₀ hn0]
    refine (abs_sub _ _).trans ?_
    rw [abs_mul]
    have b1 := mul_le_mul hxa e2 (abs_nonneg _) (by norm_num)
    have b2 := mul_le_mul_of_nonneg_left hj h0
    have b3 := mul_le_mul_of_nonneg_left hn2 h0
    linarith
  have g4 : |j' / n'| ≤ 0.6 := by
    have := abs_add_le (j' / n' - x) x
    rw [sub_add_cancel] at this
    linarith
  have g5 := S.fl (B := 1) (g4.trans (by norm_num)) hσ
  obtain ⟨y, hy⟩ : ∃ y, y = r.rnd (j' / n') := ⟨_, rfl⟩
  rw [← hy] at g5 ⊢
  have g6 : |y - x| ≤ 2.01 * h := by
    have := abs_add_le (y - j' / n') (j' / n' - x)
    rw [sub_add_sub_cancel] at this
    linarith
  have g7 : |y| ≤ 0.6 := by
    have := abs_add_le (y - x) x
    rw [sub_add_cancel] at this
    linarith
  have g8 : |m.pi * y - Real.pi * x| ≤ 8.3 * h := by
    rw [show m.pi * y - Real.pi * x = (m.pi - Real.pi) * y + Real.pi * (y - x) by ring]
    refine (abs_add_le _ _).trans ?_
    rw [abs_mul, abs_mul, abs_of_pos Real.pi_pos]
    have b1 := mul_le_mul e3 g7 (abs_nonneg _) (by positivity)
    have b2 := mul_le_mul_of_nonneg_left g6 Real.pi_pos.le
    have b3 := mul_le_mul_of_nonneg_left hpi4.le h0
    nlinarith
  have hpx : |Real.pi * x| ≤ 1.575 := by
    rw [abs_mul, abs_of_pos Real.pi_pos]
    have := mul_le_mul hpi4.le hxa (abs_nonneg _) (by norm_num)
    linarith
  have g9 : |m.pi * y| ≤ 2 := by
    have := abs_add_le (m.pi * y - Real.pi * x) (Real.pi * x)
    rw [sub_add_cancel] at this
    linarith
  have g10 := S.fl g9 (by linarith)
  have g11 := abs_add_le (r.rnd (m.pi * y) - m.pi * y) (m.pi * y - Real.pi * x)
  rw [sub_add_sub_cancel] at g11
  rw [mul_div_assoc, ← hx]
  linarith

/-- The computed pole of the Chebyshev prototype. -/
noncomputable def flCheb (r : Rounding) (m : Libm) (n : ℕ) (rp : ℝ) (j : ℤ) : ℂ :=
  -⟨r.rnd (m.sinh (flMu r m n rp) * m.cos (flCAngle r m n j)),
    r.rnd (m.cosh (flMu r m n rp) * m.sin (flCAngle r m n j))⟩

/-- The exact pole of the Chebyshev prototype. -/
noncomputable def exCheb (n : ℕ) (rp : ℝ) (j : ℤ) : ℂ :=
  -Complex.sinh (⟨exMu n rp, Real.pi * j / (2 * n)⟩ : ℂ)

theorem exCheb_parts (n : ℕ) (rp : ℝ) (j : ℤ) :
    (exCheb n rp j).re = -(Real.sinh (exMu n rp) * Real.cos (Real.pi * j / (2 * n))) ∧
    (exCheb n rp j).im = -(Real.cosh (exMu n rp) * Real.sin (Real.pi * j / (2 * n))) := by
  have e : ∀ a b : ℝ, (⟨a, b⟩ : ℂ) = a + b * Complex.I := fun a b => Complex.mk_eq_add_mul_I a b
  rw [exCheb, e, Complex.sinh_add, Complex.cosh_mul_I, Complex.sinh_mul_I]
  simp only [Complex.neg_re, Complex.neg_im, Complex.add_re, Complex.add_im, Complex.mul_re, Complex.mul_im,
    Complex.I_re, Complex.I_im, ← Complex.ofReal_sinh, ← Complex.ofReal_cosh, ← Complex.ofReal_cos,
    ← Complex.ofReal_sin, Complex.ofReal_re, Complex.ofReal_im]
  constructor <;> ring

theorem exCheb_norm (n : ℕ) (rp : ℝ) (j : ℤ) :
    ‖exCheb n rp j‖ ^ 2 = Real.sinh (exMu n rp) ^ 2 + Real.sin (Real.pi * j / (2 * n)) ^ 2 := by
  obtain ⟨h1, h2⟩ := exCheb_parts n rp j
  rw [Complex.sq_norm, Complex.normSq_apply, h1, h2]
  have := Real.cosh_sq (exMu n rp)
  have := Real.sin_sq_add_cos_sq (Real.pi * j / (2 * n))
  have e : Real.cos (Real.pi * j / (2 * n)) ^ 2 = 1 - Real.sin (Real.pi * j / (2 * n)) ^ 2 := by linarith
  calc _ = Real.sinh (exMu n rp) ^ 2 * Real.cos (Real.pi * j / (2 * n)) ^ 2
        + Real.cosh (exMu n rp) ^ 2 * Real.sin (Real.pi * j / (2 * n)) ^ 2 := by ring
    _ = _ := by rw [e, Real.cosh_sq]; ring

/-- The angles of the poles. -/
theorem angle_facts {n : ℕ} (hn : n ≠ 0) {j : ℤ} (hj : j ∈ stepRange (-(n : ℤ) + 1) n) :
    |(j : ℝ)| ≤ n ∧ |Real.pi * j / (2 * n)| ≤ 2 ∧ 1 / n ≤ Real.cos (Real.pi * j / (2 * n)) ∧
    (j ≠ 0 → 1 / n ≤ |Real.sin (Real.pi * j / (2 * n))|) := by
  have hn0 : (0 : ℝ) < n := by exact_mod_cast Nat.pos_of_ne_zero hn
  have hpi := Real.pi_pos
  have hpi4 : Real.pi < 3.15 := Real.pi_lt_d2
  obtain ⟨j1, j2⟩ := mem_stepRange_sym hj
  have ja : |(j : ℝ)| + 1 ≤ n := by
    rw [← Int.cast_abs]
    have : |j| + 1 ≤ (n : ℤ) := by rcases abs_cases j with h | h <;> omega
    exact_mod_cast this
  obtain ⟨x, hx⟩ : ∃ x, x = Real.pi * j / (2 * n) := ⟨_, rfl⟩
  rw [← hx]
  have hxa : 2 / Real.pi * |x| = |(j : ℝ)| / n := by
    rw [hx, abs_div, abs_mul, abs_of_pos hpi, abs_of_pos (by positivity : (0 : ℝ) < 2 * n)]
    field_simp
  have hx2 : |x| ≤ Real.pi / 2 := by
    rw [hx, abs_div, abs_mul, abs_of_pos hpi, abs_of_pos (by positivity : (0 : ℝ) < 2 * n), div_le_iff₀ (by positivity)]
    nlinarith
  refine ⟨by linarith, by linarith, ?_, fun hj0 => ?_⟩
  · have := Real.one_sub_mul_le_cos (abs_nonneg x) hx2
    rw [hxa, Real.cos_abs] at this
    refine le_trans ?_ this
    rw [div_le_iff₀ hn0, sub_mul, div_mul_cancel₀ _ hn0.ne']
    linarith
  · have := Real.mul_abs_le_abs_sin hx2
    rw [hxa] at this
    refine le_trans (div_le_div_of_nonneg_right ?_ hn0.le) this
    rw [← Int.cast_abs]; exact_mod_cast Int.one_le_abs hj0

set_option maxHeartbeats 800000 in
/-- The error of a computed pole of the prototype. -/
theorem cheb_err (S : Small r h σ) (hm : m.Accurate r h) (hm2 : m.AccurateHyp r h) {n : ℕ} (hn : n ≠ 0) {rp : ℝ}
    (hrp : 0 < rp) (hσ : 4 * σ ≤ 1 / rippleCond rp) (hσ2 : σ ≤ rippleFloor rp / n)
    (hκ : rippleCond rp ^ 2 * h ≤ 1 / 4096) {j : ℤ} (hj : j ∈ stepRange (-(n : ℤ) + 1) n) :
    ‖flCheb r m n rp j - exCheb n rp j‖ ≤ 64 * (n * (rippleCond rp ^ 2 * h)) * ‖exCheb n rp j‖ := by
  obtain ⟨-, hmu, -, f2, f3, f4, -⟩ := mu_facts hn hrp
  obtain ⟨-, k1, -, -, -, -, g0, g1, -⟩ := ripple_facts hrp
  obtain ⟨ja, jb, jc, js⟩ := angle_facts hn hj
  have h0 := S.h_nonneg
  have hs := S.pos
  have hn1 : (1 : ℝ) ≤ n := by exact_mod_cast Nat.one_le_iff_ne_zero.mpr hn
  have hN := exCheb_norm n rp j
  obtain ⟨p1, p2⟩ := exCheb_parts n rp j
  have hfn : rippleFloor rp / n ≤ rippleFloor rp := div_le_self g0.le hn1
  have hκ1 : rippleCond rp * h ≤ rippleCond rp ^ 2 * h := by
    have : rippleCond rp ≤ rippleCond rp ^ 2 := by nlinarith
    exact mul_le_mul_of_nonneg_right this h0
  have hκ0 : h ≤ rippleCond rp * h := by nlinarith
  have em := mu_err S hm2 hn hrp hσ hσ2 (by linarith)
  obtain ⟨K, hK⟩ : ∃ K, K = rippleCond rp ^ 2 * h := ⟨_, rfl⟩
  have hK0 : 0 ≤ K := by rw [hK]; positivity
  rw [← hK] at hκ hκ1 ⊢
  have hhK : h ≤ K := hκ0.trans hκ1
  have b1 : 1 + exMu n rp ≤ 1.25 * rippleCond rp := by nlinarith [sq_nonneg (exMu n rp - 1 / 2)]
  have b2 : exMu n rp ≤ rippleCond rp / 2 := by
    nlinarith [sq_nonneg (exMu n rp - 1)]
  have b3 : rippleCond rp * h * (1 + exMu n rp) ≤ 1.25 * K := by
    have := mul_le_mul_of_nonneg_left b1 (by positivity : 0 ≤ rippleCond rp * h)
    rw [hK]; nlinarith
  have b4 : rippleCond rp * h * exMu n rp ≤ K / 2 := by
    have := mul_le_mul_of_nonneg_left b2 (by positivity : 0 ≤ rippleCond rp * h)
    rw [hK]; nlinarith
  have hq : exMu n rp * (9.2 * (rippleCond rp * h)) ≤ 0.01 := by linarith
  have e1 := (em.sinh hmu (by positivity) hq).mono (η := 11.9 * K) (Real.sinh_pos_iff.mpr hmu).le (by linarith)
  have e2 := (em.cosh hmu (by positivity) hq).mono (η := 4.8 * K) (Real.cosh_pos _).le (by linarith)
  have hmu' : 0 < flMu r m n rp := by
    have := em.ge hmu.le (by linarith)
    linarith
  have l1 := hm2.sinh _ hmu'
  have l2 := hm2.cosh _ hmu'
  have hS0 : 0 < Real.sinh (exMu n rp) := Real.sinh_pos_iff.mpr hmu
  have hSm : exMu n rp ≤ Real.sinh (exMu n rp) := Real.self_le_sinh_iff.mpr hmu.le
  have hC0 := Real.one_le_cosh (exMu n rp)
  have hCS : Real.cosh (exMu n rp) ≤ 1 + Real.sinh (exMu n rp) := by
    have : Real.cosh (exMu n rp) - Real.sinh (exMu n rp) ≤ 1 := by
      rw [Real.cosh_sub_sinh, Real.exp_le_one_iff]; linarith
    linarith
  have ht : r.t ≤ h * σ := by
    have i1 := S.t_le
    have i2 := r.u_nonneg
    have : (h - r.u) * σ ≤ h * σ := mul_le_mul_of_nonneg_right (by linarith) hs.le
    linarith
  have ea := cangle_err S (by linarith) (by linarith) hm (Nat.one_le_iff_ne_zero.mpr hn) ja
  have hth : |flCAngle r m n j| ≤ 4 := by
    have := abs_add_le (flCAngle r m n j - Real.pi * j / (2 * n)) (Real.pi * j / (2 * n))
    rw [sub_add_cancel] at this
    linarith
  have c1 := hm.cos _ hth
  have c2 := hm.sin _ hth
  have c3 := Real.abs_cos_sub_cos_le (flCAngle r m n j) (Real.pi * j / (2 * n))
  have c4 := Real.abs_sin_sub_sin_le (flCAngle r m n j) (Real.pi * j / (2 * n))
  have c5 := Real.abs_cos_le_one (Real.pi * j / (2 * n))
  have c6 := Real.abs_sin_le_one (Real.pi * j / (2 * n))
  have hsin0 : j = 0 → m.sin (flCAngle r m n j) = 0 := by
    rintro rfl
    have := m.sin_neg 0
    rw [neg_zero] at this
    rw [flCAngle_zero]
    linarith
  have hsin1 : j = 0 → Real.sin (Real.pi * j / (2 * n)) = 0 := by rintro rfl; simp
  unfold flCheb
  obtain ⟨ζ, hζ⟩ : ∃ ζ, ζ = exCheb n rp j := ⟨_, rfl⟩
  rw [← hζ] at hN p1 p2 ⊢
  generalize Real.pi * (j : ℝ) / (2 * n) = x at *
  generalize flCAngle r m n j = x' at *
  generalize flMu r m n rp = μ' at *
  generalize exMu n rp = μ at *
  -- the factors
  have d1 : |m.sinh μ' - Real.sinh μ| ≤ 14 * K * Real.sinh μ := by
    have i1 := e1.le hS0.le (by linarith)
    have i2 := abs_add_le (m.sinh μ' - Real.sinh μ') (Real.sinh μ' - Real.sinh μ)
    rw [sub_add_sub_cancel] at i2
    have i3 := mul_le_mul_of_nonneg_left i1 h0
    have i4 : h * σ ≤ h * Real.sinh μ := mul_le_mul_of_nonneg_left (by linarith) h0
    have i5 := mul_le_mul_of_nonneg_right hhK hS0.le
    have i6 : 0 ≤ K * Real.sinh μ := mul_nonneg hK0 hS0.le
    unfold Rel at e1
    linarith
  have d2 : |m.cosh μ' - Real.cosh μ| ≤ 6 * K * Real.cosh μ := by
    have i1 := e2.le (by linarith) (by linarith)
    have i2 := abs_add_le (m.cosh μ' - Real.cosh μ') (Real.cosh μ' - Real.cosh μ)
    rw [sub_add_sub_cancel] at i2
    have i3 := mul_le_mul_of_nonneg_left i1 h0
    have i5 := mul_le_mul_of_nonneg_right hhK (by linarith : 0 ≤ Real.cosh μ)
    have i6 : 0 ≤ K * Real.cosh μ := by positivity
    unfold Rel at e2
    linarith
  have d3 : |m.cos x' - Real.cos x| ≤ 12 * h := by
    have := abs_add_le (m.cos x' - Real.cos x') (Real.cos x' - Real.cos x)
    rw [sub_add_sub_cancel] at this
    linarith
  have d4 : |m.sin x' - Real.sin x| ≤ 12 * h := by
    have := abs_add_le (m.sin x' - Real.sin x') (Real.sin x' - Real.sin x)
    rw [sub_add_sub_cancel] at this
    linarith
  have prod : ∀ A' A B' B δ : ℝ, 0 < A → σ ≤ A → |A' - A| ≤ δ * A → δ ≤ 0.05 → |B' - B| ≤ 12 * h → |B| ≤ 1 →
      |r.rnd (A' * B') - A * B| ≤ 13.9 * h * A + δ * A * |B| := by
    intro A' A B' B δ a0 aσ a1 a2 a3 a4
    have i1 : |A'| ≤ 1.05 * A := by
      have := abs_add_le (A' - A) A
      rw [sub_add_cancel, abs_of_pos a0] at this
      have := mul_le_mul_of_nonneg_right a2 a0.le
      linarith
    have i2 : |B'| ≤ 1.05 := by
      have := abs_add_le (B' - B) B
      rw [sub_add_cancel] at this
      linarith
    have i3 : |A' * B'| ≤ 1.2 * A := by
      rw [abs_mul]
      have := mul_le_mul i1 i2 (abs_nonneg _) (by linarith)
      linarith
    have i4 := S.fl i3 (by linarith)
    have i5 : |A' * B' - A * B| ≤ 12.6 * h * A + δ * A * |B| := by
      rw [show A' * B' - A * B = A' * (B' - B) + (A' - A) * B by ring]
      refine (abs_add_le _ _).trans ?_
      rw [abs_mul, abs_mul]
      have j1 := mul_le_mul i1 a3 (abs_nonneg _) (by linarith)
      have j2 := mul_le_mul_of_nonneg_right a1 (abs_nonneg B)
      linarith
    have i6 := abs_add_le (r.rnd (A' * B') - A' * B') (A' * B' - A * B)
    rw [sub_add_sub_cancel] at i6
    have i7 : 0 ≤ h * A := mul_nonneg h0 a0.le
    linarith
  have hre := prod _ _ _ _ _ hS0 (by linarith) d1 (by linarith) d3 c5
  have him := prod _ _ _ _ _ (by linarith : 0 < Real.cosh μ) (by linarith) d2 (by linarith) d4 c6
  have hζ0 := norm_nonneg ζ
  have n1 : Real.sinh μ ≤ ‖ζ‖ := by nlinarith [sq_nonneg (Real.sin x)]
  have n2 : Real.cosh μ * |Real.sin x| ≤ ‖ζ‖ := by
    have := Complex.abs_im_le_norm ζ
    rwa [p2, abs_neg, abs_mul, abs_of_pos (by linarith : 0 < Real.cosh μ)] at this
  refine (Complex.norm_le_abs_re_add_abs_im _).trans ?_
  simp only [Complex.sub_re, Complex.sub_im, Complex.neg_re, Complex.neg_im, p1, p2]
  rw [show ∀ a b : ℝ, -a - -b = -(a - b) from fun a b => by ring, abs_neg,
    show ∀ a b : ℝ, -a - -b = -(a - b) from fun a b => by ring, abs_neg]
  have hKζ : 0 ≤ K * ‖ζ‖ := by positivity
  have hnK : K * ‖ζ‖ ≤ n * (K * ‖ζ‖) := by nlinarith
  have re1 : |r.rnd (m.sinh μ' * m.cos x') - Real.sinh μ * Real.cos x| ≤ 27.9 * (K * ‖ζ‖) := by
    have i1 : h * Real.sinh μ ≤ K * ‖ζ‖ := mul_le_mul hhK n1 hS0.le hK0
    have i2 : K * Real.sinh μ * |Real.cos x| ≤ K * ‖ζ‖ * 1 :=
      mul_le_mul (mul_le_mul_of_nonneg_left n1 hK0) c5 (abs_nonneg _) hKζ
    linarith
  by_cases hj0 : j = 0
  · rw [hsin0 hj0, hsin1 hj0, mul_zero, mul_zero, r.zero, sub_zero, abs_zero]
    linarith
  · have q1 := js hj0
    have q2 : 1 ≤ n * ‖ζ‖ := by
      have : |Real.sin x| ≤ Real.cosh μ * |Real.sin x| := by
        have := mul_le_mul_of_nonneg_right hC0 (abs_nonneg (Real.sin x))
        linarith
      rw [div_le_iff₀ (by linarith)] at q1
      have := mul_le_mul_of_nonneg_right (this.trans n2) (by linarith : (0 : ℝ) ≤ n)
      linarith
    have q3 : Real.cosh μ ≤ 2 * (n * ‖ζ‖) := by
      have : 1 * ‖ζ‖ ≤ n * ‖ζ‖ := mul_le_mul_of_nonneg_right hn1 hζ0
      linarith
    have im1 : |r.rnd (m.cosh μ' * m.sin x') - Real.cosh μ * Real.sin x| ≤ 27.8 * (n * (K * ‖ζ‖)) + 6 * (K * ‖ζ‖) := by
      have i1 : h * Real.cosh μ ≤ K * (2 * (n * ‖ζ‖)) := mul_le_mul hhK q3 (by linarith) hK0
      have i2 : K * (Real.cosh μ * |Real.sin x|) ≤ K * ‖ζ‖ := mul_le_mul_of_nonneg_left n2 hK0
      linarith
    linarith

/-- The analog low-pass pole, for a prototype pole anywhere. -/
theorem lp_err' {w w' H : ℝ} {ζ ζ' : ℂ} (S : Small r h σ) (hr : r.Nearest) (hhH : h ≤ H) (hH : H ≤ 1 / 1024)
    (hw : 0 < w) (hwσ : σ ≤ w * ‖ζ‖) (eζ : ‖ζ' - ζ‖ ≤ 16 * H * ‖ζ‖) (ew : |w' - w| ≤ 9.7 * H * w) :
    ‖flMul r ζ' (w' : ℂ) - w * ζ‖ ≤ 38 * H * (w * ‖ζ‖) := by
  have h0 := S.h_nonneg
  have hH0 := h0.trans hhH
  have hHw : H * w ≤ 1 / 1024 * w := mul_le_mul_of_nonneg_right hH hw.le
  have hN0 := norm_nonneg ζ
  have hw' : |w'| ≤ 1.01 * w := by
    have := abs_add_le (w' - w) w
    rw [sub_add_cancel, abs_of_pos hw] at this
    linarith
  have hζ' : ‖ζ'‖ ≤ 1.02 * ‖ζ‖ := by
    have := norm_add_le (ζ' - ζ) ζ
    rw [sub_add_cancel] at this
    have := mul_le_mul_of_nonneg_right hH hN0
    linarith
  have hW0 : 0 ≤ w * ‖ζ‖ := mul_nonneg hw.le hN0
  have hB : ‖ζ'‖ * |w'| ≤ 1.04 * (w * ‖ζ‖) := by
    have := mul_le_mul hζ' hw' (abs_nonneg _) (by positivity)
    linarith
  have k1 := S.flMul_real hr hB (by linarith [S.pos])
  have k2 : ‖ζ' * (w' : ℂ) - w * ζ‖ ≤ 16.2 * H * (w * ‖ζ‖) + 9.7 * H * (w * ‖ζ‖) := by
    have e1 : ζ' * (w' : ℂ) - w * ζ = (ζ' - ζ) * (w' : ℂ) + ((w' - w : ℝ) : ℂ) * ζ := by push_cast; ring
    rw [e1]
    refine (norm_add_le _ _).trans ?_
    rw [norm_mul, norm_mul, Complex.norm_real, Complex.norm_real, Real.norm_eq_abs, Real.norm_eq_abs]
    have i1 := mul_le_mul eζ hw' (abs_nonneg _) (by positivity)
    have i2 := mul_le_mul_of_nonneg_right ew hN0
    have i3 := mul_nonneg hH0 hW0
    linarith
  have k3 := norm_add_le (flMul r ζ' (w' : ℂ) - ζ' * w') (ζ' * w' - w * ζ)
  rw [sub_add_sub_cancel] at k3
  have i3 := mul_nonneg hH0 hW0
  have := mul_le_mul_of_nonneg_right hhH hW0
  linarith

/-- The analog high-pass pole, for a prototype pole anywhere. -/
theorem hp_err' {w w' H : ℝ} {ζ ζ' : ℂ} (S : Small r h σ) (hr : r.Nearest) (hhH : h ≤ H) (hH : H ≤ 1 / 1024)
    (hw : 0 < w) (hz : ζ ≠ 0) (hσ1 : 2 * σ ≤ ‖ζ‖ ^ 2) (hσ2 : 2 * σ ≤ w * ‖ζ‖) (hσ3 : 2 * σ * ‖ζ‖ ≤ w)
    (eζ : ‖ζ' - ζ‖ ≤ 16 * H * ‖ζ‖) (ew : |w' - w| ≤ 9.7 * H * w) :
    ‖flDiv r (w' : ℂ) ζ' - w / ζ‖ ≤ 38 * H * (w / ‖ζ‖) := by
  have h0 := S.h_nonneg
  have hs := S.pos
  have hH0 := h0.trans hhH
  have hHw : H * w ≤ 1 / 1024 * w := mul_le_mul_of_nonneg_right hH hw.le
  have hN : 0 < ‖ζ‖ := norm_pos_iff.mpr hz
  obtain ⟨N, hNd⟩ : ∃ N, N = ‖ζ‖ := ⟨_, rfl⟩
  obtain ⟨N', hNd'⟩ : ∃ N', N' = ‖ζ'‖ := ⟨_, rfl⟩
  rw [← hNd] at hN hσ1 hσ2 hσ3 eζ ⊢
  have hHN : H * N ≤ 1 / 1024 * N := mul_le_mul_of_nonneg_right hH hN.le
  obtain ⟨v1, v2⟩ := abs_le.mp ew
  have hw1 : w' ≤ 1.01 * w := by linarith
  have hw2 : 0.99 * w ≤ w' := by linarith
  have hw0 : 0 < w' := by linarith
  have z1 : N' ≤ 1.02 * N := by
    have := norm_add_le (ζ' - ζ) ζ
    rw [sub_add_cancel, ← hNd, ← hNd'] at this
    linarith
  have z3 : 0.984 * N ≤ N' := by
    have := norm_sub_norm_le ζ ζ'
    rw [norm_sub_rev, ← hNd, ← hNd'] at this
    linarith
  have z0 : 0 < N' := by linarith
  have hz' : ζ' ≠ 0 := by rwa [← norm_pos_iff, ← hNd']
  have hNN : 0 < N * N := mul_pos hN hN
  have z4 : σ ≤ N' ^ 2 := by
    have := mul_le_mul z3 z3 (by positivity) z0.le
    nlinarith
  have hb : ‖(w' : ℂ)‖ * ‖ζ'‖ ≤ w' * N' := by rw [Complex.norm_real, Real.norm_of_nonneg hw0.le, hNd']
  have e1 : w' * N' / N' ^ 2 = w' / N' := by field_simp
  have e2 : w' / N' ≤ 1.03 * (w / N) := by
    rw [div_le_iff₀ z0]
    have : w / N * N' ≥ w / N * (0.984 * N) := mul_le_mul_of_nonneg_left z3 (by positivity)
    have e : w / N * (0.984 * N) = 0.984 * w := by field_simp
    rw [e] at this
    linarith
  have g1 : σ ≤ w' * N' := by
    have := mul_le_mul hw2 z3 (by positivity) hw0.le
    have : 0 < w * N := mul_pos hw hN
    linarith
  have g2 : σ ≤ w' / N' := by
    rw [le_div_iff₀ z0]
    have := mul_le_mul_of_nonneg_left z1 hs.le
    linarith
  have k1 := S.flDiv (by linarith) hr (by rw [← hNd']; exact z4) hb g1 (by rw [← hNd', e1]; exact g2)
  rw [← hNd', e1] at k1
  have hq : 0 < w / N := by positivity
  have k2 : ‖(w' : ℂ) / ζ' - w / ζ‖ ≤ 26.2 * H * (w / N) := by
    have e3 : (w' : ℂ) / ζ' - w / ζ = (((w' - w : ℝ) : ℂ) * ζ - w * (ζ' - ζ)) / (ζ' * ζ) := by
      push_cast; field_simp; ring
    rw [e3, norm_div, norm_mul, ← hNd, ← hNd', div_le_iff₀ (by positivity)]
    refine (norm_sub_le _ _).trans ?_
    rw [norm_mul, norm_mul, Complex.norm_real, Complex.norm_real, Real.norm_eq_abs, Real.norm_of_nonneg hw.le, ← hNd]
    have i1 := mul_le_mul_of_nonneg_left eζ hw.le
    have i2 := mul_le_mul_of_nonneg_right ew hN.le
    have i3 : 26.2 * H * (w / N) * (N' * N) = 26.2 * H * w * N' := by field_simp
    rw [i3]
    have i4 := mul_le_mul_of_nonneg_left z3 (by positivity : 0 ≤ 26.2 * H * w)
    have i5 : 0 ≤ H * w * N := by positivity
    linarith
  have k3 := norm_add_le (Rounded.flDiv r (w' : ℂ) ζ' - w' / ζ') (w' / ζ' - w / ζ)
  rw [sub_add_sub_cancel] at k3
  have i1 := mul_le_mul_of_nonneg_right hhH hq.le
  have i2 := mul_le_mul_of_nonneg_left e2 h0
  have i3 := mul_nonneg hH0 hq.le
  linarith

/-- The exact pole of the analog filter. -/
noncomputable def exCAnalog (n : ℕ) (rp : ℝ) (band : Band) (e : ℝ) (j : ℤ) : ℂ :=
  if band = .lowpass then exWarp e * exCheb n rp j else exWarp e / exCheb n rp j

/-- The computed pole of the analog filter. -/
noncomputable def flCAnalog (r : Rounding) (m : Libm) (n : ℕ) (rp : ℝ) (band : Band) (e : ℝ) (j : ℤ) : ℂ :=
  if band = .lowpass then flMul r (flCheb r m n rp j) (flWarp r m e : ℂ)
  else flDiv r (flWarp r m e : ℂ) (flCheb r m n rp j)

/-- The poles of the digital filter, in any arithmetic. -/
theorem cheb_poles {A : Arith} {n : ℕ} (hn : n ≠ 0) {wn : List ℝ} {rp : ℝ} {rs : Option ℝ} {band : Band}
    {fs : Option ℝ} {g : Zpk} {e : ℝ} (he : edges A wn fs = [e]) (hb : band = .lowpass ∨ band = .highpass)
    (h : design A n wn (some rp) rs band .chebyshevI false fs = .ok g) :
    g.p = (stepRange (-(n : ℤ) + 1) n).map (fun j =>
      let w := A.mul (A.mul 2 2) (A.tan (A.div (A.mul A.pi e) 2))
      let mu := A.div (A.asinh (A.div 1 (A.sqrt (A.sub (A.powf 10 (A.div rp 10)) 1)))) (A.ofInt n)
      let ζ := -A.csinh ⟨mu, A.mul A.pi (A.div (A.ofInt j) (A.ofInt (2 * n)))⟩
      let p := if band = .lowpass then A.cmul ζ (w : ℂ) else A.cdiv (w : ℂ) ζ
      A.cdiv (A.cadd (A.mul 2 2 : ℝ) p) (A.csub (A.mul 2 2 : ℝ) p)) := by
  unfold design at h
  simp only [bind_eq_ok] at h
  obtain ⟨w, hw, f, hf, v, hv, f', hf', h⟩ := h
  rw [validate_eq_ok] at hw
  obtain ⟨rfl, -⟩ := hw
  unfold warp at hv
  rw [if_pos rfl, he] at hv
  obtain ⟨u, -, hv⟩ := bind_eq_ok.mp hv
  have hv2 : v = [A.mul (A.mul 2 2) (A.tan (A.div (A.mul A.pi e) 2))] := by
    simpa [pure, Except.pure] using hv.symm
  subst hv2
  cases hf
  unfold discretise bilinear at h
  rw [if_pos rfl] at h
  obtain ⟨d, -, h⟩ := bind_eq_ok.mp h
  cases h
  rcases hb with rfl | rfl
  · simp only [bandTransform, lp2lp] at hf'
    obtain ⟨d', -, hf'⟩ := bind_eq_ok.mp hf'
    cases hf'
    simp [cheb1ap, hn, cheb1Poles, Function.comp_def]
  · simp only [bandTransform, lp2hp] at hf'
    obtain ⟨d', -, hf'⟩ := bind_eq_ok.mp hf'
    cases hf'
    simp [cheb1ap, hn, cheb1Poles, Function.comp_def]

theorem cheb_poles_fl {n : ℕ} (hn : n ≠ 0) {wn : List ℝ} {rp : ℝ} {rs : Option ℝ} {band : Band}
    {fs : Option ℝ} {g : Zpk} {e : ℝ} (he : edges (.ofRounding r m) wn fs = [e])
    (hb : band = .lowpass ∨ band = .highpass)
    (h : design (.ofRounding r m) n wn (some rp) rs band .chebyshevI false fs = .ok g) :
    g.p = (stepRange (-(n : ℤ) + 1) n).map (fun j => flBilinear r (flCAnalog r m n rp band e j)) := by
  rw [cheb_poles hn he hb h]
  rfl

theorem cheb_poles_ex {eps : ℝ} {n : ℕ} (hn : n ≠ 0) {wn : List ℝ} {rp : ℝ} {rs : Option ℝ} {band : Band}
    {fs : Option ℝ} {g : Zpk} {e : ℝ} (he : Spec.edges wn fs = [e])
    (hb : band = .lowpass ∨ band = .highpass)
    (h : design (.exact eps) n wn (some rp) rs band .chebyshevI false fs = .ok g) :
    g.p = (stepRange (-(n : ℤ) + 1) n).map (fun j =>
      (4 + exCAnalog n rp band e j) / (4 - exCAnalog n rp band e j)) := by
  have he' : edges (.exact eps) wn fs = [e] := by
    rw [← he]
    cases fs <;> rfl
  rw [cheb_poles hn he' hb h]
  refine List.map_congr_left (fun j _ => ?_)
  have e4 : (((2 * 2 : ℝ)) : ℂ) = 4 := by push_cast; norm_num
  have ew : (((2 * 2 * Real.tan (Real.pi * e / 2) : ℝ)) : ℂ) = (exWarp e : ℂ) := by
    rw [exWarp]; push_cast; ring
  have eζ : -Complex.sinh (⟨Real.arsinh (1 / Real.sqrt ((10 : ℝ) ^ (rp / 10) - 1)) / ((n : ℤ) : ℝ),
      Real.pi * (((j : ℤ) : ℝ) / ((2 * n : ℤ) : ℝ))⟩ : ℂ) = exCheb n rp j := by
    rw [exCheb, exMu, exRip, ← mul_div_assoc]; push_cast; rfl
  have key : (if band = .lowpass then
        -Complex.sinh (⟨Real.arsinh (1 / Real.sqrt ((10 : ℝ) ^ (rp / 10) - 1)) / ((n : ℤ) : ℝ),
          Real.pi * (((j : ℤ) : ℝ) / ((2 * n : ℤ) : ℝ))⟩ : ℂ) * (((2 * 2 * Real.tan (Real.pi * e / 2) : ℝ)) : ℂ)
      else (((2 * 2 * Real.tan (Real.pi * e / 2) : ℝ)) : ℂ) /
        -Complex.sinh (⟨Real.arsinh (1 / Real.sqrt ((10 : ℝ) ^ (rp / 10) - 1)) / ((n : ℤ) : ℝ),
          Real.pi * (((j : ℤ) : ℝ) / ((2 * n : ℤ) : ℝ))⟩ : ℂ)) = exCAnalog n rp band e j := by
    rw [ew, eζ, exCAnalog]
    split
    · rw [mul_comm]
    · rfl
  rw [← key, ← e4]
  rfl

/-- Where an exact pole of the prototype lies. -/
theorem exCheb_bounds {n : ℕ} (hn : n ≠ 0) {rp : ℝ} (hrp : 0 < rp) (j : ℤ) :
    rippleFloor rp / n ≤ ‖exCheb n rp j‖ ∧ ‖exCheb n rp j‖ ≤ Real.cosh (exMu n rp) := by
  obtain ⟨-, hmu, -, f2, -⟩ := mu_facts hn hrp
  have hN := exCheb_norm n rp j
  have hS0 : 0 < Real.sinh (exMu n rp) := Real.sinh_pos_iff.mpr hmu
  have hSm : exMu n rp ≤ Real.sinh (exMu n rp) := Real.self_le_sinh_iff.mpr hmu.le
  have h0 := norm_nonneg (exCheb n rp j)
  have hC := Real.cosh_sq (exMu n rp)
  have hC1 := Real.one_le_cosh (exMu n rp)
  have hs := Real.sin_sq_le_one (Real.pi * j / (2 * n))
  constructor
  · have : Real.sinh (exMu n rp) ^ 2 ≤ ‖exCheb n rp j‖ ^ 2 := by
      rw [hN]; linarith [sq_nonneg (Real.sin (Real.pi * j / (2 * n)))]
    have := (sq_le_sq₀ hS0.le h0).mp this
    linarith
  · refine (sq_le_sq₀ h0 (by linarith)).mp ?_
    rw [hN, hC]; linarith

theorem exCAnalog_parts {n : ℕ} (hn : n ≠ 0) {rp : ℝ} (hrp : 0 < rp) (band : Band) {e : ℝ} (hw : 0 < exWarp e)
    (j : ℤ) : ∃ q : ℝ, 0 < q ∧
      (exCAnalog n rp band e j).re = -(exWarp e * Real.sinh (exMu n rp) * Real.cos (Real.pi * j / (2 * n))) / q ∧
      |(exCAnalog n rp band e j).im| = exWarp e * Real.cosh (exMu n rp) * |Real.sin (Real.pi * j / (2 * n))| / q ∧
      q * ‖4 - exCAnalog n rp band e j‖ ^ 2 ≤ (Real.cosh (exMu n rp) * (4 + exWarp e)) ^ 2 := by
  obtain ⟨h1, h2⟩ := exCheb_parts n rp j
  obtain ⟨b1, b2⟩ := exCheb_bounds hn hrp j
  obtain ⟨-, -, -, -, -, -, g0, -⟩ := ripple_facts hrp
  have hn0 : (0 : ℝ) < n := by exact_mod_cast Nat.pos_of_ne_zero hn
  have hC0 := Real.one_le_cosh (exMu n rp)
  have hz : 0 < ‖exCheb n rp j‖ := lt_of_lt_of_le (by positivity) b1
  have h4 : ‖(4 : ℂ)‖ = 4 := by simp
  unfold exCAnalog
  generalize exCheb n rp j = ζ at *
  generalize exWarp e = w at *
  split
  · refine ⟨1, one_pos, ?_, ?_, ?_⟩
    · rw [Complex.re_ofReal_mul, h1]; ring
    · rw [Complex.im_ofReal_mul, h2, abs_mul, abs_neg, abs_mul, abs_of_pos hw, abs_of_pos (by linarith)]; ring
    · rw [one_mul]
      refine pow_le_pow_left₀ (norm_nonneg _) ((norm_sub_le _ _).trans ?_) 2
      rw [norm_mul, Complex.norm_real, Real.norm_of_nonneg hw.le, h4]
      nlinarith
  · have hz0 : ζ ≠ 0 := norm_pos_iff.mp hz
    have hsq : Complex.normSq ζ = ‖ζ‖ ^ 2 := (Complex.sq_norm ζ).symm
    refine ⟨‖ζ‖ ^ 2, by positivity, ?_, ?_, ?_⟩
    · rw [Complex.div_re, hsq, h1]; simp; ring
    · rw [Complex.div_im, hsq, h2]
      simp only [Complex.ofReal_im, Complex.ofReal_re, zero_mul, zero_div, zero_sub, abs_neg, abs_div, abs_mul,
        abs_of_pos hw, abs_pow, abs_norm, abs_of_pos (by linarith : 0 < Real.cosh (exMu n rp))]
      ring
    · rw [← mul_pow, ← norm_mul]
      refine pow_le_pow_left₀ (norm_nonneg _) ?_ 2
      rw [mul_sub, mul_div_cancel₀ _ hz0]
      refine (norm_sub_le _ _).trans ?_
      rw [norm_mul, Complex.norm_real, Real.norm_of_nonneg hw.le, h4]
      nlinarith

/-- The exact poles keep their distance from the unit circle and from the real axis. -/
theorem cheb_margin {n : ℕ} (hn : n ≠ 0) {rp : ℝ} (hrp : 0 < rp) (band : Band) {e : ℝ} (h0 : 0 < e) (h1 : e < 1)
    {j : ℤ} (hj : j ∈ stepRange (-(n : ℤ) + 1) n) {X : ℝ} (hX : X = chebMargin n rp e) :
    (exCAnalog n rp band e j).re ≤ 0 ∧
    ‖(4 + exCAnalog n rp band e j) / (4 - exCAnalog n rp band e j)‖ ≤ 1 - X / 2 ∧
    (j ≠ 0 → X / 2 ≤ |((4 + exCAnalog n rp band e j) / (4 - exCAnalog n rp band e j)).im|) := by
  rw [chebMargin] at hX
  have hn0 : (0 : ℝ) < n := by exact_mod_cast Nat.pos_of_ne_zero hn
  have hn1 : (1 : ℝ) ≤ n := by exact_mod_cast Nat.one_le_iff_ne_zero.mpr hn
  have hpi := Real.pi_pos
  have hw0 : 0 < exWarp e := by
    rw [exWarp]
    have : 0 < Real.tan (Real.pi * e / 2) := Real.tan_pos_of_pos_of_lt_pi_div_two (by positivity) (by nlinarith)
    linarith
  obtain ⟨q, q0, p1, p2, p3⟩ := exCAnalog_parts hn hrp band hw0 j
  have hR := exWarp_ratio h0 h1
  obtain ⟨-, hmu, -, f2, f3, -, -⟩ := mu_facts hn hrp
  obtain ⟨-, k1, -, -, -, -, g0, g1, -⟩ := ripple_facts hrp
  obtain ⟨-, -, c1, c2⟩ := angle_facts hn hj
  have hSm : exMu n rp ≤ Real.sinh (exMu n rp) := Real.self_le_sinh_iff.mpr hmu.le
  have hC1 := Real.one_le_cosh (exMu n rp)
  have hγ : 0 < rippleFloor rp / n := by positivity
  obtain ⟨P, hP⟩ : ∃ P, P = exCAnalog n rp band e j := ⟨_, rfl⟩
  rw [← hP] at p1 p2 p3 ⊢
  generalize exWarp e = w at *
  generalize Real.cos (Real.pi * j / (2 * n)) = c at *
  generalize Real.sin (Real.pi * j / (2 * n)) = s at *
  obtain ⟨Sh, hSh⟩ : ∃ Sh, Sh = Real.sinh (exMu n rp) := ⟨_, rfl⟩
  obtain ⟨C, hC⟩ : ∃ C, C = Real.cosh (exMu n rp) := ⟨_, rfl⟩
  rw [← hSh] at hSm p1
  rw [← hC] at p2 p3 f3 hC1
  have hS1 : rippleFloor rp / n ≤ Sh := by linarith
  have c0 : 0 ≤ c := le_trans (by positivity) c1
  have hS0 : 0 < Sh := by linarith
  have hre : P.re ≤ 0 := by
    rw [p1]; exact div_nonpos_of_nonpos_of_nonneg (by have : 0 ≤ w * Sh * c := by positivity
                                                      linarith) q0.le
  obtain ⟨D, hD⟩ : ∃ D, D = ‖4 - P‖ ^ 2 := ⟨_, rfl⟩
  rw [← hD] at p3
  have hDe : D = (4 - P.re) * (4 - P.re) + P.im * P.im := by
    rw [hD, Complex.sq_norm, Complex.normSq_apply]; simp
  have hD0 : 0 < D := by rw [hDe]; nlinarith
  have hX0 : 0 ≤ X := by rw [hX]; have : 0 < 1 - e := by linarith
                         positivity
  have hqD : q * D ≤ rippleCond rp * (4 + w) ^ 2 := by
    refine p3.trans ?_
    rw [mul_pow]
    exact mul_le_mul_of_nonneg_right f3 (by positivity)
  have key : ∀ d : ℝ, rippleFloor rp / n * (1 / n) ≤ d → X ≤ 16 * w * d / (q * D) := by
    intro d hd
    have hd0 : 0 < d := lt_of_lt_of_le (by positivity) hd
    have s1 : 16 * w * d / (rippleCond rp * (4 + w) ^ 2) ≤ 16 * w * d / (q * D) := by gcongr
    refine le_trans ?_ s1
    have s2 : 16 * w * d / (rippleCond rp * (4 + w) ^ 2) = 4 * (4 * w / (4 + w) ^ 2) * d / rippleCond rp := by
      field_simp; ring
    rw [s2, hX]
    have s3 : 4 * (e * (1 - e) / 4) * (rippleFloor rp / n * (1 / n)) / rippleCond rp ≤
        4 * (4 * w / (4 + w) ^ 2) * d / rippleCond rp := by gcongr
    refine le_trans (le_of_eq ?_) s3
    field_simp
  refine ⟨hre, ?_, fun hj0 => ?_⟩
  · have hsq : ‖(4 + P) / (4 - P)‖ ^ 2 = 1 - 16 * w * (Sh * c) / (q * D) := by
      have e1 : 16 * w * (Sh * c) / (q * D) = -16 * P.re / D := by rw [p1]; field_simp
      rw [e1, norm_div, div_pow, ← hD, eq_sub_iff_add_eq, ← add_div, div_eq_one_iff_eq hD0.ne', hDe, Complex.sq_norm,
        Complex.normSq_apply]
      simp
      ring
    have k := key (Sh * c) (mul_le_mul hS1 c1 (by positivity) hS0.le)
    have hN := norm_nonneg ((4 + P) / (4 - P))
    obtain ⟨N, hN'⟩ : ∃ N, N = ‖(4 + P) / (4 - P)‖ := ⟨_, rfl⟩
    rw [← hN'] at hsq hN ⊢
    nlinarith [sq_nonneg (N - 1)]
  · have him : ((4 + P) / (4 - P)).im = 8 * P.im / D := by
      have : Complex.normSq (4 - P) = D := by rw [hD, Complex.sq_norm]
      rw [Complex.div_im, this]
      simp
      ring
    rw [him, abs_div, abs_of_pos hD0, abs_mul, p2, abs_of_pos (by norm_num : (0 : ℝ) < 8)]
    have hγ1 : rippleFloor rp / n ≤ C := by
      have : rippleFloor rp / n ≤ 1 := by rw [div_le_one hn0]; linarith
      linarith
    have k := key (C * |s|) (mul_le_mul hγ1 (c2 hj0) (by positivity) (by linarith))
    have e3 : 8 * (w * C * |s| / q) / D = 16 * w * (C * |s|) / (q * D) / 2 := by field_simp; ring
    rw [e3]
    linarith

set_option maxHeartbeats 1600000 in
/-- The errors up to the analog filter. -/
theorem cheb_analog_err {e e' : ℝ} {n : ℕ} (hn : n ≠ 0) {rp : ℝ} (hrp : 0 < rp)
    (S : Small r h (e * rippleFloor rp ^ 2 / (4 * n ^ 2 * rippleCond rp)))
    (hr : r.Nearest) (he0 : 0 < e) (he : e < 1) (hee : |e' - e| ≤ h * e)
    (hh : 4096 * (n * rippleCond rp ^ 2 * h) ≤ 1 - e) (hm : m.Accurate r h) (hm2 : m.AccurateHyp r h) {band : Band}
    {H : ℝ} (hH : H = 4 * (n * rippleCond rp ^ 2 * h) / (1 - e)) :
    Small r h e ∧ h ≤ H ∧ H ≤ 1 / 1024 ∧ 4 * (rippleCond rp * h) ≤ H ∧ 0 < exWarp e ∧ 6 * e ≤ exWarp e ∧
    |flWarp r m e' - exWarp e| ≤ 9.7 * H * exWarp e ∧
    4 * (e * rippleFloor rp ^ 2 / (4 * n ^ 2 * rippleCond rp)) ≤ 1 / rippleCond rp ∧
    ∀ j ∈ stepRange (-(n : ℤ) + 1) n,
      ‖flCheb r m n rp j - exCheb n rp j‖ ≤ 16 * H * ‖exCheb n rp j‖ ∧
      ‖flCAnalog r m n rp band e' j - exCAnalog n rp band e j‖ ≤ 38 * H * ‖exCAnalog n rp band e j‖ := by
  obtain ⟨-, hmu, -, f2, f3, -, -⟩ := mu_facts hn hrp
  obtain ⟨-, k1, -, -, -, -, g0, g1, -⟩ := ripple_facts hrp
  have h0 := S.h_nonneg
  have hn0 : (0 : ℝ) < n := by exact_mod_cast Nat.pos_of_ne_zero hn
  have hn1 : (1 : ℝ) ≤ n := by exact_mod_cast Nat.one_le_iff_ne_zero.mpr hn
  have h1e : 0 < 1 - e := by linarith
  have hκ0 : 0 < rippleCond rp := by linarith
  -- the threshold
  obtain ⟨σ, hσ⟩ : ∃ σ, σ = e * rippleFloor rp ^ 2 / (4 * n ^ 2 * rippleCond rp) := ⟨_, rfl⟩
  rw [← hσ] at S
  have hs := S.pos
  have σ1 : 4 * σ ≤ e * (1 / rippleCond rp) * (rippleFloor rp / n) ^ 2 := by
    rw [hσ]; exact le_of_eq (by field_simp)
  have hγn : 0 < rippleFloor rp / n := by positivity
  have hγn1 : rippleFloor rp / n ≤ 1 := by rw [div_le_one hn0]; linarith
  have hik : 1 / rippleCond rp ≤ 1 := by rw [div_le_one hκ0]; exact k1
  have hik0 : 0 < 1 / rippleCond rp := by positivity
  have sq1 : (rippleFloor rp / n) ^ 2 ≤ rippleFloor rp / n := by nlinarith
  have σa : 4 * σ ≤ e := by
    have : e * (1 / rippleCond rp) * (rippleFloor rp / n) ^ 2 ≤ e * 1 * 1 := by gcongr; linarith
    linarith
  have σb : 4 * σ ≤ 1 / rippleCond rp := by
    have : e * (1 / rippleCond rp) * (rippleFloor rp / n) ^ 2 ≤ 1 * (1 / rippleCond rp) * 1 := by gcongr; linarith
    linarith
  have σb' : 4 * σ ≤ e * (1 / rippleCond rp) := by
    have : e * (1 / rippleCond rp) * (rippleFloor rp / n) ^ 2 ≤ e * (1 / rippleCond rp) * 1 := by gcongr; linarith
    linarith
  have σc : 4 * σ ≤ e * (rippleFloor rp / n) := by
    have : e * (1 / rippleCond rp) * (rippleFloor rp / n) ^ 2 ≤ e * 1 * (rippleFloor rp / n) := by gcongr
    linarith
  have σd : 4 * σ ≤ (rippleFloor rp / n) ^ 2 := by
    have : e * (1 / rippleCond rp) * (rippleFloor rp / n) ^ 2 ≤ 1 * 1 * (rippleFloor rp / n) ^ 2 := by gcongr
    linarith
  have Se : Small r h e := S.weaken (by linarith)
  -- the error parameter
  obtain ⟨K, hK⟩ : ∃ K, K = n * rippleCond rp ^ 2 * h := ⟨_, rfl⟩
  have hK2 : n * (rippleCond rp ^ 2 * h) = K := by rw [hK]; ring
  rw [← hK] at hh hH
  have hκ2 : rippleCond rp ^ 2 * h ≤ K := by
    rw [← hK2]; have : 0 ≤ rippleCond rp ^ 2 * h := by positivity
    nlinarith
  have hhk : h ≤ rippleCond rp ^ 2 * h := by
    have : 1 ≤ rippleCond rp ^ 2 := one_le_pow₀ k1
    nlinarith
  have hhK : h ≤ K := hhk.trans hκ2
  have hK0 : 0 ≤ K := h0.trans hhK
  have hHK : H * (1 - e) = 4 * K := by rw [hH]; field_simp
  have hHs : H ≤ 1 / 1024 := by rw [hH, div_le_iff₀ h1e]; linarith
  have hH0 : 0 ≤ H := by rw [hH]; positivity
  have h4K : 4 * K ≤ H := by nlinarith
  have hhH : h ≤ H := by linarith
  have hκh : rippleCond rp * h ≤ rippleCond rp ^ 2 * h :=
    mul_le_mul_of_nonneg_right (by nlinarith) h0
  obtain ⟨w0, w1, ew⟩ := warp_err Se hr he hee (by linarith) hm
  have ew' : |flWarp r m e' - exWarp e| ≤ 9.7 * H * exWarp e := by
    refine ew.trans (mul_le_mul_of_nonneg_right (mul_le_mul_of_nonneg_left ?_ (by norm_num)) w0.le)
    rw [hH]; exact div_le_div_of_nonneg_right (by linarith) h1e.le
  refine ⟨Se, hhH, hHs, by linarith, w0, w1, ew', by rw [← hσ]; exact σb, fun j hj => ?_⟩
  obtain ⟨n1, n2⟩ := exCheb_bounds hn hrp j
  have eζ := cheb_err S hm hm2 hn hrp σb (by nlinarith) (by linarith) hj
  rw [hK2] at eζ
  have eζ' : ‖flCheb r m n rp j - exCheb n rp j‖ ≤ 16 * H * ‖exCheb n rp j‖ :=
    eζ.trans (mul_le_mul_of_nonneg_right (by linarith) (norm_nonneg _))
  refine ⟨eζ', ?_⟩
  have hz : exCheb n rp j ≠ 0 := norm_pos_iff.mp (lt_of_lt_of_le hγn n1)
  have hwN : e * (rippleFloor rp / n) ≤ exWarp e * ‖exCheb n rp j‖ :=
    mul_le_mul (by linarith) n1 hγn.le w0.le
  unfold flCAnalog exCAnalog
  split
  · rw [norm_mul, Complex.norm_real, Real.norm_of_nonneg w0.le]
    exact lp_err' S hr hhH hHs w0 (by linarith) eζ' ew'
  · rw [norm_div, Complex.norm_real, Real.norm_of_nonneg w0.le]
    refine hp_err' S hr hhH hHs w0 hz ?_ (by linarith) ?_ eζ' ew'
    · have := pow_le_pow_left₀ hγn.le n1 2
      linarith
    · have hC1 := Real.one_le_cosh (exMu n rp)
      have b1 : ‖exCheb n rp j‖ ≤ rippleCond rp := n2.trans (le_trans (le_self_pow₀ hC1 two_ne_zero) f3)
      have b2 := mul_le_mul_of_nonneg_left b1 hs.le
      have b3 : 4 * σ * rippleCond rp ≤ e := by
        have := mul_le_mul_of_nonneg_right σb' hκ0.le
        rwa [mul_assoc e, one_div, inv_mul_cancel₀ hκ0.ne', mul_one] at this
      linarith

/-- All errors together. -/
theorem cheb_pole_err {e e' : ℝ} {n : ℕ} (hn : n ≠ 0) {rp : ℝ} (hrp : 0 < rp)
    (S : Small r h (e * rippleFloor rp ^ 2 / (4 * n ^ 2 * rippleCond rp)))
    (hr : r.Nearest) (he0 : 0 < e) (he : e < 1) (hee : |e' - e| ≤ h * e)
    (hh : 4096 * (n * rippleCond rp ^ 2 * h) ≤ 1 - e) (hm : m.Accurate r h) (hm2 : m.AccurateHyp r h) {band : Band}
    {j : ℤ} (hj : j ∈ stepRange (-(n : ℤ) + 1) n) :
    ‖flBilinear r (flCAnalog r m n rp band e' j) -
      (4 + exCAnalog n rp band e j) / (4 - exCAnalog n rp band e j)‖ ≤
      220 * (n * rippleCond rp ^ 2 * h) / (1 - e) := by
  obtain ⟨Se, hhH, hHs, -, -, -, -, -, key⟩ := cheb_analog_err (band := band) hn hrp S hr he0 he hee hh hm hm2 rfl
  obtain ⟨hre, -⟩ := cheb_margin hn hrp band he0 he hj rfl
  have := bilinear_err Se he hr hhH hHs hre (key j hj).2
  refine this.trans (le_of_eq ?_)
  ring

/-- The middle pole of an odd order is real. -/
theorem flCheb_real (n : ℕ) (rp : ℝ) (band : Band) (e' : ℝ) : (flBilinear r (flCAnalog r m n rp band e' 0)).im = 0 := by
  have hs : m.sin 0 = 0 := by
    have := m.sin_neg 0
    rw [neg_zero] at this
    linarith
  have h1 : (flCheb r m n rp 0).im = 0 := by
    simp [flCheb, flCAngle_zero, hs, r.zero]
  have h2 : (flCAnalog r m n rp band e' 0).im = 0 := by
    unfold flCAnalog
    split
    · simp [flMul, h1, r.zero]
    · simp [flDiv, h1, r.zero]
  simp [flBilinear, flDiv, h2, r.zero]

end SciRs.Rounded

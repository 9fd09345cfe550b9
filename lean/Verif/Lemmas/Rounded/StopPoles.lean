import Verif.Lemmas.Rounded.ChebPoles
import Verif.Spec.StopRipple

/-! # Rounding errors of the poles and zeros of Chebyshev II low-pass designs -/

namespace SciRs.Rounded

open SciRs.Spec SciRs.Design

variable {r : Rounding} {m : Libm} {h : ℝ}

/-- The computed reciprocal of the attenuation. -/
noncomputable def flDe (r : Rounding) (m : Libm) (rs : ℝ) : ℝ :=
  r.rnd (1 / r.rnd √(r.rnd (m.powf 10 (r.rnd (r.rnd (1 / 10) * rs)) - 1)))

/-- The computed parameter of the prototype. -/
noncomputable def flStopMu (r : Rounding) (m : Libm) (n : ℕ) (rs : ℝ) : ℝ :=
  r.rnd (m.asinh (r.rnd (1 / flDe r m rs)) / r.rnd ((n : ℤ) : ℝ))

set_option maxHeartbeats 800000 in
/-- What the condition on the precision amounts to. -/
theorem stop_facts {n : ℕ} (hn : n ≠ 0) {rs e : ℝ} (hrs : 0 < rs) (h0 : 0 < e) (h1 : e < 1) (hh0 : 0 ≤ h)
    (hh : 12288 * (n * (stopCond n rs * h)) ≤ stopMargin n rs e ^ 2) {μ X : ℝ} (hμ : μ = stopMu n rs)
    (hX : X = stopMargin n rs e) :
    0 < μ ∧ 0 < X ∧ X ≤ 1 / 4 ∧ X ≤ e ∧ X ≤ 1 - e ∧ X ≤ 1 / n ∧ X ≤ μ ∧ X * Real.cosh μ ≤ e ∧ X * Real.cosh μ ≤ 1 ∧
    X ≤ Real.sinh μ ∧ rippleCond rs * h * (1 + μ) * n * 12288 ≤ X ^ 2 ∧ 1 ≤ rippleCond rs ∧
    rippleCond rs * h ≤ 1 / 4096 ∧ h ≤ rippleCond rs * h ∧ rippleCond rs * h ≤ rippleCond rs * h * (1 + μ) ∧
    rippleCond rs * h * (1 + μ) ≤ rippleCond rs * h * (1 + μ) * n ∧ 12288 * h ≤ X ^ 2 := by
  obtain ⟨hQ, k1, -⟩ := ripple_facts hrs
  have hn1 : (1 : ℝ) ≤ n := by exact_mod_cast Nat.one_le_iff_ne_zero.mpr hn
  have hn0 : (0 : ℝ) < n := by linarith
  have hμ0 : 0 < μ := by
    rw [hμ, stopMu]
    exact div_pos (Real.arsinh_pos_iff.mpr (Real.sqrt_pos.mpr hQ)) hn0
  have hhc : 12288 * (n * (rippleCond rs * h * (1 + μ))) ≤ X ^ 2 := by
    rw [hX, hμ]; refine le_trans (le_of_eq ?_) hh; rw [stopCond]; ring
  have hXd : X = e * (1 - e) * Real.sinh μ / (n * Real.cosh μ ^ 2) := by rw [hX, hμ]; rfl
  have hS0 : 0 < Real.sinh μ := Real.sinh_pos_iff.mpr hμ0
  have hC1 := Real.one_le_cosh μ
  have hSC : Real.sinh μ ≤ Real.cosh μ := (Real.sinh_lt_cosh μ).le
  have hSm := sinh_le_mul_cosh hμ0.le
  have h1e : 0 < 1 - e := by linarith
  have he4 : e * (1 - e) ≤ 1 / 4 := by nlinarith [sq_nonneg (e - 1 / 2)]
  have hee : e * (1 - e) ≤ e := by nlinarith
  have hee' : e * (1 - e) ≤ 1 - e := by nlinarith
  have hee0 : 0 < e * (1 - e) := by positivity
  generalize Real.sinh μ = Sh at *
  generalize Real.cosh μ = C at *
  have hX0 : 0 < X := by rw [hXd]; positivity
  have hXe : X * (n * C ^ 2) = e * (1 - e) * Sh := by rw [hXd]; field_simp
  have hC2 : C ≤ C ^ 2 := le_self_pow₀ hC1 two_ne_zero
  have hnC : C ^ 2 ≤ n * C ^ 2 := le_mul_of_one_le_left (sq_nonneg C) hn1
  -- `X C ≤ e (1 - e) (Sh / C)`
  have q1 : X * C * C ≤ e * (1 - e) * Sh := by
    rw [← hXe, mul_assoc, ← sq]; exact mul_le_mul_of_nonneg_left hnC hX0.le
  have q2 : X * C ≤ e * (1 - e) := by
    have : X * C * C ≤ e * (1 - e) * C := q1.trans (mul_le_mul_of_nonneg_left hSC hee0.le)
    exact le_of_mul_le_mul_right this (by linarith)
  have q3 : X ≤ X * C := le_mul_of_one_le_right hX0.le hC1
  have q3' : X * C ≤ X * C * C := le_mul_of_one_le_right (by positivity) hC1
  have q4' : e * (1 - e) * Sh ≤ 1 * Sh := mul_le_mul_of_nonneg_right (by linarith) hS0.le
  have q4 : X ≤ Sh := by linarith
  have q5 : X ≤ μ := by
    have i1 : X * C ≤ μ * C := by linarith
    exact le_of_mul_le_mul_right i1 (by linarith)
  have q6 : X ≤ 1 / n := by
    rw [le_div_iff₀ hn0]
    have i1 : X * n * C ≤ 1 * C := by
      have : X * n * C ≤ X * n * C ^ 2 := mul_le_mul_of_nonneg_left hC2 (by positivity)
      have : e * (1 - e) * Sh ≤ 1 * C := mul_le_mul (by linarith) hSC hS0.le (by norm_num)
      linarith
    exact le_of_mul_le_mul_right i1 (by linarith)
  have hκh : 0 ≤ rippleCond rs * h := by positivity
  have p1 : h ≤ rippleCond rs * h := le_mul_of_one_le_left hh0 k1
  have p2 : rippleCond rs * h ≤ rippleCond rs * h * (1 + μ) := le_mul_of_one_le_right hκh (by linarith)
  have p3 : rippleCond rs * h * (1 + μ) ≤ rippleCond rs * h * (1 + μ) * n :=
    le_mul_of_one_le_right (by positivity) hn1
  have hX4 : X ≤ 1 / 4 := by linarith
  have hXX : X ^ 2 ≤ 1 / 16 := by nlinarith
  refine ⟨hμ0, hX0, hX4, by linarith, by linarith, q6, q5, by linarith, by linarith, q4, by linarith, k1, by linarith,
    p1, p2, p3, by linarith⟩

set_option maxHeartbeats 800000 in
/-- The error of the parameter. -/
theorem stop_mu_err (S : Small r h h) (hm : m.AccurateHyp r h) {n : ℕ} (hn : n ≠ 0) {rs : ℝ} (hrs : 0 < rs)
    (hfl : h ≤ rippleFloor rs) (hμ : h ≤ stopMu n rs) (hκ : rippleCond rs * h ≤ 1 / 4096) :
    Rel (10.5 * (rippleCond rs * h)) (flStopMu r m n rs) (stopMu n rs) := by
  obtain ⟨hQ, k1, k2, k3, k4, -, g0, -, g2⟩ := ripple_facts hrs
  have h0 := S.h_nonneg
  have hn1 : (1 : ℝ) ≤ n := by exact_mod_cast Nat.one_le_iff_ne_zero.mpr hn
  have hn0 : (0 : ℝ) < n := by linarith
  unfold flStopMu stopMu flDe
  unfold stopMu at hμ
  generalize rippleCond rs = κ at *
  have hκ0 : 0 < κ := by linarith
  have hhκ : h ≤ κ * h := by nlinarith
  have hσ : 4 * h ≤ 1 / κ := by
    rw [le_div_iff₀ hκ0]; linarith
  obtain ⟨x, hx⟩ : ∃ x, x = rs / 10 := ⟨_, rfl⟩
  rw [← hx] at hQ k2 k3 k4 g2 hμ ⊢
  have hx0 : 0 < x := by rw [hx]; positivity
  have hxr : rs = 10 * x := by rw [hx]; ring
  have e0 : Rel (2.05 * h) (r.rnd (r.rnd (1 / 10) * rs)) x := by
    have i1 : Rel h (r.rnd (1 / 10) * rs) x := by
      have j1 := S.fl (x := 1 / 10) (B := 1 / 10) (by norm_num [abs_of_pos]) (by linarith)
      unfold Rel
      rw [show r.rnd (1 / 10) * rs - x = (r.rnd (1 / 10) - 1 / 10) * rs by rw [hx]; ring, abs_mul, abs_of_pos hrs]
      have := mul_le_mul_of_nonneg_right j1 hrs.le
      rw [hx]; linarith
    exact (i1.fl S (by linarith) (by linarith)).mono hx0.le (by linarith)
  obtain ⟨x', hx'⟩ : ∃ x', x' = r.rnd (r.rnd (1 / 10) * rs) := ⟨_, rfl⟩
  rw [← hx'] at e0 ⊢
  have hx0' : 0 ≤ x' := by
    have := e0.ge hx0.le (by linarith)
    linarith
  have hlog : Real.log 10 < 2.32 := by
    have h2 := Real.log_two_lt_d9
    have h3 : Real.log 10 < Real.log (2 ^ (10 / 3 : ℝ)) := by
      refine Real.log_lt_log (by norm_num) ?_
      have : (10 : ℝ) ^ (3 : ℝ) < ((2 : ℝ) ^ (10 / 3 : ℝ)) ^ (3 : ℝ) := by
        rw [← Real.rpow_mul (by norm_num)]
        norm_num
      exact (Real.rpow_lt_rpow_iff (by norm_num) (by positivity) (by norm_num)).mp this
    rw [Real.log_rpow (by norm_num)] at h3
    linarith
  have hlog0 : 0 < Real.log 10 := Real.log_pos (by norm_num)
  have hhx : h * x ≤ 1 / 40960 := by
    have i1 : 10 * x ≤ κ := by
      have j1 : (10 : ℝ) ^ x * (1 + rs) ≤ κ * (10 : ℝ) ^ x := by
        rw [k2]; exact mul_le_mul_of_nonneg_left (by linarith) (by linarith)
      have j2 : (0 : ℝ) < (10 : ℝ) ^ x := Real.rpow_pos_of_pos (by norm_num) _
      have j3 : 1 + rs ≤ κ := by
        rw [mul_comm] at j1
        exact le_of_mul_le_mul_right j1 j2
      linarith
    nlinarith
  have eG : |(10 : ℝ) ^ x' - (10 : ℝ) ^ x| ≤ 9.6 * (h * x) * (10 : ℝ) ^ x := by
    have j2 : (0 : ℝ) < (10 : ℝ) ^ x := Real.rpow_pos_of_pos (by norm_num) _
    have e1 : (10 : ℝ) ^ x' = (10 : ℝ) ^ x * Real.exp (Real.log 10 * (x' - x)) := by
      rw [← Real.rpow_def_of_pos (by norm_num), ← Real.rpow_add (by norm_num)]
      congr 1; ring
    rw [e1, show (10 : ℝ) ^ x * Real.exp (Real.log 10 * (x' - x)) - (10 : ℝ) ^ x
      = (Real.exp (Real.log 10 * (x' - x)) - 1) * (10 : ℝ) ^ x by ring, abs_mul, abs_of_pos j2]
    refine mul_le_mul_of_nonneg_right ?_ j2.le
    have j4 : |Real.log 10 * (x' - x)| ≤ 2.32 * (2.05 * h * x) := by
      rw [abs_mul, abs_of_pos hlog0]
      exact mul_le_mul hlog.le e0 (abs_nonneg _) (by norm_num)
    have := Real.abs_exp_sub_one_le (x := Real.log 10 * (x' - x)) (by linarith)
    have : 0 ≤ h * x := by positivity
    linarith
  have eP := hm.powf x' hx0'
  obtain ⟨G, hG⟩ : ∃ G, G = (10 : ℝ) ^ x := ⟨_, rfl⟩
  have hG0 : 0 < G := by rw [hG]; exact Real.rpow_pos_of_pos (by norm_num) _
  rw [← hG] at hQ k2 k3 eG g2 hμ ⊢
  have hG' : (10 : ℝ) ^ x' ≤ 1.01 * G := by
    have := (abs_le.mp eG).2
    have j := mul_le_mul_of_nonneg_right hhx hG0.le
    linarith
  have e1 : Rel (1.01 * (κ * h)) (m.powf 10 x' - 1) (G - 1) := by
    unfold Rel
    have i1 := abs_add_le (m.powf 10 x' - (10 : ℝ) ^ x') ((10 : ℝ) ^ x' - G)
    rw [sub_add_sub_cancel] at i1
    rw [sub_sub_sub_cancel_right]
    have i2 := mul_le_mul_of_nonneg_left hG' h0
    have i3 : 1.01 * (κ * h) * (G - 1) = 1.01 * (h * (G * (1 + rs))) := by rw [k2]; ring
    rw [i3, hxr]
    have i4 : 0 ≤ h * x * G := by positivity
    linarith
  have e2 := (e1.fl S (by linarith) (by linarith)).sqrt hQ (by linarith)
  have hr1 : 1 / κ ≤ √(G - 1) := by
    refine Real.le_sqrt_of_sq_le ?_
    have : (1 / κ) ^ 2 ≤ 1 / κ := by
      have j1 : 1 / κ ≤ 1 := by rw [div_le_one (by linarith)]; exact k1
      have j2 : 0 ≤ 1 / κ := by positivity
      nlinarith
    linarith
  have e3 := e2.fl S (by linarith) (by linarith)
  have e3' := e3.mono (η := 3.2 * (κ * h)) (Real.sqrt_nonneg _) (by linarith)
  obtain ⟨E, hE⟩ : ∃ E, E = √(G - 1) := ⟨_, rfl⟩
  have hE0 : 0 < E := by rw [hE]; exact Real.sqrt_pos.mpr hQ
  have hE2 : E ^ 2 = G - 1 := by rw [hE]; exact Real.sq_sqrt hQ.le
  rw [← hE] at e3' hμ ⊢
  -- the reciprocal
  have hde : h ≤ 1 / E := by
    have : (rippleFloor rs * E) ^ 2 ≤ 1 ^ 2 := by
      rw [mul_pow, hE2]
      nlinarith [sq_nonneg (rippleFloor rs)]
    have := (sq_le_sq₀ (by positivity) (by norm_num)).mp this
    rw [le_div_iff₀ hE0]
    nlinarith
  have one : Rel 0 (1 : ℝ) 1 := by simp [Rel]
  have e4 := (Rel.div (by norm_num) hE0 (by linarith) le_rfl (by positivity) one e3').fl S hde (by linarith)
  have e4' := e4.mono (η := 4.45 * (κ * h)) (by positivity) (by linarith)
  have e5 := Rel.div (by norm_num) (by positivity : 0 < 1 / E) (by linarith) le_rfl (by positivity) one e4'
  rw [one_div_one_div] at e5
  have ha1 : h ≤ E := by
    have := k3
    have : h ≤ 1 / κ := by linarith
    rw [hE]; linarith
  have e6 := (e5.fl S ha1 (by linarith)).mono (η := 5.8 * (κ * h)) hE0.le (by linarith)
  have e7 := e6.arsinh hE0 (by positivity) (by linarith)
  obtain ⟨y, hy⟩ : ∃ y, y = r.rnd (1 / r.rnd (1 / r.rnd √(r.rnd (m.powf 10 x' - 1)))) := ⟨_, rfl⟩
  rw [← hy] at e6 e7 ⊢
  have hy' : 0 < y := by
    have := e6.ge hE0.le (by linarith)
    linarith
  have e8 := hm.asinh _ hy'
  obtain ⟨a, ha⟩ : ∃ a, a = Real.arsinh E := ⟨_, rfl⟩
  rw [← ha] at e7 hμ ⊢
  have ha0 : 0 < a := by rw [ha]; exact Real.arsinh_pos_iff.mpr hE0
  have hha : h ≤ a := hμ.trans (div_le_self ha0.le hn1)
  have e9 : Rel (7.9 * (κ * h)) (m.asinh y) a := by
    have i1 := e7.le ha0.le (by linarith)
    have i2 := S.t_le
    have i3 : (h - r.u) * h ≤ h * a := by
      have j1 := r.u_nonneg
      have j2 : (h - r.u) * h ≤ h * h := mul_le_mul_of_nonneg_right (by linarith) h0
      have j3 : h * h ≤ h * a := mul_le_mul_of_nonneg_left hha h0
      linarith
    have i4 := mul_le_mul_of_nonneg_left i1 h0
    unfold Rel at e7 ⊢
    have i5 := abs_add_le (m.asinh y - Real.arsinh y) (Real.arsinh y - a)
    rw [sub_add_sub_cancel] at i5
    have i6 : h * a ≤ κ * h * a := mul_le_mul_of_nonneg_right hhκ ha0.le
    have i8 : 0 ≤ κ * h * a := by positivity
    linarith
  have e10 : Rel h (r.rnd ((n : ℤ) : ℝ)) n := by
    unfold Rel
    have := S.fl (x := ((n : ℤ) : ℝ)) (B := n) (by push_cast; rw [abs_of_nonneg (by linarith)]) (by linarith)
    push_cast at this ⊢
    exact this
  have e11 := Rel.div ha0.le (by linarith) (by linarith) (by positivity) h0 e9 e10
  have e12 := e11.fl S hμ (by linarith)
  exact e12.mono (by positivity) (by linarith)

/-- The computed angle of a pole of the prototype. -/
noncomputable def flSAngle (r : Rounding) (m : Libm) (n : ℕ) (j : ℤ) : ℝ :=
  r.rnd (r.rnd (m.pi * r.rnd j) / r.rnd (2 * r.rnd ((n : ℤ) : ℝ)))

/-- The computed angle of a zero of the prototype. -/
noncomputable def flZAngle (r : Rounding) (m : Libm) (n : ℕ) (j : ℤ) : ℝ :=
  r.rnd (r.rnd j * r.rnd (m.pi / r.rnd (2 * r.rnd ((n : ℤ) : ℝ))))

theorem flSAngle_zero (n : ℕ) : flSAngle r m n 0 = 0 := by
  simp [flSAngle, r.zero]

theorem flZAngle_zero (n : ℕ) : flZAngle r m n 0 = 0 := by
  simp [flZAngle, r.zero]

theorem two_n_err (S : Small r h h) (hh : h ≤ 1 / 1024) {n : ℕ} (hn : 1 ≤ n) :
    Rel (2.05 * h) (r.rnd (2 * r.rnd ((n : ℤ) : ℝ))) (2 * n) := by
  have h0 := S.h_nonneg
  have hn1 : (1 : ℝ) ≤ n := by exact_mod_cast hn
  have e1 := S.fl (x := ((n : ℤ) : ℝ)) (B := n) (by push_cast; rw [abs_of_nonneg (by linarith)]) (by linarith)
  push_cast at e1
  have e2 : Rel h (2 * r.rnd ((n : ℤ) : ℝ)) (2 * n) := by
    unfold Rel
    rw [← mul_sub, abs_mul, abs_of_pos (by norm_num : (0 : ℝ) < 2)]
    push_cast
    linarith
  exact (e2.fl S (by linarith) (by linarith)).mono (by positivity) (by linarith)

theorem angle_size {n : ℕ} (hn : 1 ≤ n) {j : ℤ} (hj : |(j : ℝ)| ≤ n) :
    |Real.pi * j / (2 * n)| ≤ 1.575 ∧ Real.pi / (2 * n) * |(j : ℝ)| ≤ 1.575 := by
  have hn1 : (1 : ℝ) ≤ n := by exact_mod_cast hn
  have hpi4 : Real.pi < 3.15 := Real.pi_lt_d2
  have : Real.pi * |(j : ℝ)| ≤ 1.575 * (2 * n) := by
    have := mul_le_mul hpi4.le hj (abs_nonneg _) (by norm_num)
    linarith
  constructor
  · rw [abs_div, abs_mul, abs_of_pos Real.pi_pos, abs_of_pos (by positivity : (0 : ℝ) < 2 * n),
      div_le_iff₀ (by positivity)]
    exact this
  · rw [div_mul_eq_mul_div, div_le_iff₀ (by positivity)]
    exact this

theorem sangle_err (S : Small r h h) (hh : h ≤ 1 / 1024) (hm : m.Accurate r h) {n : ℕ} (hn : 1 ≤ n)
    {j : ℤ} (hj : |(j : ℝ)| ≤ n) : |flSAngle r m n j - Real.pi * j / (2 * n)| ≤ 11 * h := by
  have h0 := S.h_nonneg
  by_cases hj0 : j = 0
  · subst hj0; rw [flSAngle_zero]; simpa using h0
  have hj1 : 1 ≤ |(j : ℝ)| := by
    rw [← Int.cast_abs]; exact_mod_cast Int.one_le_abs hj0
  have hn1 : (1 : ℝ) ≤ n := by exact_mod_cast hn
  have hpi3 := Real.pi_gt_three
  have e1 := S.fl (x := (j : ℝ)) le_rfl (by linarith)
  have e2 := two_n_err S hh hn
  have e3 := hm.pi
  obtain ⟨g4, -⟩ := angle_size hn hj
  unfold flSAngle
  generalize r.rnd (j : ℝ) = j' at *
  generalize r.rnd (2 * r.rnd ((n : ℤ) : ℝ)) = n' at *
  obtain ⟨N, hN⟩ : ∃ N, N = Real.pi * |(j : ℝ)| := ⟨_, rfl⟩
  have hN3 : 3 ≤ N := by rw [hN]; nlinarith
  have hhN : 0 ≤ h * N := by positivity
  have f1 : |m.pi * j' - Real.pi * j| ≤ 2.001 * h * N := by
    have : m.pi * j' - Real.pi * j = (m.pi - Real.pi) * (j' - j) + ((m.pi - Real.pi) * j + Real.pi * (j' - j)) := by ring
    rw [this]
    have a1 := abs_add_le ((m.pi - Real.pi) * (j' - j)) ((m.pi - Real.pi) * j + Real.pi * (j' - j))
    have a2 := abs_add_le ((m.pi - Real.pi) * (j : ℝ)) (Real.pi * (j' - j))
    rw [abs_mul, abs_mul, abs_of_pos Real.pi_pos] at a2
    rw [abs_mul] at a1
    have a3 : |m.pi - Real.pi| * |j' - j| ≤ (h * Real.pi) * (h * |(j : ℝ)|) :=
      mul_le_mul e3 e1 (abs_nonneg _) (by positivity)
    have a4 := mul_le_mul_of_nonneg_right e3 (abs_nonneg (j : ℝ))
    have a5 := mul_le_mul_of_nonneg_left e1 Real.pi_pos.le
    have a6 : h * (h * N) ≤ 1 / 1024 * (h * N) := mul_le_mul_of_nonneg_right hh (by positivity)
    have b1 : (h * Real.pi) * (h * |(j : ℝ)|) = h * (h * N) := by rw [hN]; ring
    have b2 : h * Real.pi * |(j : ℝ)| = h * N := by rw [hN]; ring
    have b3 : Real.pi * (h * |(j : ℝ)|) = h * N := by rw [hN]; ring
    linarith
  have f2 : |Real.pi * (j : ℝ)| = N := by rw [abs_mul, abs_of_pos Real.pi_pos, hN]
  have f3 : |m.pi * j'| ≤ 1.01 * N := by
    have := abs_add_le (m.pi * j' - Real.pi * j) (Real.pi * j)
    rw [sub_add_cancel, f2] at this
    nlinarith
  have f4 := S.fl f3 (by linarith)
  obtain ⟨x, hx⟩ : ∃ x, x = r.rnd (m.pi * j') := ⟨_, rfl⟩
  rw [← hx] at f4 ⊢
  have f5 : |x - Real.pi * j| ≤ 3.02 * h * N := by
    have := abs_add_le (x - m.pi * j') (m.pi * j' - Real.pi * j)
    rw [sub_add_sub_cancel] at this
    linarith
  have hn2 := e2.ge (by positivity) (by linarith)
  have g1 := abs_le.mp e2
  have hn3 : 1.99 * n ≤ n' := by
    have : h * (n : ℝ) ≤ 1 / 1024 * n := mul_le_mul_of_nonneg_right hh (by linarith)
    linarith
  have hn0 : 0 < n' := by linarith
  have g2 : x / n' - Real.pi * j / (2 * n) =
      ((x - Real.pi * j) - Real.pi * j / (2 * n) * (n' - 2 * n)) / n' := by
    field_simp; ring
  have hNn : N ≤ 3.15 * n := by
    have := f2 ▸ (abs_div (Real.pi * (j : ℝ)) (2 * n))
    rw [this, abs_of_pos (by positivity : (0 : ℝ) < 2 * n), div_le_iff₀ (by positivity)] at g4
    linarith
  have g3 : |x / n' - Real.pi * j / (2 * n)| ≤ 8.1 * h := by
    rw [g2, abs_div, abs_of_pos hn0, div_le_iff₀ hn0]
    refine (abs_sub _ _).trans ?_
    rw [abs_mul]
    have b2 := mul_le_mul g4 e2 (abs_nonneg _) (by norm_num)
    have b3 := mul_le_mul_of_nonneg_left hNn h0
    have b4 := mul_le_mul_of_nonneg_left hn3 h0
    linarith
  have g5 : |x / n'| ≤ 1.6 := by
    have := abs_add_le (x / n' - Real.pi * j / (2 * n)) (Real.pi * j / (2 * n))
    rw [sub_add_cancel] at this
    linarith
  have g6 := S.fl g5 (by linarith)
  have g7 := abs_add_le (r.rnd (x / n') - x / n') (x / n' - Real.pi * j / (2 * n))
  rw [sub_add_sub_cancel] at g7
  linarith

theorem zangle_err (S : Small r h h) (hh : h ≤ 1 / 1024) (hm : m.Accurate r h) {n : ℕ} (hn : 1 ≤ n)
    (hhn : h ≤ 1 / n) {j : ℤ} (hj : |(j : ℝ)| ≤ n) : |flZAngle r m n j - Real.pi * j / (2 * n)| ≤ 11 * h := by
  have h0 := S.h_nonneg
  by_cases hj0 : j = 0
  · subst hj0; rw [flZAngle_zero]; simpa using h0
  have hj1 : 1 ≤ |(j : ℝ)| := by
    rw [← Int.cast_abs]; exact_mod_cast Int.one_le_abs hj0
  have hn1 : (1 : ℝ) ≤ n := by exact_mod_cast hn
  have hpi3 := Real.pi_gt_three
  have e1 := S.fl (x := (j : ℝ)) le_rfl (by linarith)
  have e2 := two_n_err S hh hn
  have e3 : Rel h m.pi Real.pi := hm.pi
  obtain ⟨g4, g4'⟩ := angle_size hn hj
  unfold flZAngle
  have e4 := Rel.div Real.pi_pos.le (by positivity) (by linarith) h0 (by positivity) e3 e2
  have e5 := (e4.fl S (by
    refine hhn.trans ?_
    rw [div_le_div_iff₀ (by positivity) (by positivity)]
    nlinarith) (by linarith)).mono (η := 4.3 * h) (by positivity) (by linarith)
  generalize r.rnd (j : ℝ) = j' at *
  generalize r.rnd (m.pi / r.rnd (2 * r.rnd ((n : ℤ) : ℝ))) = y at *
  have e6 : Real.pi * j / (2 * n) = j * (Real.pi / (2 * n)) := by ring
  rw [e6] at g4 ⊢
  have hY : 0 < Real.pi / (2 * n) := by positivity
  generalize Real.pi / (2 * n : ℝ) = Y at *
  have hjj : |j'| ≤ 1.01 * |(j : ℝ)| := by
    have := abs_add_le (j' - j) (j : ℝ)
    rw [sub_add_cancel] at this
    nlinarith [abs_nonneg (j : ℝ)]
  have f1 : |j' * y - j * Y| ≤ 8.6 * h := by
    rw [show j' * y - j * Y = j' * (y - Y) + (j' - j) * Y by ring]
    refine (abs_add_le _ _).trans ?_
    rw [abs_mul, abs_mul, abs_of_pos hY]
    have b1 := mul_le_mul hjj e5 (abs_nonneg _) (by positivity)
    have b2 := mul_le_mul_of_nonneg_right e1 hY.le
    have b3 := mul_le_mul_of_nonneg_left g4' h0
    linarith
  have g5 : |j' * y| ≤ 1.6 := by
    have := abs_add_le (j' * y - j * Y) (j * Y)
    rw [sub_add_cancel] at this
    linarith
  have g6 := S.fl g5 (by linarith)
  have g7 := abs_add_le (r.rnd (j' * y) - j' * y) (j' * y - j * Y)
  rw [sub_add_sub_cancel] at g7
  linarith

/-- The number whose reciprocal is a pole of the prototype, as computed. -/
noncomputable def flStop (r : Rounding) (m : Libm) (n : ℕ) (rs : ℝ) (j : ℤ) : ℂ :=
  ⟨r.rnd (m.sinh (flStopMu r m n rs) * -r.rnd (m.exp 0 * m.cos (flSAngle r m n j))),
    r.rnd (m.cosh (flStopMu r m n rs) * -r.rnd (m.exp 0 * m.sin (flSAngle r m n j)))⟩

/-- The number whose reciprocal is a pole of the prototype. -/
noncomputable def exStop (n : ℕ) (rs : ℝ) (j : ℤ) : ℂ :=
  ⟨-(Real.sinh (stopMu n rs) * Real.cos (Real.pi * j / (2 * n))),
    -(Real.cosh (stopMu n rs) * Real.sin (Real.pi * j / (2 * n)))⟩

theorem exStop_norm (n : ℕ) (rs : ℝ) (j : ℤ) :
    ‖exStop n rs j‖ ^ 2 = Real.sinh (stopMu n rs) ^ 2 + Real.sin (Real.pi * j / (2 * n)) ^ 2 := by
  rw [Complex.sq_norm, Complex.normSq_apply]
  simp only [exStop]
  have := Real.sin_sq_add_cos_sq (Real.pi * j / (2 * n))
  have e : Real.cos (Real.pi * j / (2 * n)) ^ 2 = 1 - Real.sin (Real.pi * j / (2 * n)) ^ 2 := by linarith
  calc _ = Real.sinh (stopMu n rs) ^ 2 * Real.cos (Real.pi * j / (2 * n)) ^ 2
        + Real.cosh (stopMu n rs) ^ 2 * Real.sin (Real.pi * j / (2 * n)) ^ 2 := by ring
    _ = _ := by rw [e, Real.cosh_sq]; ring

theorem exStop_bounds {n : ℕ} {rs : ℝ} (hμ : 0 < stopMu n rs) (j : ℤ) :
    Real.sinh (stopMu n rs) ≤ ‖exStop n rs j‖ ∧ ‖exStop n rs j‖ ≤ Real.cosh (stopMu n rs) := by
  have hN := exStop_norm n rs j
  have hS0 : 0 < Real.sinh (stopMu n rs) := Real.sinh_pos_iff.mpr hμ
  have h0 := norm_nonneg (exStop n rs j)
  have hC := Real.cosh_sq (stopMu n rs)
  have hC1 := Real.one_le_cosh (stopMu n rs)
  have hs := Real.sin_sq_le_one (Real.pi * j / (2 * n))
  constructor
  · refine (sq_le_sq₀ hS0.le h0).mp ?_
    rw [hN]; linarith [sq_nonneg (Real.sin (Real.pi * j / (2 * n)))]
  · refine (sq_le_sq₀ h0 (by linarith)).mp ?_
    rw [hN, hC]; linarith

set_option maxHeartbeats 800000 in
/-- The error of that number. -/
theorem stop_err (S : Small r h h) (hm : m.Accurate r h) (hm2 : m.AccurateHyp r h) {n : ℕ} (hn : n ≠ 0) {rs : ℝ}
    (hrs : 0 < rs) (hfl : h ≤ rippleFloor rs) (hmu : h ≤ stopMu n rs) (hμ0 : 0 < stopMu n rs)
    {K : ℝ} (hK : K = rippleCond rs * h * (1 + stopMu n rs)) (hhK : h ≤ K) (hκK : rippleCond rs * h ≤ K)
    (hK1 : K ≤ 1 / 4096) {j : ℤ} (hj : j ∈ stepRange (-(n : ℤ) + 1) n) :
    ‖flStop r m n rs j - exStop n rs j‖ ≤ 75 * (n * K) * ‖exStop n rs j‖ := by
  obtain ⟨ja, jb, jc, js⟩ := angle_facts hn hj
  have h0 := S.h_nonneg
  have hn1 : (1 : ℝ) ≤ n := by exact_mod_cast Nat.one_le_iff_ne_zero.mpr hn
  have hN := exStop_norm n rs j
  have em := stop_mu_err S hm2 hn hrs hfl hmu (by linarith)
  have hK0 : 0 ≤ K := h0.trans hhK
  obtain ⟨-, k1, -⟩ := ripple_facts hrs
  have hκh : 0 ≤ rippleCond rs * h := by positivity
  have b4 : rippleCond rs * h * stopMu n rs ≤ K := by rw [hK]; nlinarith
  have hq : stopMu n rs * (10.5 * (rippleCond rs * h)) ≤ 0.01 := by linarith
  have e1 := (em.sinh hμ0 (by positivity) hq).mono (η := 10.9 * K) (Real.sinh_pos_iff.mpr hμ0).le (by
    rw [hK]; have : 0 ≤ rippleCond rs * h * (1 + stopMu n rs) := by positivity
    linarith)
  have e2 := (em.cosh hμ0 (by positivity) hq).mono (η := 10.8 * K) (Real.cosh_pos _).le (by linarith)
  have hmu' : 0 < flStopMu r m n rs := by
    have := em.ge hμ0.le (by linarith)
    linarith
  have l1 := hm2.sinh _ hmu'
  have l2 := hm2.cosh _ hmu'
  have hS0 : 0 < Real.sinh (stopMu n rs) := Real.sinh_pos_iff.mpr hμ0
  have hSm : stopMu n rs ≤ Real.sinh (stopMu n rs) := Real.self_le_sinh_iff.mpr hμ0.le
  have hC0 := Real.one_le_cosh (stopMu n rs)
  have hCS : Real.cosh (stopMu n rs) ≤ 1 + Real.sinh (stopMu n rs) := by
    have : Real.cosh (stopMu n rs) - Real.sinh (stopMu n rs) ≤ 1 := by
      rw [Real.cosh_sub_sinh, Real.exp_le_one_iff]; linarith
    linarith
  have ht : r.t ≤ h * h := by
    have i1 := S.t_le
    have i2 := r.u_nonneg
    have : (h - r.u) * h ≤ h * h := mul_le_mul_of_nonneg_right (by linarith) h0
    linarith
  have ea := sangle_err S (by linarith) hm (Nat.one_le_iff_ne_zero.mpr hn) ja
  have hth : |flSAngle r m n j| ≤ 4 := by
    have := abs_add_le (flSAngle r m n j - Real.pi * j / (2 * n)) (Real.pi * j / (2 * n))
    rw [sub_add_cancel] at this
    linarith
  have c1 := hm.cos _ hth
  have c2 := hm.sin _ hth
  have c3 := Real.abs_cos_sub_cos_le (flSAngle r m n j) (Real.pi * j / (2 * n))
  have c4 := Real.abs_sin_sub_sin_le (flSAngle r m n j) (Real.pi * j / (2 * n))
  have c5 := Real.abs_cos_le_one (Real.pi * j / (2 * n))
  have c6 := Real.abs_sin_le_one (Real.pi * j / (2 * n))
  have hsin0 : j = 0 → m.sin (flSAngle r m n j) = 0 := by
    rintro rfl
    have := m.sin_neg 0
    rw [neg_zero] at this
    rw [flSAngle_zero]
    linarith
  have hsin1 : j = 0 → Real.sin (Real.pi * j / (2 * n)) = 0 := by rintro rfl; simp
  have p2 : (exStop n rs j).im = -(Real.cosh (stopMu n rs) * Real.sin (Real.pi * j / (2 * n))) := rfl
  have p1 : (exStop n rs j).re = -(Real.sinh (stopMu n rs) * Real.cos (Real.pi * j / (2 * n))) := rfl
  unfold flStop
  rw [hm.exp_zero, one_mul, one_mul]
  obtain ⟨ζ, hζ⟩ : ∃ ζ, ζ = exStop n rs j := ⟨_, rfl⟩
  rw [← hζ] at hN p1 p2 ⊢
  generalize Real.pi * (j : ℝ) / (2 * n) = x at *
  generalize flSAngle r m n j = x' at *
  generalize flStopMu r m n rs = μ' at *
  generalize stopMu n rs = μ at *
  -- the factors
  have d1 : |m.sinh μ' - Real.sinh μ| ≤ 13 * K * Real.sinh μ := by
    have i1 := e1.le hS0.le (by linarith)
    have i2 := abs_add_le (m.sinh μ' - Real.sinh μ') (Real.sinh μ' - Real.sinh μ)
    rw [sub_add_sub_cancel] at i2
    have i3 := mul_le_mul_of_nonneg_left i1 h0
    have i4 : h * h ≤ h * Real.sinh μ := mul_le_mul_of_nonneg_left (by linarith) h0
    have i5 := mul_le_mul_of_nonneg_right hhK hS0.le
    have i6 : 0 ≤ K * Real.sinh μ := mul_nonneg hK0 hS0.le
    unfold Rel at e1
    linarith
  have d2 : |m.cosh μ' - Real.cosh μ| ≤ 12 * K * Real.cosh μ := by
    have i1 := e2.le (by linarith) (by linarith)
    have i2 := abs_add_le (m.cosh μ' - Real.cosh μ') (Real.cosh μ' - Real.cosh μ)
    rw [sub_add_sub_cancel] at i2
    have i3 := mul_le_mul_of_nonneg_left i1 h0
    have i5 := mul_le_mul_of_nonneg_right hhK (by linarith : 0 ≤ Real.cosh μ)
    have i6 : 0 ≤ K * Real.cosh μ := by positivity
    unfold Rel at e2
    linarith
  have rn : ∀ a b : ℝ, |a - b| ≤ 12 * h → |b| ≤ 1 → |-r.rnd a - -b| ≤ 13.1 * h := by
    intro a b i1 i2
    have i3 : |a| ≤ 1.01 := by
      have := abs_add_le (a - b) b
      rw [sub_add_cancel] at this
      linarith
    have i4 := S.fl i3 (by linarith)
    have i5 := abs_add_le (r.rnd a - a) (a - b)
    rw [sub_add_sub_cancel] at i5
    rw [show -r.rnd a - -b = -(r.rnd a - b) by ring, abs_neg]
    linarith
  have d3 := rn (m.cos x') (Real.cos x) (by
    have := abs_add_le (m.cos x' - Real.cos x') (Real.cos x' - Real.cos x)
    rw [sub_add_sub_cancel] at this
    linarith) c5
  have d4 := rn (m.sin x') (Real.sin x) (by
    have := abs_add_le (m.sin x' - Real.sin x') (Real.sin x' - Real.sin x)
    rw [sub_add_sub_cancel] at this
    linarith) c6
  have prod : ∀ A' A B' B δ : ℝ, 0 < A → h ≤ A → |A' - A| ≤ δ * A → δ ≤ 0.05 → |B' - B| ≤ 13.1 * h → |B| ≤ 1 →
      |r.rnd (A' * B') - A * B| ≤ 15 * h * A + δ * A * |B| := by
    intro A' A B' B δ a0 aσ a1 a2 a3 a4
    have i1 : |A'| ≤ 1.05 * A := by
      have := abs_add_le (A' - A) A
      rw [sub_add_cancel, abs_of_pos a0] at this
      have := mul_le_mul_of_nonneg_right a2 a0.le
      linarith
    have i2 : |B'| ≤ 1.05 := by
      have := abs_add_le (B' - B) B
      rw [sub_add_cancel] at this
      linarith
    have i3 : |A' * B'| ≤ 1.12 * A := by
      rw [abs_mul]
      have := mul_le_mul i1 i2 (abs_nonneg _) (by linarith)
      linarith
    have i4 := S.fl i3 (by linarith)
    have i5 : |A' * B' - A * B| ≤ 13.8 * h * A + δ * A * |B| := by
      rw [show A' * B' - A * B = A' * (B' - B) + (A' - A) * B by ring]
      refine (abs_add_le _ _).trans ?_
      rw [abs_mul, abs_mul]
      have j1 := mul_le_mul i1 a3 (abs_nonneg _) (by linarith)
      have j2 := mul_le_mul_of_nonneg_right a1 (abs_nonneg B)
      have j3 : 0 ≤ h * A := mul_nonneg h0 a0.le
      linarith
    have i6 := abs_add_le (r.rnd (A' * B') - A' * B') (A' * B' - A * B)
    rw [sub_add_sub_cancel] at i6
    have i7 : 0 ≤ h * A := mul_nonneg h0 a0.le
    linarith
  have hre := prod _ _ _ _ _ hS0 (by linarith) d1 (by linarith) d3 (by rwa [abs_neg])
  have him := prod _ _ _ _ _ (by linarith : 0 < Real.cosh μ) (by linarith) d2 (by linarith) d4 (by rwa [abs_neg])
  rw [abs_neg, mul_neg (Real.sinh μ)] at hre
  rw [abs_neg, mul_neg (Real.cosh μ)] at him
  have hζ0 := norm_nonneg ζ
  have n1 : Real.sinh μ ≤ ‖ζ‖ := by nlinarith [sq_nonneg (Real.sin x)]
  have n2 : Real.cosh μ * |Real.sin x| ≤ ‖ζ‖ := by
    have := Complex.abs_im_le_norm ζ
    rwa [p2, abs_neg, abs_mul, abs_of_pos (by linarith : 0 < Real.cosh μ)] at this
  refine (Complex.norm_le_abs_re_add_abs_im _).trans ?_
  simp only [Complex.sub_re, Complex.sub_im, p1, p2]
  have hKζ : 0 ≤ K * ‖ζ‖ := by positivity
  have hnK : K * ‖ζ‖ ≤ n * (K * ‖ζ‖) := by nlinarith
  have re1 : |r.rnd (m.sinh μ' * -r.rnd (m.cos x')) - -(Real.sinh μ * Real.cos x)| ≤ 28 * (K * ‖ζ‖) := by
    have i1 : h * Real.sinh μ ≤ K * ‖ζ‖ := mul_le_mul hhK n1 hS0.le hK0
    have i2 : K * Real.sinh μ * |Real.cos x| ≤ K * ‖ζ‖ * 1 :=
      mul_le_mul (mul_le_mul_of_nonneg_left n1 hK0) c5 (abs_nonneg _) hKζ
    linarith
  by_cases hj0 : j = 0
  · rw [hsin0 hj0, hsin1 hj0, r.zero, mul_zero, neg_zero, mul_zero, r.zero, sub_zero, abs_zero]
    linarith
  · have q1 := js hj0
    have q2 : 1 ≤ n * ‖ζ‖ := by
      have : |Real.sin x| ≤ Real.cosh μ * |Real.sin x| := by
        have := mul_le_mul_of_nonneg_right hC0 (abs_nonneg (Real.sin x))
        linarith
      rw [div_le_iff₀ (by linarith)] at q1
      have := mul_le_mul_of_nonneg_right (this.trans n2) (by linarith : (0 : ℝ) ≤ n)
      linarith
    have q3 : Real.cosh μ ≤ 2 * (n * ‖ζ‖) := by
      have : 1 * ‖ζ‖ ≤ n * ‖ζ‖ := mul_le_mul_of_nonneg_right hn1 hζ0
      linarith
    have im1 : |r.rnd (m.cosh μ' * -r.rnd (m.sin x')) - -(Real.cosh μ * Real.sin x)| ≤
        30 * (n * (K * ‖ζ‖)) + 12 * (K * ‖ζ‖) := by
      have i1 : h * Real.cosh μ ≤ K * (2 * (n * ‖ζ‖)) := mul_le_mul hhK q3 (by linarith) hK0
      have i2 : K * (Real.cosh μ * |Real.sin x|) ≤ K * ‖ζ‖ := mul_le_mul_of_nonneg_left n2 hK0
      linarith
    linarith

end SciRs.Rounded

import Verif.Lemmas.Rounded.PoleError
import Verif.Spec.Ripple
import Mathlib.Analysis.SpecialFunctions.Trigonometric.Series
import Mathlib.Analysis.Complex.ExponentialBounds
import Mathlib.Analysis.SpecialFunctions.Log.Deriv

/-! # The parameter of the Chebyshev prototype in floating point -/

namespace SciRs.Rounded

open SciRs.Spec

variable {r : Rounding} {m : Libm} {h σ : ℝ}

/-- `a'` is `a` up to a relative error of `δ`. -/
def Rel (δ a' a : ℝ) : Prop := |a' - a| ≤ δ * a

theorem Rel.mono {δ η a a' : ℝ} (ha : 0 ≤ a) (hη : δ ≤ η) (H : Rel δ a' a) : Rel η a' a :=
  H.trans (mul_le_mul_of_nonneg_right hη ha)

theorem Rel.le {δ a a' : ℝ} (ha : 0 ≤ a) (hδ : δ ≤ 0.05) (H : Rel δ a' a) : a' ≤ 1.05 * a := by
  have := (abs_le.mp H).2
  have h2 := mul_le_mul_of_nonneg_right hδ ha
  linarith

theorem Rel.ge {δ a a' : ℝ} (ha : 0 ≤ a) (hδ : δ ≤ 0.05) (H : Rel δ a' a) : 0.95 * a ≤ a' := by
  have := (abs_le.mp H).1
  have h2 := mul_le_mul_of_nonneg_right hδ ha
  linarith

theorem Rel.fl {δ a a' : ℝ} (S : Small r h σ) (ha : σ ≤ a) (hδ : δ ≤ 0.05) (H : Rel δ a' a) :
    Rel (δ + 1.05 * h) (r.rnd a') a := by
  have ha0 : 0 < a := lt_of_lt_of_le S.pos ha
  have h1 := H.le ha0.le hδ
  have h2 := H.ge ha0.le hδ
  have h3 := S.fl (x := a') (B := 1.05 * a) (by rw [abs_of_nonneg (by linarith)]; exact h1) (by linarith)
  have h4 := abs_add_le (r.rnd a' - a') (a' - a)
  rw [sub_add_sub_cancel] at h4
  unfold Rel at H ⊢
  linarith

theorem Rel.div {δ η a a' b b' : ℝ} (ha : 0 ≤ a) (hb : 0 < b) (hη : η ≤ 0.05) (hδ0 : 0 ≤ δ) (hη0 : 0 ≤ η)
    (H : Rel δ a' a) (K : Rel η b' b) : Rel (1.06 * (δ + η)) (a' / b') (a / b) := by
  have h1 := K.ge hb.le hη
  have hb' : 0 < b' := by linarith
  unfold Rel at *
  have e : a' / b' - a / b = ((a' - a) * b - a * (b' - b)) / (b' * b) := by field_simp; ring
  rw [e, abs_div, abs_of_pos (by positivity : 0 < b' * b), div_le_iff₀ (by positivity)]
  refine (abs_sub _ _).trans ?_
  rw [abs_mul, abs_mul, abs_of_pos hb, abs_of_nonneg ha]
  have i1 := mul_le_mul_of_nonneg_right H hb.le
  have i2 := mul_le_mul_of_nonneg_left K ha
  have i3 : 1.06 * (δ + η) * (a / b) * (0.95 * b * b) ≤ 1.06 * (δ + η) * (a / b) * (b' * b) := by gcongr
  have i4 : 1.06 * (δ + η) * (a / b) * (0.95 * b * b) = 1.06 * 0.95 * ((δ + η) * (a * b)) := by field_simp
  have i5 : 0 ≤ (δ + η) * (a * b) := by positivity
  linarith

theorem Rel.sqrt {δ a a' : ℝ} (ha : 0 < a) (hδ : δ ≤ 0.05) (H : Rel δ a' a) : Rel δ (√a') (√a) := by
  have h1 := H.ge ha.le hδ
  unfold Rel at *
  have s0 : 0 < √a := Real.sqrt_pos.mpr ha
  have s1 := Real.sqrt_nonneg a'
  have e : a' - a = (√a' - √a) * (√a' + √a) := by
    nlinarith [Real.sq_sqrt ha.le, Real.sq_sqrt (by linarith : 0 ≤ a')]
  rw [e, abs_mul, abs_of_pos (by linarith : 0 < √a' + √a)] at H
  have h2 : |√a' - √a| * √a ≤ δ * √a * √a := by
    have i1 : |√a' - √a| * √a ≤ |√a' - √a| * (√a' + √a) := mul_le_mul_of_nonneg_left (by linarith) (abs_nonneg _)
    rw [mul_assoc, Real.mul_self_sqrt ha.le]
    linarith
  exact le_of_mul_le_mul_right h2 s0

/-! ### Hyperbolic functions -/

theorem sinh_mul_le {l s : ℝ} (h0 : 0 ≤ l) (h1 : l ≤ 1) (hs : 0 ≤ s) : Real.sinh (l * s) ≤ l * Real.sinh s := by
  refine hasSum_le (fun k => ?_) (Real.hasSum_sinh (l * s)) ((Real.hasSum_sinh s).mul_left l)
  rw [mul_pow, mul_div_assoc]
  refine mul_le_mul_of_nonneg_right ?_ (by positivity)
  rw [pow_succ]
  have := pow_le_one₀ h0 h1 (n := 2 * k)
  nlinarith

theorem sinh_le_mul_cosh {s : ℝ} (hs : 0 ≤ s) : Real.sinh s ≤ s * Real.cosh s := by
  refine hasSum_le (fun k => ?_) (Real.hasSum_sinh s) ((Real.hasSum_cosh s).mul_left s)
  rw [pow_succ, mul_comm, mul_div_assoc]
  refine mul_le_mul_of_nonneg_left ?_ hs
  have hk : (0 : ℝ) < (2 * k).factorial := by positivity
  refine div_le_div_of_nonneg_left (by positivity) hk ?_
  exact_mod_cast Nat.factorial_le (Nat.le_succ (2 * k))

theorem cosh_sub_one_le {q : ℝ} (hq : |q| ≤ 1) : Real.cosh q - 1 ≤ q ^ 2 := by
  have h1 := Real.cosh_le_exp_half_sq q
  have hq2 : q ^ 2 ≤ 1 := by rw [← sq_abs]; nlinarith [abs_nonneg q]
  have h2 := Real.abs_exp_sub_one_le (x := q ^ 2 / 2) (by rw [abs_of_nonneg (by positivity)]; linarith)
  rw [abs_of_nonneg (by positivity : 0 ≤ q ^ 2 / 2)] at h2
  have := (abs_le.mp h2).2
  linarith

theorem abs_sinh_le {q : ℝ} (hq : |q| ≤ 1 / 10) : |Real.sinh q| ≤ 1.01 * |q| := by
  have h1 := sinh_le_mul_cosh (abs_nonneg q)
  have h2 := cosh_sub_one_le (q := q) (by linarith)
  rw [Real.cosh_abs] at h1
  rw [Real.abs_sinh]
  have : q ^ 2 ≤ 0.01 := by rw [← sq_abs]; nlinarith [abs_nonneg q]
  nlinarith [abs_nonneg q]

theorem Rel.arsinh {δ y y' : ℝ} (hy : 0 < y) (hδ0 : 0 ≤ δ) (hδ : δ ≤ 0.05) (H : Rel δ y' y) :
    Rel δ (Real.arsinh y') (Real.arsinh y) := by
  have h1 := H.ge hy.le hδ
  have hy' : 0 < y' := by linarith
  have a0 : 0 < Real.arsinh y := Real.arsinh_pos_iff.mpr hy
  have a1 : 0 < Real.arsinh y' := Real.arsinh_pos_iff.mpr hy'
  obtain ⟨b1, b2⟩ := abs_le.mp H
  refine abs_le.mpr ⟨?_, ?_⟩
  · have k := sinh_mul_le (l := 1 - δ) (by linarith) (by linarith) a0.le
    rw [Real.sinh_arsinh] at k
    have : Real.sinh ((1 - δ) * Real.arsinh y) ≤ Real.sinh (Real.arsinh y') := by
      rw [Real.sinh_arsinh]; linarith
    have := Real.sinh_le_sinh.mp this
    linarith
  · have k := sinh_mul_le (l := 1 / (1 + δ)) (by positivity) (by rw [div_le_one (by linarith)]; linarith) a1.le
    rw [Real.sinh_arsinh] at k
    have : Real.sinh (1 / (1 + δ) * Real.arsinh y') ≤ Real.sinh (Real.arsinh y) := by
      rw [Real.sinh_arsinh]
      refine k.trans ?_
      rw [one_div_mul_eq_div, div_le_iff₀ (by linarith)]
      linarith
    have := Real.sinh_le_sinh.mp this
    rw [one_div_mul_eq_div, div_le_iff₀ (by linarith)] at this
    linarith

theorem Rel.sinh {δ s s' : ℝ} (hs : 0 < s) (hδ0 : 0 ≤ δ) (hq : s * δ ≤ 0.01) (H : Rel δ s' s) :
    Rel (1.03 * δ * (1 + s)) (Real.sinh s') (Real.sinh s) := by
  unfold Rel at *
  obtain ⟨q, hqd⟩ : ∃ q, q = s' - s := ⟨_, rfl⟩
  rw [← hqd] at H
  have hs' : s' = s + q := by rw [hqd]; ring
  have hq1 : |q| ≤ 0.01 := by linarith
  have S0 : 0 < Real.sinh s := Real.sinh_pos_iff.mpr hs
  have k1 := abs_sinh_le (q := q) (by linarith)
  have k2 := cosh_sub_one_le (q := q) (by linarith)
  have k3 := Real.one_le_cosh q
  have k4 : Real.cosh s * s ≤ (1 + s) * Real.sinh s := by
    have i1 : Real.cosh s - Real.sinh s ≤ 1 := by
      rw [Real.cosh_sub_sinh, Real.exp_le_one_iff]; linarith
    have i2 : s ≤ Real.sinh s := Real.self_le_sinh_iff.mpr hs.le
    nlinarith
  rw [hs', Real.sinh_add,
    show Real.sinh s * Real.cosh q + Real.cosh s * Real.sinh q - Real.sinh s
      = Real.sinh s * (Real.cosh q - 1) + Real.cosh s * Real.sinh q by ring]
  refine (abs_add_le _ _).trans ?_
  rw [abs_mul, abs_mul, abs_of_pos S0, abs_of_nonneg (by linarith : 0 ≤ Real.cosh q - 1),
    abs_of_pos (Real.cosh_pos s)]
  have i1 : Real.cosh s * |Real.sinh q| ≤ Real.cosh s * (1.01 * (δ * s)) :=
    mul_le_mul_of_nonneg_left (by linarith) (Real.cosh_pos s).le
  have i2 : q ^ 2 ≤ 0.01 * (δ * s) := by
    rw [← sq_abs, sq]
    exact mul_le_mul hq1 H (abs_nonneg _) (by norm_num)
  have i3 : Real.sinh s * (Real.cosh q - 1) ≤ Real.sinh s * (0.01 * (δ * s)) :=
    mul_le_mul_of_nonneg_left (by linarith) S0.le
  have i4 := mul_le_mul_of_nonneg_left k4 hδ0
  have i5 : 0 ≤ δ * Real.sinh s := by positivity
  have i6 : 0 ≤ δ * Real.sinh s * s := by positivity
  nlinarith

theorem Rel.cosh {δ s s' : ℝ} (hs : 0 < s) (hδ0 : 0 ≤ δ) (hq : s * δ ≤ 0.01) (H : Rel δ s' s) :
    Rel (1.02 * (δ * s)) (Real.cosh s') (Real.cosh s) := by
  unfold Rel at *
  obtain ⟨q, hqd⟩ : ∃ q, q = s' - s := ⟨_, rfl⟩
  rw [← hqd] at H
  have hs' : s' = s + q := by rw [hqd]; ring
  have hq1 : |q| ≤ 0.01 := by linarith
  have S0 : 0 < Real.sinh s := Real.sinh_pos_iff.mpr hs
  have k1 := abs_sinh_le (q := q) (by linarith)
  have k2 := cosh_sub_one_le (q := q) (by linarith)
  have k3 := Real.one_le_cosh q
  have k4 : Real.sinh s ≤ Real.cosh s := (Real.sinh_lt_cosh s).le
  have C0 := Real.cosh_pos s
  rw [hs', Real.cosh_add,
    show Real.cosh s * Real.cosh q + Real.sinh s * Real.sinh q - Real.cosh s
      = Real.cosh s * (Real.cosh q - 1) + Real.sinh s * Real.sinh q by ring]
  refine (abs_add_le _ _).trans ?_
  rw [abs_mul, abs_mul, abs_of_pos S0, abs_of_nonneg (by linarith : 0 ≤ Real.cosh q - 1),
    abs_of_pos (Real.cosh_pos s)]
  have i1 : Real.sinh s * |Real.sinh q| ≤ Real.cosh s * (1.01 * (δ * s)) :=
    mul_le_mul k4 (by linarith) (abs_nonneg _) C0.le
  have i2 : q ^ 2 ≤ 0.01 * (δ * s) := by
    rw [← sq_abs, sq]
    exact mul_le_mul hq1 H (abs_nonneg _) (by norm_num)
  have i3 : Real.cosh s * (Real.cosh q - 1) ≤ Real.cosh s * (0.01 * (δ * s)) :=
    mul_le_mul_of_nonneg_left (by linarith) C0.le
  linarith

/-! ### From the ripple to the parameter -/

/-- The exact ripple factor. -/
noncomputable def exRip (rp : ℝ) : ℝ := √((10 : ℝ) ^ (rp / 10) - 1)

/-- The computed ripple factor. -/
noncomputable def flRip (r : Rounding) (m : Libm) (rp : ℝ) : ℝ :=
  r.rnd √(r.rnd (m.powf 10 (r.rnd (rp / 10)) - 1))

/-- The exact parameter of the prototype. -/
noncomputable def exMu (n : ℕ) (rp : ℝ) : ℝ := Real.arsinh (1 / exRip rp) / n

/-- The computed parameter of the prototype. -/
noncomputable def flMu (r : Rounding) (m : Libm) (n : ℕ) (rp : ℝ) : ℝ :=
  r.rnd (m.asinh (r.rnd (1 / flRip r m rp)) / r.rnd ((n : ℤ) : ℝ))

theorem ripple_facts {rp : ℝ} (hrp : 0 < rp) :
    0 < (10 : ℝ) ^ (rp / 10) - 1 ∧ 1 ≤ rippleCond rp ∧
    (10 : ℝ) ^ (rp / 10) * (1 + rp) = rippleCond rp * ((10 : ℝ) ^ (rp / 10) - 1) ∧
    1 / rippleCond rp ≤ (10 : ℝ) ^ (rp / 10) - 1 ∧ 1 / rippleCond rp ≤ 4 * (rp / 10) ∧
    1 + 1 / ((10 : ℝ) ^ (rp / 10) - 1) ≤ rippleCond rp ∧
    0 < rippleFloor rp ∧ rippleFloor rp ≤ 1 ∧ rippleFloor rp ^ 2 * (10 : ℝ) ^ (rp / 10) = 1 := by
  have hG : 1 < (10 : ℝ) ^ (rp / 10) := Real.one_lt_rpow (by norm_num) (by positivity)
  have hinv : (10 : ℝ) ^ (-rp / 10) = ((10 : ℝ) ^ (rp / 10))⁻¹ := by
    rw [neg_div, Real.rpow_neg (by norm_num)]
  have hlog : Real.log 10 < 4 := by
    have h2 := Real.log_two_lt_d9
    have : Real.log 10 < Real.log (2 ^ 4) := Real.log_lt_log (by norm_num) (by norm_num)
    rw [Real.log_pow] at this
    push_cast at this
    linarith
  have hsub : 1 - ((10 : ℝ) ^ (rp / 10))⁻¹ ≤ 4 * (rp / 10) := by
    have h1 : (10 : ℝ) ^ (-(rp / 10)) = Real.exp (Real.log 10 * -(rp / 10)) := Real.rpow_def_of_pos (by norm_num) _
    have h2 := Real.add_one_le_exp (Real.log 10 * -(rp / 10))
    rw [← h1, Real.rpow_neg (by norm_num)] at h2
    have : Real.log 10 * (rp / 10) ≤ 4 * (rp / 10) := mul_le_mul_of_nonneg_right hlog.le (by positivity)
    linarith
  have hfl : rippleFloor rp ^ 2 * (10 : ℝ) ^ (rp / 10) = 1 := by
    unfold rippleFloor
    rw [← Real.rpow_natCast, ← Real.rpow_mul (by norm_num), ← Real.rpow_add (by norm_num)]
    rw [show -rp / 20 * ((2 : ℕ) : ℝ) + rp / 10 = 0 by push_cast; ring, Real.rpow_zero]
  have hfp : 0 < rippleFloor rp := Real.rpow_pos_of_pos (by norm_num) _
  have hf1 : rippleFloor rp ≤ 1 :=
    Real.rpow_le_one_of_one_le_of_nonpos (by norm_num) (by linarith)
  unfold rippleCond
  rw [hinv]
  obtain ⟨G, hGd⟩ : ∃ G, G = (10 : ℝ) ^ (rp / 10) := ⟨_, rfl⟩
  rw [← hGd] at hG hsub hfl ⊢
  have hG0 : 0 < G := by linarith
  have hQ : 0 < G - 1 := by linarith
  have e : 1 - G⁻¹ = (G - 1) / G := by field_simp
  rw [e] at hsub ⊢
  have hd : 0 < (G - 1) / G := by positivity
  have hd1 : (G - 1) / G ≤ 1 := by rw [div_le_one hG0]; linarith
  have hk : 1 / ((1 + rp) / ((G - 1) / G)) ≤ (G - 1) / G := by
    rw [one_div_div, div_le_iff₀ (by linarith)]
    nlinarith
  refine ⟨hQ, ?_, ?_, ?_, ?_, ?_, hfp, hf1, hfl⟩
  · rw [le_div_iff₀ hd]; linarith
  · field_simp
  · refine hk.trans ?_
    rw [div_le_iff₀ hG0]; nlinarith
  · exact hk.trans hsub
  · rw [le_div_iff₀ hd]
    have : (1 + 1 / (G - 1)) * ((G - 1) / G) = 1 := by field_simp; ring
    rw [this]; linarith

theorem rip_err (S : Small r h σ) (hm : m.AccurateHyp r h) {rp : ℝ} (hrp : 0 < rp)
    (hσ : 4 * σ ≤ 1 / rippleCond rp) (hκ : rippleCond rp * h ≤ 1 / 4096) :
    Rel (3.2 * (rippleCond rp * h)) (flRip r m rp) (exRip rp) := by
  obtain ⟨hQ, k1, k2, k3, k4, -⟩ := ripple_facts hrp
  have h0 := S.h_nonneg
  have hs := S.pos
  unfold flRip exRip
  obtain ⟨κ, hκd⟩ : ∃ κ, κ = rippleCond rp := ⟨_, rfl⟩
  rw [← hκd] at k1 k2 k3 k4 hσ hκ ⊢
  have hhκ : h ≤ κ * h := by nlinarith
  obtain ⟨x, hx⟩ : ∃ x, x = rp / 10 := ⟨_, rfl⟩
  rw [← hx] at hQ k2 k3 k4 ⊢
  have hx0 : 0 < x := by rw [hx]; positivity
  have hxr : rp = 10 * x := by rw [hx]; ring
  obtain ⟨x', hx'⟩ : ∃ x', x' = r.rnd x := ⟨_, rfl⟩
  have ex : |x' - x| ≤ h * x := by
    rw [hx']
    exact S.fl (by rw [abs_of_pos hx0]) (by linarith)
  rw [← hx']
  have hx0' : 0 ≤ x' := by
    have := (abs_le.mp ex).1
    have : h * x ≤ 1 * x := mul_le_mul_of_nonneg_right (by linarith) hx0.le
    linarith
  have hlog : Real.log 10 < 2.32 := by
    have h2 := Real.log_two_lt_d9
    have h3 : Real.log 10 < Real.log (2 ^ (10 / 3 : ℝ)) := by
      refine Real.log_lt_log (by norm_num) ?_
      have : (10 : ℝ) ^ (3 : ℝ) < ((2 : ℝ) ^ (10 / 3 : ℝ)) ^ (3 : ℝ) := by
        rw [← Real.rpow_mul (by norm_num)]
        norm_num
      exact (Real.rpow_lt_rpow_iff (by norm_num) (by positivity) (by norm_num)).mp this
    rw [Real.log_rpow (by norm_num)] at h3
    linarith
  have hlog0 : 0 < Real.log 10 := Real.log_pos (by norm_num)
  have hhx : h * x ≤ 1 / 4096 := by
    have i1 : x ≤ κ := by
      have j1 : (10 : ℝ) ^ x * (1 + rp) ≤ κ * (10 : ℝ) ^ x := by
        rw [k2]; exact mul_le_mul_of_nonneg_left (by linarith) (by linarith)
      have j2 : (0 : ℝ) < (10 : ℝ) ^ x := Real.rpow_pos_of_pos (by norm_num) _
      have j3 : 1 + rp ≤ κ := by
        rw [mul_comm] at j1
        exact le_of_mul_le_mul_right j1 j2
      linarith
    nlinarith
  have eG : |(10 : ℝ) ^ x' - (10 : ℝ) ^ x| ≤ 4.64 * (h * x) * (10 : ℝ) ^ x := by
    have j2 : (0 : ℝ) < (10 : ℝ) ^ x := Real.rpow_pos_of_pos (by norm_num) _
    have e1 : (10 : ℝ) ^ x' = (10 : ℝ) ^ x * Real.exp (Real.log 10 * (x' - x)) := by
      rw [← Real.rpow_def_of_pos (by norm_num), ← Real.rpow_add (by norm_num)]
      congr 1; ring
    rw [e1, show (10 : ℝ) ^ x * Real.exp (Real.log 10 * (x' - x)) - (10 : ℝ) ^ x
      = (Real.exp (Real.log 10 * (x' - x)) - 1) * (10 : ℝ) ^ x by ring, abs_mul, abs_of_pos j2]
    refine mul_le_mul_of_nonneg_right ?_ j2.le
    have j4 : |Real.log 10 * (x' - x)| ≤ 2.32 * (h * x) := by
      rw [abs_mul, abs_of_pos hlog0]
      exact mul_le_mul hlog.le ex (abs_nonneg _) (by norm_num)
    have := Real.abs_exp_sub_one_le (x := Real.log 10 * (x' - x)) (by linarith)
    linarith
  have eP := hm.powf x' hx0'
  obtain ⟨G, hG⟩ : ∃ G, G = (10 : ℝ) ^ x := ⟨_, rfl⟩
  have hG0 : 0 < G := by rw [hG]; exact Real.rpow_pos_of_pos (by norm_num) _
  rw [← hG] at hQ k2 k3 eG ⊢
  have hG' : (10 : ℝ) ^ x' ≤ 1.01 * G := by
    have := (abs_le.mp eG).2
    have j := mul_le_mul_of_nonneg_right hhx hG0.le
    linarith
  have e1 : Rel (1.01 * (κ * h)) (m.powf 10 x' - 1) (G - 1) := by
    unfold Rel
    have i1 := abs_add_le (m.powf 10 x' - (10 : ℝ) ^ x') ((10 : ℝ) ^ x' - G)
    rw [sub_add_sub_cancel] at i1
    rw [sub_sub_sub_cancel_right]
    have i2 := mul_le_mul_of_nonneg_left hG' h0
    have i3 : 1.01 * (κ * h) * (G - 1) = 1.01 * (h * (G * (1 + rp))) := by rw [k2]; ring
    rw [i3, hxr]
    have i4 : 0 ≤ h * x * G := by positivity
    linarith
  have e2 := (e1.fl S (by linarith) (by linarith)).sqrt hQ (by linarith)
  have hr1 : 1 / κ ≤ √(G - 1) := by
    refine Real.le_sqrt_of_sq_le ?_
    have : (1 / κ) ^ 2 ≤ 1 / κ := by
      have j1 : 1 / κ ≤ 1 := by rw [div_le_one (by linarith)]; exact k1
      have j2 : 0 ≤ 1 / κ := by positivity
      nlinarith
    linarith
  have e3 := e2.fl S (by linarith) (by linarith)
  exact e3.mono (Real.sqrt_nonneg _) (by linarith)

theorem mu_facts {n : ℕ} (hn : n ≠ 0) {rp : ℝ} (hrp : 0 < rp) :
    0 < exRip rp ∧ 0 < exMu n rp ∧ rippleFloor rp ≤ Real.arsinh (1 / exRip rp) ∧ rippleFloor rp / n ≤ exMu n rp ∧
    Real.cosh (exMu n rp) ^ 2 ≤ rippleCond rp ∧ exMu n rp ^ 2 + 1 ≤ rippleCond rp ∧ rippleFloor rp ≤ 1 / exRip rp := by
  obtain ⟨hQ, k1, k2, k3, k4, k5, k6, k7, k8⟩ := ripple_facts hrp
  have hn1 : (1 : ℝ) ≤ n := by exact_mod_cast Nat.one_le_iff_ne_zero.mpr hn
  have hn0 : (0 : ℝ) < n := by linarith
  have hE : 0 < exRip rp := Real.sqrt_pos.mpr hQ
  have hE2 : exRip rp ^ 2 = (10 : ℝ) ^ (rp / 10) - 1 := Real.sq_sqrt hQ.le
  have hy : 0 < 1 / exRip rp := by positivity
  obtain ⟨a, ha⟩ : ∃ a, a = Real.arsinh (1 / exRip rp) := ⟨_, rfl⟩
  have ha0 : 0 < a := by rw [ha]; exact Real.arsinh_pos_iff.mpr hy
  have hsa : Real.sinh a = 1 / exRip rp := by rw [ha, Real.sinh_arsinh]
  have hca : Real.cosh a ^ 2 = 1 + 1 / ((10 : ℝ) ^ (rp / 10) - 1) := by
    rw [Real.cosh_sq, hsa, div_pow, hE2]; ring
  have hcp := Real.cosh_pos a
  have hg : rippleFloor rp * Real.cosh a = Real.sinh a := by
    have h1 : (rippleFloor rp * Real.cosh a) ^ 2 = Real.sinh a ^ 2 := by
      rw [mul_pow, hca, hsa, div_pow, hE2]
      obtain ⟨G, hG⟩ : ∃ G, G = (10 : ℝ) ^ (rp / 10) := ⟨_, rfl⟩
      rw [← hG] at hQ k8 ⊢
      have : 1 + 1 / (G - 1) = G / (G - 1) := by field_simp; ring
      rw [this, ← mul_div_assoc, k8, one_pow]
    have h2 : 0 < Real.sinh a := Real.sinh_pos_iff.mpr ha0
    exact (sq_eq_sq₀ (by positivity) h2.le).mp h1
  have hfl : rippleFloor rp ≤ a := by
    have := sinh_le_mul_cosh ha0.le
    rw [← hg] at this
    exact le_of_mul_le_mul_right this hcp
  have hmu : exMu n rp = a / n := by rw [exMu, ha]
  have hmu0 : 0 < a / n := by positivity
  have hle : a / n ≤ a := div_le_self ha0.le hn1
  have hcm : Real.cosh (a / n) ≤ Real.cosh a := by
    rw [Real.cosh_le_cosh, abs_of_pos hmu0, abs_of_pos ha0]; exact hle
  have hcc : Real.cosh (a / n) ^ 2 ≤ rippleCond rp := by
    refine (pow_le_pow_left₀ (Real.cosh_pos _).le hcm 2).trans ?_
    rw [hca]; exact k5
  refine ⟨hE, by rw [hmu]; exact hmu0, by rw [← ha]; exact hfl, ?_, by rw [hmu]; exact hcc, ?_, ?_⟩
  · rw [hmu]; exact div_le_div_of_nonneg_right hfl hn0.le
  · rw [hmu]
    have := Real.cosh_sq (a / n)
    have i1 : a / n ≤ Real.sinh (a / n) := Real.self_le_sinh_iff.mpr hmu0.le
    nlinarith
  · rw [← hsa, ← hg]
    have := Real.one_le_cosh a
    nlinarith

theorem mu_err (S : Small r h σ) (hm : m.AccurateHyp r h) {n : ℕ} (hn : n ≠ 0) {rp : ℝ} (hrp : 0 < rp)
    (hσ : 4 * σ ≤ 1 / rippleCond rp) (hσ2 : σ ≤ rippleFloor rp / n) (hκ : rippleCond rp * h ≤ 1 / 4096) :
    Rel (9.2 * (rippleCond rp * h)) (flMu r m n rp) (exMu n rp) := by
  obtain ⟨hE, hmu, f1, f2, f3, f4, f5⟩ := mu_facts hn hrp
  obtain ⟨-, k1, -, -, -, -, g0, g1, -⟩ := ripple_facts hrp
  have h0 := S.h_nonneg
  have hs := S.pos
  have e1 := rip_err S hm hrp hσ hκ
  have hn1 : (1 : ℝ) ≤ n := by exact_mod_cast Nat.one_le_iff_ne_zero.mpr hn
  have hfn : rippleFloor rp / n ≤ rippleFloor rp := div_le_self g0.le hn1
  generalize rippleCond rp = κ at *
  have hhκ : h ≤ κ * h := by nlinarith
  have hσ1 : σ ≤ 1 := by linarith
  have one : Rel 0 (1 : ℝ) 1 := by simp [Rel]
  have e2 := Rel.div (by norm_num) hE (by linarith) le_rfl (by positivity) one e1
  have e3 := e2.fl S (by linarith) (by linarith)
  have hy : 0 < 1 / exRip rp := by positivity
  have e4 := e3.arsinh hy (by positivity) (by linarith)
  have hy' : 0 < r.rnd (1 / flRip r m rp) := by
    have := e3.ge hy.le (by linarith)
    linarith
  have e5 := hm.asinh _ hy'
  obtain ⟨a, ha⟩ : ∃ a, a = Real.arsinh (1 / exRip rp) := ⟨_, rfl⟩
  rw [← ha] at e4 f1
  have ha0 : 0 < a := by linarith
  have e6 : Rel (6.6 * (κ * h)) (m.asinh (r.rnd (1 / flRip r m rp))) a := by
    have i1 := e4.le ha0.le (by linarith)
    have i2 := S.t_le
    have i3 : (h - r.u) * σ ≤ h * a := by
      have j1 := r.u_nonneg
      have j2 : (h - r.u) * σ ≤ h * σ := mul_le_mul_of_nonneg_right (by linarith) hs.le
      have j3 : h * σ ≤ h * a := mul_le_mul_of_nonneg_left (by linarith) h0
      linarith
    have i4 := mul_le_mul_of_nonneg_left i1 h0
    unfold Rel at e4 ⊢
    have i5 := abs_add_le (m.asinh (r.rnd (1 / flRip r m rp)) - Real.arsinh (r.rnd (1 / flRip r m rp)))
      (Real.arsinh (r.rnd (1 / flRip r m rp)) - a)
    rw [sub_add_sub_cancel] at i5
    have i6 : h * a ≤ κ * h * a := mul_le_mul_of_nonneg_right hhκ ha0.le
    have i7 : (1.06 * (0 + 3.2 * (κ * h)) + 1.05 * h) * a = 3.392 * (κ * h * a) + 1.05 * (h * a) := by ring
    rw [i7] at e4
    have i8 : 0 ≤ κ * h * a := by positivity
    linarith
  have e7 : Rel h (r.rnd ((n : ℤ) : ℝ)) n := by
    unfold Rel
    have := S.fl (x := ((n : ℤ) : ℝ)) (B := n) (by push_cast; rw [abs_of_nonneg (by linarith)]) (by linarith)
    push_cast at this ⊢
    exact this
  have e8 := Rel.div ha0.le (by linarith) (by linarith) (by positivity) h0 e6 e7
  have hmu2 : exMu n rp = a / n := by rw [exMu, ha]
  rw [← hmu2] at e8
  have e9 := e8.fl S (by linarith) (by linarith)
  exact e9.mono hmu.le (by linarith)

end SciRs.Rounded

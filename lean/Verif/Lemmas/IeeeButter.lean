import Verif.Lemmas.IeeeExact

/-! # Butterworth low-pass and high-pass designs on IEEE numbers: the intermediate results -/

namespace SciRs.IeeeDesign

open SciRs.Spec SciRs.Spec.Ieee SciRs.Rounded SciRs.Design

variable {f : Format} {L : Lib f} {m : Libm} {h e e' : ℝ} {n : ℕ}

theorem exWarp_le (h0 : 0 < e) (h1 : e < 1) : exWarp e ≤ 4 * (1 / (1 - e)) := by
  have hpi := Real.pi_pos
  have hpi2 := Real.two_le_pi
  have hx0 : 0 < Real.pi * e / 2 := by positivity
  have hx2 : Real.pi * e / 2 < Real.pi / 2 := by nlinarith
  have t1 := Real.le_tan hx0.le hx2
  have t2 := Real.le_tan (x := Real.pi / 2 - Real.pi * e / 2) (by linarith) (by linarith)
  rw [Real.tan_pi_div_two_sub] at t2
  unfold exWarp
  obtain ⟨T, hT⟩ : ∃ T, T = Real.tan (Real.pi * e / 2) := ⟨_, rfl⟩
  rw [← hT] at t1 t2 ⊢
  have hT0 : 0 < T := lt_of_lt_of_le hx0 t1
  have a2 : 1 - e ≤ T⁻¹ := by nlinarith
  have : T ≤ 1 / (1 - e) := by
    rw [le_div_iff₀ (by linarith)]
    calc T * (1 - e) ≤ T * T⁻¹ := mul_le_mul_of_nonneg_left a2 hT0.le
      _ = 1 := mul_inv_cancel₀ hT0.ne'
  linarith

theorem index_le {j : ℤ} (hj : j ∈ stepRange (-(n : ℤ) + 1) n) : |(j : ℝ)| ≤ n := by
  obtain ⟨j1, j2⟩ := mem_stepRange_sym hj
  rw [← Int.cast_abs]
  have : |j| ≤ (n : ℤ) := by rcases abs_cases j with h | h <;> omega
  exact_mod_cast this

/-- What the lemmas of this file assume. -/
structure Setting (f : Format) (L : Lib f) (m : Libm) (h e e' : ℝ) (n : ℕ) : Prop where
  hr : f.r.Nearest
  hm : m.Accurate f.r h
  hL : Lib.Agrees L m
  hn : n ≠ 0
  he : e < 1
  S' : Small f.r h (e / 4)
  hh : h ≤ (1 - e) / 1024
  hee : |e' - e| ≤ h * e
  hT : 2000 * (n + (1 / (1 - e)) ^ 2) ≤ f.top

namespace Setting

variable (A : Setting f L m h e e' n)

include A

theorem S : Small f.r h e := by
  have := A.S'.pos
  exact A.S'.mono (by linarith)

theorem h_le : h ≤ 1 / 1024 := by
  have := A.hh
  have := A.S.pos
  linarith

theorem u_le : f.r.u ≤ 1 / 1024 := A.S.u_le.trans A.h_le

theorem t_le : f.r.t ≤ 1 / 1024 := by
  have h1 := A.S.t_le
  have h2 : (h - f.r.u) * e ≤ (h - f.r.u) * 1 :=
    mul_le_mul_of_nonneg_left A.he.le (sub_nonneg.mpr A.S.u_le)
  have := f.r.u_nonneg
  have := A.h_le
  linarith

theorem hu1 : f.r.u ≤ 1 := A.u_le.trans (by norm_num)
theorem ht1 : f.r.t ≤ 1 := A.t_le.trans (by norm_num)

theorem one_le_c : 1 ≤ 1 / (1 - e) := by
  rw [le_div_iff₀ (by linarith [A.he])]
  linarith [A.S.pos]

theorem one_le_n : (1 : ℝ) ≤ n := by exact_mod_cast Nat.one_le_iff_ne_zero.mpr A.hn

/-- Numbers that are small enough. -/
theorem top_n : 2000 * (n : ℝ) ≤ f.top := by
  have := A.hT
  have := sq_nonneg (1 / (1 - e))
  linarith

theorem top_c : 2000 * (1 / (1 - e)) ^ 2 ≤ f.top := by
  have := A.hT
  have := A.one_le_n
  linarith

theorem top_c' : 2000 * (1 / (1 - e)) ≤ f.top := by
  have := A.top_c
  have := A.one_le_c
  nlinarith

theorem top_1 : 2000 ≤ f.top := by
  have := A.top_n
  have := A.one_le_n
  linarith

theorem H_nonneg : 0 ≤ h / (1 - e) := div_nonneg A.S.h_nonneg (by linarith [A.he])

theorem H_le : h / (1 - e) ≤ 1 / 1024 := by
  rw [div_le_iff₀ (by linarith [A.he])]
  linarith [A.hh]

theorem h_le_H : h ≤ h / (1 - e) := by
  rw [le_div_iff₀ (by linarith [A.he])]
  have := mul_nonneg A.S.h_nonneg A.S.pos.le
  linarith

theorem is_angle {j : ℤ} (hj : j ∈ stepRange (-(n : ℤ) + 1) n) :
    Is (L.pi * L.ofInt j / L.ofInt (2 * n)) (flAngle f.r m n j) := by
  have jn := index_le hj
  have n1 := A.one_le_n
  have T := A.top_n
  have r1 := rnd_size A.hu1 A.ht1 jn
  have h2n : |(((2 * n : ℤ)) : ℝ)| ≤ 2 * n := by
    push_cast
    rw [abs_of_nonneg (by positivity)]
  have r2 := rnd_size A.hu1 A.ht1 h2n
  have hp : |m.pi| ≤ 3.2 := by
    have a := A.hm.pi
    have := A.h_le
    have p1 := Real.pi_lt_d2
    have p0 := Real.pi_pos
    have a1 := abs_sub_abs_le_abs_sub m.pi Real.pi
    rw [abs_of_pos p0] at a1
    have : h * Real.pi ≤ 1 / 1024 * Real.pi := mul_le_mul_of_nonneg_right A.h_le p0.le
    linarith
  have r3 : |m.pi * f.r.rnd j| ≤ 3.2 * (2 * n + 1) := by
    rw [abs_mul]
    exact mul_le_mul hp r1 (abs_nonneg _) (by norm_num)
  have r4 := rnd_size A.hu1 A.ht1 r3
  have r5 : f.r.rnd ((2 * n : ℤ) : ℝ) ≠ 0 := by
    have : f.r.rnd 1 ≤ f.r.rnd ((2 * n : ℤ) : ℝ) := f.r.mono _ _ (by push_cast; linarith)
    rw [A.hr.one] at this
    linarith
  refine Is.div (Is.mul A.hL.pi (A.hL.ofInt _ (by linarith)) (by linarith)) (A.hL.ofInt _ (by linarith)) r5 ?_
  have a := angle_err A.S A.he.le A.h_le A.hm (Nat.one_le_iff_ne_zero.mpr A.hn) jn
  change |flAngle f.r m n j| ≤ _
  have b : |Real.pi * j / (2 * n)| ≤ 2 := by
    rw [abs_div, abs_mul, abs_of_pos Real.pi_pos, abs_of_pos (by positivity : (0 : ℝ) < 2 * n), div_le_iff₀ (by positivity)]
    nlinarith [Real.pi_lt_d2, Real.pi_pos]
  have c := abs_sub_abs_le_abs_sub (flAngle f.r m n j) (Real.pi * j / (2 * n))
  have := A.h_le
  have := A.top_1
  linarith

theorem angle_le {j : ℤ} (hj : j ∈ stepRange (-(n : ℤ) + 1) n) : |flAngle f.r m n j| ≤ 4 := by
  have jn := index_le hj
  have n1 := A.one_le_n
  have a := angle_err A.S A.he.le A.h_le A.hm (Nat.one_le_iff_ne_zero.mpr A.hn) jn
  have b : |Real.pi * j / (2 * n)| ≤ 2 := by
    rw [abs_div, abs_mul, abs_of_pos Real.pi_pos, abs_of_pos (by positivity : (0 : ℝ) < 2 * n), div_le_iff₀ (by positivity)]
    nlinarith [Real.pi_lt_d2, Real.pi_pos]
  have c := abs_sub_abs_le_abs_sub (flAngle f.r m n j) (Real.pi * j / (2 * n))
  have := A.h_le
  linarith

/-- A prototype pole. -/
theorem is_proto {j : ℤ} (hj : j ∈ stepRange (-(n : ℤ) + 1) n) :
    CIs (L.cexp ⟨0, L.pi * L.ofInt j / L.ofInt (2 * n)⟩).neg (flProto f.r m n j) := by
  have a := A.angle_le hj
  have T := A.top_1
  have c1 : |m.exp 0 * m.cos (flAngle f.r m n j)| ≤ 2 := by
    rw [A.hm.exp_zero, one_mul]
    have c := A.hm.cos _ a
    have c2 := abs_sub_abs_le_abs_sub (m.cos (flAngle f.r m n j)) (Real.cos (flAngle f.r m n j))
    have := Real.abs_cos_le_one (flAngle f.r m n j)
    have := A.h_le
    linarith
  have s1 : |m.exp 0 * m.sin (flAngle f.r m n j)| ≤ 2 := by
    rw [A.hm.exp_zero, one_mul]
    have c := A.hm.sin _ a
    have c2 := abs_sub_abs_le_abs_sub (m.sin (flAngle f.r m n j)) (Real.sin (flAngle f.r m n j))
    have := Real.abs_sin_le_one (flAngle f.r m n j)
    have := A.h_le
    linarith
  have c2 := rnd_size A.hu1 A.ht1 c1
  have s2 := rnd_size A.hu1 A.ht1 s1
  exact CIs.neg (A.hL.cexp ⟨0, L.pi * L.ofInt j / L.ofInt (2 * n)⟩ ⟨0, flAngle f.r m n j⟩ ⟨is_zero, A.is_angle hj⟩
    (c2.trans (by linarith)) (s2.trans (by linarith)))

theorem proto_norm {j : ℤ} (hj : j ∈ stepRange (-(n : ℤ) + 1) n) :
    0.98 ≤ ‖flProto f.r m n j‖ ∧ ‖flProto f.r m n j‖ ≤ 1.02 := by
  have a := proto_err A.S A.he.le A.h_le A.hm (Nat.one_le_iff_ne_zero.mpr A.hn) (index_le hj)
  have b := abs_norm_sub_norm_le (flProto f.r m n j) (exProto n j)
  rw [exProto_norm] at b
  obtain ⟨b1, b2⟩ := abs_le.mp b
  have := A.h_le
  constructor <;> linarith

theorem warp_size : 0 < flWarp f.r m e' ∧ flWarp f.r m e' ≤ 4.05 * (1 / (1 - e)) := by
  obtain ⟨w0, -, ew⟩ := warp_err A.S A.hr A.he A.hee A.hh A.hm
  obtain ⟨b1, b2⟩ := abs_le.mp ew
  have := exWarp_le A.S.pos A.he
  have i : 9.7 * (h / (1 - e)) * exWarp e ≤ 9.7 * (1 / 1024) * exWarp e :=
    mul_le_mul_of_nonneg_right (mul_le_mul_of_nonneg_left A.H_le (by norm_num)) w0.le
  constructor <;> linarith

omit A in
theorem is_four (hr : f.r.Nearest) (hT : 2000 ≤ f.top) : Is (lit f 2 * lit f 2) (f.r.rnd (2 * 2)) := by
  refine Is.mul (is_lit 2) (is_lit 2) ?_
  rw [show (2 : ℝ) * 2 = 4 by norm_num, rnd_four hr, abs_of_pos (by norm_num)]
  linarith

/-- The pre-warped edge. -/
theorem is_warp {a : Ieee f} (ha : Is a e') :
    Is (lit f 2 * lit f 2 * L.tan (L.pi * a / lit f 2)) (flWarp f.r m e') := by
  have T := A.top_1
  obtain ⟨w0, w1⟩ := A.warp_size
  have e1 : |e'| ≤ 2 := by
    have a := abs_sub_abs_le_abs_sub e' e
    have b := A.hee
    have := A.S.pos
    have := A.he
    rw [abs_of_pos A.S.pos] at a
    have : h * e ≤ 1 / 1024 * e := mul_le_mul_of_nonneg_right A.h_le A.S.pos.le
    linarith
  have hp : |m.pi| ≤ 3.2 := by
    have a := A.hm.pi
    have := A.h_le
    have p1 := Real.pi_lt_d2
    have p0 := Real.pi_pos
    have a1 := abs_sub_abs_le_abs_sub m.pi Real.pi
    rw [abs_of_pos p0] at a1
    have : h * Real.pi ≤ 1 / 1024 * Real.pi := mul_le_mul_of_nonneg_right A.h_le p0.le
    linarith
  have r1 : |m.pi * e'| ≤ 3.2 * 2 := by
    rw [abs_mul]
    exact mul_le_mul hp e1 (abs_nonneg _) (by norm_num)
  have r2 := rnd_size A.hu1 A.ht1 r1
  have r3 : |f.r.rnd (m.pi * e') / 2| ≤ (2 * (3.2 * 2) + 1) := by
    rw [abs_div, abs_of_pos (by norm_num : (0 : ℝ) < 2)]
    linarith [abs_nonneg (f.r.rnd (m.pi * e'))]
  have r4 := rnd_size A.hu1 A.ht1 r3
  have i1 : Is (L.pi * a / lit f 2) (f.r.rnd (f.r.rnd (m.pi * e') / 2)) :=
    Is.div (Is.mul A.hL.pi ha (by linarith)) (is_lit 2) (by norm_num) (by linarith)
  obtain ⟨x, hx⟩ : ∃ x, x = f.r.rnd (f.r.rnd (m.pi * e') / 2) := ⟨_, rfl⟩
  have hF : flWarp f.r m e' = f.r.rnd (f.r.rnd (2 * 2) * m.tan x) := by rw [hx, flWarp]
  rw [← hx] at i1
  obtain ⟨s, hs⟩ := i1
  rw [hs, hF]
  have hFs : |f.r.rnd (f.r.rnd (2 * 2) * m.tan x)| ≤ f.top := by
    rw [← hF, abs_of_pos w0]
    linarith [A.top_c', A.one_le_c]
  refine Is.mul (is_four A.hr T) (A.hL.tan x s ?_) hFs
  have er := f.r.err (f.r.rnd (2 * 2) * m.tan x)
  rw [← hF, show (2 : ℝ) * 2 = 4 by norm_num, rnd_four A.hr] at er
  have e2 := abs_sub_abs_le_abs_sub (4 * m.tan x) (flWarp f.r m e')
  rw [abs_sub_comm, abs_of_pos w0, abs_mul, abs_of_pos (by norm_num : (0 : ℝ) < 4)] at e2
  rw [abs_mul, abs_of_pos (by norm_num : (0 : ℝ) < 4)] at er
  have i2 := mul_le_mul_of_nonneg_right A.u_le (by positivity : 0 ≤ 4 * |m.tan x|)
  have := A.t_le
  linarith [A.top_c', A.one_le_c]

/-- The analog pole as computed. -/
noncomputable def analogPole (L : Lib f) (n : ℕ) (band : Band) (a : Ieee f) (j : ℤ) : Cx f :=
  let ζ := (L.cexp ⟨0, L.pi * L.ofInt j / L.ofInt (2 * n)⟩).neg
  let w := lit f 2 * lit f 2 * L.tan (L.pi * a / lit f 2)
  if band = .lowpass then ζ.mul (Cx.ofRe w) else (Cx.ofRe w).div ζ

theorem analog_norm {band : Band} {j : ℤ} (hj : j ∈ stepRange (-(n : ℤ) + 1) n) :
    ‖flAnalog f.r m n band e' j‖ ≤ 4.16 * (1 / (1 - e)) := by
  have a := analog_err (band := band) A.S A.hr A.he A.hee A.hh A.hm A.hn hj
  obtain ⟨w0, -, -⟩ := warp_err A.S A.hr A.he A.hee A.hh A.hm
  have b := norm_add_le (flAnalog f.r m n band e' j - exAnalog n band e j) (exAnalog n band e j)
  rw [sub_add_cancel, (exAnalog_parts (n := n) band e j).2.2, abs_of_pos w0] at b
  have := exWarp_le A.S.pos A.he
  have i : 38 * (h / (1 - e)) * exWarp e ≤ 38 * (1 / 1024) * exWarp e :=
    mul_le_mul_of_nonneg_right (mul_le_mul_of_nonneg_left A.H_le (by norm_num)) w0.le
  linarith

theorem is_analog {a : Ieee f} (ha : Is a e') {band : Band} {j : ℤ} (hj : j ∈ stepRange (-(n : ℤ) + 1) n) :
    CIs (analogPole L n band a j) (flAnalog f.r m n band e' j) := by
  have hw := A.is_warp ha
  have hζ := A.is_proto hj
  obtain ⟨w0, w1⟩ := A.warp_size
  obtain ⟨z0, z1⟩ := A.proto_norm hj
  have c1 := A.one_le_c
  have T := A.top_c'
  have nw : ‖(flWarp f.r m e' : ℂ)‖ = flWarp f.r m e' := by rw [Complex.norm_real, Real.norm_eq_abs, abs_of_pos w0]
  have p1 : ‖flProto f.r m n j‖ * flWarp f.r m e' ≤ 5 * (1 / (1 - e)) := by
    have := mul_le_mul z1 w1 w0.le (by norm_num)
    linarith
  unfold analogPole flAnalog
  split
  · exact CIs.mul A.hu1 A.ht1 hζ (cis_ofRe hw) (B := 5 * (1 / (1 - e))) (by rw [nw]; exact p1) (by linarith)
  · rename_i hb
    refine CIs.div A.hu1 A.ht1 (cis_ofRe hw) hζ (B := 5 * (1 / (1 - e))) (by rw [nw, mul_comm]; exact p1) ?_
      (by linarith) ?_ ?_
    · have := mul_le_mul z1 z1 (norm_nonneg _) (by norm_num)
      linarith
    · have := flNormSq_lower (r := f.r) (b := flProto f.r m n j) (B := 1 / 4) (A.u_le.trans (by norm_num))
        (A.t_le.trans (by norm_num)) le_rfl (by nlinarith)
      linarith
    · have := A.analog_norm (band := band) hj
      rw [flAnalog, if_neg hb] at this
      linarith

/-- The factor `4 - p`. -/
theorem is_factor {a : Ieee f} (ha : Is a e') {band : Band} {j : ℤ} (hj : j ∈ stepRange (-(n : ℤ) + 1) n) :
    CIs ((Cx.ofRe (lit f 2 * lit f 2)).sub (analogPole L n band a j))
      ⟨f.r.rnd (f.r.rnd (2 * 2) - (flAnalog f.r m n band e' j).re),
        f.r.rnd (0 - (flAnalog f.r m n band e' j).im)⟩ := by
  have h4 := is_four A.hr A.top_1
  have n4 : ‖((f.r.rnd (2 * 2) : ℝ) : ℂ)‖ = 4 := by
    rw [show (2 : ℝ) * 2 = 4 by norm_num, rnd_four A.hr]; simp
  exact CIs.sub A.hu1 A.ht1 (cis_ofRe h4) (A.is_analog ha hj) (B := 9 * (1 / (1 - e)))
    (by rw [n4]; linarith [A.analog_norm (band := band) hj, A.one_le_c]) (by linarith [A.top_c', A.one_le_c])

/-- The error of the factor. -/
theorem factor_rel {band : Band} {j : ℤ} (hj : j ∈ stepRange (-(n : ℤ) + 1) n) :
    4 ≤ ‖4 - exAnalog n band e j‖ ∧
      ‖(⟨f.r.rnd (f.r.rnd (2 * 2) - (flAnalog f.r m n band e' j).re),
        f.r.rnd (0 - (flAnalog f.r m n band e' j).im)⟩ : ℂ) - (4 - exAnalog n band e j)‖ ≤
        40 * (h / (1 - e)) * ‖4 - exAnalog n band e j‖ := by
  obtain ⟨w0, -, -⟩ := warp_err A.S A.hr A.he A.hee A.hh A.hm
  refine factor_err A.S' (by linarith [A.he]) A.hr A.h_le_H A.H_le (exact_margin A.hn band A.S.pos A.he hj).1 ?_
  rw [(exAnalog_parts (n := n) band e j).2.2, abs_of_pos w0]
  exact analog_err A.S A.hr A.he A.hee A.hh A.hm A.hn hj

/-- A digital pole. -/
theorem is_pole {a : Ieee f} (ha : Is a e') {band : Band} {j : ℤ} (hj : j ∈ stepRange (-(n : ℤ) + 1) n) :
    CIs (((Cx.ofRe (lit f 2 * lit f 2)).add (analogPole L n band a j)).div
      ((Cx.ofRe (lit f 2 * lit f 2)).sub (analogPole L n band a j)))
      (flBilinear f.r (flAnalog f.r m n band e' j)) := by
  have h4 := is_four A.hr A.top_1
  have n4 : ‖((f.r.rnd (2 * 2) : ℝ) : ℂ)‖ = 4 := by
    rw [show (2 : ℝ) * 2 = 4 by norm_num, rnd_four A.hr]; simp
  have c1 := A.one_le_c
  have T := A.top_c
  have T' := A.top_c'
  have hp := A.analog_norm (band := band) hj
  have hP := A.is_analog ha (band := band) hj
  obtain ⟨P, hPd⟩ : ∃ P, P = flAnalog f.r m n band e' j := ⟨_, rfl⟩
  have h1 : CIs ((Cx.ofRe (lit f 2 * lit f 2)).add (analogPole L n band a j))
      ⟨f.r.rnd (f.r.rnd (2 * 2) + P.re), f.r.rnd (0 + P.im)⟩ := by
    rw [hPd]
    exact CIs.add A.hu1 A.ht1 (cis_ofRe h4) hP (B := 9 * (1 / (1 - e))) (by rw [n4]; linarith) (by linarith)
  have h2 := A.is_factor ha (band := band) hj
  have ew := A.H_le
  obtain ⟨w0, -, -⟩ := warp_err A.S A.hr A.he A.hee A.hh A.hm
  have hP' := analog_err (band := band) A.S A.hr A.he A.hee A.hh A.hm A.hn hj
  obtain ⟨hre, -⟩ := exact_margin A.hn band A.S.pos A.he hj
  have hb := bilinear_err A.S A.he A.hr (H := h / (1 - e)) (p := exAnalog n band e j) (p' := P) A.h_le_H A.H_le hre (by
      rw [(exAnalog_parts (n := n) band e j).2.2, abs_of_pos w0, hPd]
      exact hP')
  rw [← hPd] at h2 ⊢ hp
  -- sizes
  have bd : ∀ x y : ℝ, |x| ≤ 9 * (1 / (1 - e)) → |y| ≤ 9 * (1 / (1 - e)) →
      ‖(⟨f.r.rnd x, f.r.rnd y⟩ : ℂ)‖ ≤ 13 * (1 / (1 - e)) := by
    intro x y hx hy
    have k : ∀ x : ℝ, |x| ≤ 9 * (1 / (1 - e)) → |f.r.rnd x| ≤ 9.1 * (1 / (1 - e)) := by
      intro x hx
      have e1 := f.r.err x
      have e2 := abs_sub_abs_le_abs_sub (f.r.rnd x) x
      have e3 := mul_le_mul A.u_le hx (abs_nonneg _) (by norm_num)
      have := A.t_le
      linarith
    have := norm_le_of_parts (z := ⟨f.r.rnd x, f.r.rnd y⟩) (k x hx) (k y hy)
    linarith
  have r4 : f.r.rnd (2 * 2) = 4 := by rw [show (2 : ℝ) * 2 = 4 by norm_num, rnd_four A.hr]
  have pre := (Complex.abs_re_le_norm P).trans hp
  have pim := (Complex.abs_im_le_norm P).trans hp
  have b1 := bd (f.r.rnd (2 * 2) + P.re) (0 + P.im)
    (by rw [r4]; have := abs_add_le 4 P.re; rw [abs_of_pos (by norm_num : (0 : ℝ) < 4)] at this; linarith)
    (by rw [zero_add]; linarith)
  have b2 := bd (f.r.rnd (2 * 2) - P.re) (0 - P.im)
    (by rw [r4]; have := abs_sub 4 P.re; rw [abs_of_pos (by norm_num : (0 : ℝ) < 4)] at this; linarith)
    (by rw [zero_sub, abs_neg]; linarith)
  have q : ∀ x y : ℝ, 0 ≤ x → 0 ≤ y → x ≤ 13 * (1 / (1 - e)) → y ≤ 13 * (1 / (1 - e)) →
      x * y ≤ 169 * (1 / (1 - e)) ^ 2 := by
    intro x y hx hy h1 h2
    have := mul_le_mul h1 h2 hy (by linarith)
    refine this.trans (le_of_eq (by ring))
  obtain ⟨f1, f2⟩ := A.factor_rel (band := band) hj
  obtain ⟨-, hm1, -⟩ := exact_margin A.hn band A.S.pos A.he hj
  rw [← hPd] at f2
  obtain ⟨F, hF⟩ : ∃ F : ℂ, F = ⟨f.r.rnd (f.r.rnd (2 * 2) - P.re), f.r.rnd (0 - P.im)⟩ := ⟨_, rfl⟩
  obtain ⟨N, hN⟩ : ∃ N : ℂ, N = ⟨f.r.rnd (f.r.rnd (2 * 2) + P.re), f.r.rnd (0 + P.im)⟩ := ⟨_, rfl⟩
  rw [flBilinear] at hb ⊢
  rw [← hF, ← hN] at hb ⊢
  rw [← hF] at f2 h2 b2
  rw [← hN] at h1 b1
  have fl : 3 ≤ ‖F‖ := by
    have k := norm_sub_norm_le (4 - exAnalog n band e j) F
    rw [norm_sub_rev _ F] at k
    have i := mul_le_mul_of_nonneg_right (mul_le_mul_of_nonneg_left A.H_le (by norm_num : (0 : ℝ) ≤ 40))
      (norm_nonneg (4 - exAnalog n band e j))
    linarith
  refine CIs.div A.hu1 A.ht1 h1 h2 (q _ _ (norm_nonneg _) (norm_nonneg _) b1 b2)
    (q _ _ (norm_nonneg _) (norm_nonneg _) b2 b2) (by nlinarith) ?_ ?_
  · have := flNormSq_lower (r := f.r) (b := F) (B := 1 / 4) (A.u_le.trans (by norm_num))
      (A.t_le.trans (by norm_num)) le_rfl (by nlinarith)
    linarith
  · have k := norm_add_le (flDiv f.r N F - (4 + exAnalog n band e j) / (4 - exAnalog n band e j))
      ((4 + exAnalog n band e j) / (4 - exAnalog n band e j))
    rw [sub_add_cancel] at k
    have i := A.H_le
    have : 0 ≤ e * (1 - e) / (2 * n) :=
      div_nonneg (mul_nonneg A.S.pos.le (by linarith [A.he])) (by positivity)
    linarith [A.top_1]

end Setting

end SciRs.IeeeDesign

import Verif.Lemmas.Rounded.Gain

/-! # The error of the gain of Butterworth low-pass and high-pass designs in floating point -/

namespace SciRs.Rounded

open SciRs.Spec SciRs.Design

/-- The exact product of the `4 - p`. -/
noncomputable def exDen (n : ℕ) (band : Band) (e : ℝ) : ℂ :=
  ((stepRange (-(n : ℤ) + 1) n).map (fun j => 4 - exAnalog n band e j)).prod

/-- The exact product of the `-ζ`. -/
noncomputable def exUnit (n : ℕ) : ℂ :=
  ((stepRange (-(n : ℤ) + 1) n).map (fun j => -exProto n j)).prod

/-- The exact gain. -/
noncomputable def exGain (n : ℕ) (band : Band) (e : ℝ) : ℝ :=
  if band = .lowpass then exWarp e ^ n * (1 / exDen n band e).re
  else (1 / exUnit n).re * (4 ^ n / exDen n band e).re

/-- The computed product of the `4 - p`. -/
noncomputable def flDen (r : Rounding) (m : Libm) (n : ℕ) (band : Band) (e : ℝ) : ℂ :=
  foldMul (.ofRounding r m) ((stepRange (-(n : ℤ) + 1) n).map (fun j =>
    (⟨r.rnd (r.rnd (2 * 2) - (flAnalog r m n band e j).re), r.rnd (0 - (flAnalog r m n band e j).im)⟩ : ℂ)))

/-- The computed product of the `-ζ`. -/
noncomputable def flUnit (r : Rounding) (m : Libm) (n : ℕ) : ℂ :=
  foldMul (.ofRounding r m) ((stepRange (-(n : ℤ) + 1) n).map (fun j => flMul r (-1) (flProto r m n j)))

/-- The computed product of the `4 - 0`. -/
noncomputable def flNum (r : Rounding) (m : Libm) (n : ℕ) : ℂ :=
  foldMul (.ofRounding r m) ((stepRange (-(n : ℤ) + 1) n).map (fun _ =>
    (⟨r.rnd (r.rnd (2 * 2) - 0), r.rnd (0 - 0)⟩ : ℂ)))

/-- The computed gain. -/
noncomputable def flGain (r : Rounding) (m : Libm) (n : ℕ) (band : Band) (e : ℝ) : ℝ :=
  if band = .lowpass then
    r.rnd (r.rnd (1 * m.powi (flWarp r m e) n) * (flDiv r 1 (flDen r m n band e)).re)
  else r.rnd (r.rnd (1 * (flDiv r 1 (flUnit r m n)).re) * (flDiv r (flNum r m n) (flDen r m n band e)).re)

theorem butter_gain_fl {r : Rounding} {m : Libm} {n : ℕ} {wn : List ℝ} {rp rs : Option ℝ} {band : Band}
    {fs : Option ℝ} {g : Zpk} {e : ℝ} (he : edges (.ofRounding r m) wn fs = [e])
    (hb : band = .lowpass ∨ band = .highpass)
    (h : design (.ofRounding r m) n wn rp rs band .butterworth false fs = .ok g) :
    g.k = flGain r m n band e := by
  rw [butter_gain he hb h]
  rfl

theorem butter_gain_ex {eps : ℝ} {n : ℕ} {wn : List ℝ} {rp rs : Option ℝ} {band : Band}
    {fs : Option ℝ} {g : Zpk} {e : ℝ} (he : Spec.edges wn fs = [e])
    (hb : band = .lowpass ∨ band = .highpass)
    (h : design (.exact eps) n wn rp rs band .butterworth false fs = .ok g) :
    g.k = exGain n band e := by
  have he' : edges (.exact eps) wn fs = [e] := by
    rw [← he]
    cases fs <;> rfl
  rw [butter_gain he' hb h]
  have hf : ∀ l : List ℂ, foldMul (.exact eps) l = l.prod := fun l => Design.foldMul_eq l
  simp only [hf]
  have e4 : (((2 * 2 : ℝ)) : ℂ) = 4 := by push_cast; norm_num
  have ew : (2 * 2 * Real.tan (Real.pi * e / 2) : ℝ) = exWarp e := by
    rw [exWarp]; ring
  have eζ : ∀ j : ℤ, -Complex.exp (⟨0, Real.pi * ((j : ℤ) : ℝ) / ((2 * n : ℤ) : ℝ)⟩ : ℂ) = exProto n j := by
    intro j
    rw [exProto]; push_cast; rfl
  have h1 : (stepRange (-(n : ℤ) + 1) n).map (fun _ => (4 : ℂ)) = List.replicate n 4 := by
    rw [List.map_const', stepRange_sym_length]
  change (if band = .lowpass then
      (1 * (2 * 2 * Real.tan (Real.pi * e / 2)) ^ n) * (1 / ((stepRange (-(n : ℤ) + 1) n).map (fun j =>
        (((2 * 2 : ℝ)) : ℂ) - if band = .lowpass then
          -Complex.exp (⟨0, Real.pi * ((j : ℤ) : ℝ) / ((2 * n : ℤ) : ℝ)⟩ : ℂ) *
            ((2 * 2 * Real.tan (Real.pi * e / 2) : ℝ) : ℂ)
          else ((2 * 2 * Real.tan (Real.pi * e / 2) : ℝ) : ℂ) /
            -Complex.exp (⟨0, Real.pi * ((j : ℤ) : ℝ) / ((2 * n : ℤ) : ℝ)⟩ : ℂ))).prod).re
    else (1 * (1 / ((stepRange (-(n : ℤ) + 1) n).map (fun j =>
        -1 * -Complex.exp (⟨0, Real.pi * ((j : ℤ) : ℝ) / ((2 * n : ℤ) : ℝ)⟩ : ℂ))).prod).re) *
      (((stepRange (-(n : ℤ) + 1) n).map (fun _ => (((2 * 2 : ℝ)) : ℂ) - 0)).prod /
        ((stepRange (-(n : ℤ) + 1) n).map (fun j =>
        (((2 * 2 : ℝ)) : ℂ) - if band = .lowpass then
          -Complex.exp (⟨0, Real.pi * ((j : ℤ) : ℝ) / ((2 * n : ℤ) : ℝ)⟩ : ℂ) *
            ((2 * 2 * Real.tan (Real.pi * e / 2) : ℝ) : ℂ)
          else ((2 * 2 * Real.tan (Real.pi * e / 2) : ℝ) : ℂ) /
            -Complex.exp (⟨0, Real.pi * ((j : ℤ) : ℝ) / ((2 * n : ℤ) : ℝ)⟩ : ℂ))).prod).re) = _
  simp only [ew, eζ, e4, one_mul, sub_zero, neg_mul, h1, List.prod_replicate]
  simp only [exGain, exDen, exUnit, exAnalog]
  rcases hb with rfl | rfl
  · simp [mul_comm]
  · simp

variable {r : Rounding} {m : Libm} {h : ℝ}

theorem re_of_real_quotient {a b : ℂ} (ha : a.im = 0) (hb : b.im = 0) : |(a / b).re| = ‖a‖ / ‖b‖ := by
  rw [← norm_div]
  have : (a / b).im = 0 := by rw [Complex.div_im, ha, hb]; simp
  rw [← Complex.abs_re_eq_norm.mpr this]

theorem exUnit_norm (n : ℕ) : ‖exUnit n‖ = 1 := by
  unfold exUnit
  induction (stepRange (-(n : ℤ) + 1) n) with
  | nil => simp
  | cons a l ih => rw [List.map_cons, List.prod_cons, norm_mul, ih, norm_neg, exProto_norm, one_mul]

/-- What the request says about the sizes. -/
theorem edge_sizes {e : ℝ} (h0 : 0 < e) (h1 : e < 1) (hw : 0 < exWarp e) {n : ℕ} (hn : n ≠ 0) :
    (e * (1 - e) / 20) ^ n ≤ 1 / 4 ∧ (e * (1 - e) / 20) ^ n ≤ e ∧
    (e * (1 - e) / 20) ^ n ≤ 0.9 * (1 / (4 + exWarp e)) ^ n ∧
    (e * (1 - e) / 20) ^ n ≤ (exWarp e / (4 + exWarp e)) ^ n := by
  have hR := exWarp_ratio h0 h1
  obtain ⟨w, hwd⟩ : ∃ w, w = exWarp e := ⟨_, rfl⟩
  rw [← hwd] at hw hR ⊢
  have h1e : 0 < 1 - e := by linarith
  obtain ⟨x, hx⟩ : ∃ x, x = e * (1 - e) := ⟨_, rfl⟩
  have hx0 : 0 < x := by rw [hx]; positivity
  have hx4 : x ≤ 1 / 4 := by rw [hx]; nlinarith [sq_nonneg (e - 1 / 2)]
  have hxe : x ≤ e := by rw [hx]; nlinarith
  rw [← hx] at hR ⊢
  have hle : (x / 20) ^ n ≤ x / 20 := pow_le_of_le_one (by positivity) (by linarith) hn
  have a1 : x / 16 ≤ 1 / (4 + w) := by
    rw [le_div_iff₀ (by positivity)] at hR ⊢
    have : x / 4 * (4 + w) ^ 2 = x / 4 * (4 + w) * (4 + w) := by ring
    rw [this] at hR
    have h3 : x / 4 * (4 + w) * (4 + w) ≤ 4 * (4 + w) := by nlinarith
    have := le_of_mul_le_mul_right h3 (by positivity)
    linarith
  have a2 : x / 16 ≤ w / (4 + w) := by
    rw [le_div_iff₀ (by positivity)] at hR ⊢
    have : x / 4 * (4 + w) ^ 2 = x / 4 * (4 + w) * (4 + w) := by ring
    rw [this] at hR
    have h3 : x / 4 * (4 + w) * 4 ≤ x / 4 * (4 + w) * (4 + w) :=
      mul_le_mul_of_nonneg_left (by linarith) (by positivity)
    nlinarith [mul_pos hx0 (by linarith : (0 : ℝ) < 4 + w)]
  refine ⟨by linarith, by linarith, ?_, ?_⟩
  · have b1 : (x / 20) ^ n = (4 / 5) ^ n * (x / 16) ^ n := by rw [← mul_pow]; congr 1; ring
    rw [b1]
    have b2 : ((4 / 5 : ℝ)) ^ n ≤ 4 / 5 := pow_le_of_le_one (by norm_num) (by norm_num) hn
    exact mul_le_mul (by linarith) (pow_le_pow_left₀ (by positivity) a1 n) (by positivity) (by norm_num)
  · exact pow_le_pow_left₀ (by positivity) (by linarith) n

/-- The computed denominator. -/
theorem den_err {e e' : ℝ} {n : ℕ} (hn : n ≠ 0) (S : Small r h e) {σ : ℝ} (S' : Small r h σ) (hσ : σ ≤ 1 / 4)
    (hr : r.Nearest) (he : e < 1)
    (hee : |e' - e| ≤ h * e) (hh : 1024 * (n * h) ≤ 1 - e) (hm : m.Accurate r h) (band : Band) :
    1 ≤ ‖exDen n band e‖ ∧ ‖exDen n band e‖ ≤ (4 + exWarp e) ^ n ∧ (exDen n band e).im = 0 ∧
    ‖flDen r m n band e' - exDen n band e‖ ≤ 49.5 * (n * (h / (1 - e))) * ‖exDen n band e‖ := by
  have he0 := S.pos
  have h0 := S.h_nonneg
  have h1e : 0 < 1 - e := by linarith
  have hn1 : (1 : ℝ) ≤ n := by exact_mod_cast Nat.one_le_iff_ne_zero.mpr hn
  have hh1 : h ≤ (1 - e) / 1024 := by nlinarith
  obtain ⟨H, hH⟩ : ∃ H, H = h / (1 - e) := ⟨_, rfl⟩
  have hHh : H * (1 - e) = h := by rw [hH]; field_simp
  have hH0 : 0 ≤ H := by rw [hH]; positivity
  have hHs : H ≤ 1 / 1024 := by rw [hH, div_le_iff₀ h1e]; linarith
  have hhH : h ≤ H := by nlinarith
  have hη : n * H ≤ 1 / 1024 := by
    rw [hH, ← mul_div_assoc, div_le_iff₀ h1e]; linarith
  obtain ⟨w0, -, -⟩ := warp_err S hr he hee hh1 hm
  rw [← hH]
  have fac : ∀ j ∈ stepRange (-(n : ℤ) + 1) n, 4 ≤ ‖4 - exAnalog n band e j‖ ∧
      ‖(⟨r.rnd (r.rnd (2 * 2) - (flAnalog r m n band e' j).re), r.rnd (0 - (flAnalog r m n band e' j).im)⟩ : ℂ) -
        (4 - exAnalog n band e j)‖ ≤ 40 * H * ‖4 - exAnalog n band e j‖ := by
    intro j hj
    refine factor_err S' hσ hr hhH hHs (exact_margin hn band he0 he hj).1 ?_
    rw [(exAnalog_parts (n := n) band e j).2.2, abs_of_pos w0, hH]
    exact analog_err S hr he hee hh1 hm hn hj
  refine ⟨?_, ?_, ?_, ?_⟩
  · refine one_le_norm_prod (fun x hx => ?_)
    obtain ⟨j, hj, rfl⟩ := List.mem_map.mp hx
    linarith [(fac j hj).1]
  · have := norm_prod_le (l := (stepRange (-(n : ℤ) + 1) n).map (fun j => 4 - exAnalog n band e j))
      (c := 4 + exWarp e) (fun x hx => by
        obtain ⟨j, hj, rfl⟩ := List.mem_map.mp hx
        refine (norm_sub_le _ _).trans ?_
        rw [(exAnalog_parts (n := n) band e j).2.2, abs_of_pos w0]
        simp)
    rwa [List.length_map, stepRange_sym_length] at this
  · refine prod_sym_real n (fun j => ?_)
    rw [map_sub, exAnalog_conj, map_ofNat]
  · have k := foldMul_err (m := m) S' hσ (by linarith) hr (c := 40 * H) (κ := 45 * H) (by positivity) (by linarith)
      (by nlinarith [mul_le_mul hHs hhH h0 (by norm_num)]) (fun j => 4 - exAnalog n band e j) (fun j =>
        (⟨r.rnd (r.rnd (2 * 2) - (flAnalog r m n band e' j).re), r.rnd (0 - (flAnalog r m n band e' j).im)⟩ : ℂ))
      (stepRange (-(n : ℤ) + 1) n) (fun j hj => (fac j hj).2) (fun j hj => by linarith [(fac j hj).1])
      (by rw [stepRange_sym_length]; linarith)
    rw [stepRange_sym_length] at k
    refine k.trans (mul_le_mul_of_nonneg_right (by linarith) (norm_nonneg _))

/-- The computed product of the negated prototype poles. -/
theorem unit_err {n : ℕ} (hn : n ≠ 0) {σ : ℝ} (S : Small r h σ) (hσ : σ ≤ 1 / 4) (hr : r.Nearest)
    (hh : 1024 * (n * h) ≤ 1) (hm : m.Accurate r h) :
    ‖flUnit r m n - exUnit n‖ ≤ 28.6 * (n * h) * ‖exUnit n‖ := by
  have h0 := S.h_nonneg
  have hn1 : (1 : ℝ) ≤ n := by exact_mod_cast Nat.one_le_iff_ne_zero.mpr hn
  have hh1 : h ≤ 1 / 1024 := by nlinarith
  have k := foldMul_err (m := m) S hσ (by linarith) hr (c := 20.5 * h) (κ := 26 * h) (by positivity) (by linarith)
    (by nlinarith) (fun j => -exProto n j) (fun j => flMul r (-1) (flProto r m n j)) (stepRange (-(n : ℤ) + 1) n)
    (fun j hj => ?_) (fun j _ => by rw [norm_neg, exProto_norm]) (by rw [stepRange_sym_length]; linarith)
  · rw [stepRange_sym_length] at k
    refine k.trans (mul_le_mul_of_nonneg_right (by linarith) (norm_nonneg _))
  · obtain ⟨j1, j2⟩ := mem_stepRange_sym hj
    have ja : |(j : ℝ)| ≤ n := by
      rw [← Int.cast_abs]
      have : |j| ≤ (n : ℤ) := by rcases abs_cases j with h | h <;> omega
      exact_mod_cast this
    have eζ := proto_err S (by linarith) hh1 hm (Nat.one_le_iff_ne_zero.mpr hn) ja
    rw [norm_neg, exProto_norm, mul_one]
    have n1 : ‖flProto r m n j‖ ≤ 1.02 := by
      have := norm_add_le (flProto r m n j - exProto n j) (exProto n j)
      rw [sub_add_cancel, exProto_norm] at this
      linarith
    have s1 := S.flMul (by linarith) hr (a := -1) (b := flProto r m n j) (B := 1.02) (by
      rw [norm_neg, norm_one, one_mul]; exact n1) (by linarith)
    have e : flMul r (-1) (flProto r m n j) - -exProto n j =
      (flMul r (-1) (flProto r m n j) - -1 * flProto r m n j) - (flProto r m n j - exProto n j) := by ring
    rw [e]
    refine (norm_sub_le _ _).trans ?_
    linarith

/-- The computed numerator. -/
theorem num_err {n : ℕ} {σ : ℝ} (S : Small r h σ) (hσ : σ ≤ 1 / 4) (hr : r.Nearest) (hn : n ≠ 0)
    (hh : 1024 * (n * h) ≤ 1) :
    ‖flNum r m n - 4 ^ n‖ ≤ 4.84 * (n * h) * ‖(4 : ℂ) ^ n‖ := by
  have h0 := S.h_nonneg
  have hn1 : (1 : ℝ) ≤ n := by exact_mod_cast Nat.one_le_iff_ne_zero.mpr hn
  have hh1 : h ≤ 1 / 1024 := by nlinarith
  have r4 : r.rnd 4 = 4 := rnd_four hr
  have e4 : (⟨r.rnd (r.rnd (2 * 2) - 0), r.rnd (0 - 0)⟩ : ℂ) = 4 := by
    have : (2 * 2 : ℝ) = 4 := by norm_num
    rw [this, sub_zero, sub_zero, r4, r4, r.zero]
    apply Complex.ext <;> simp
  have k := foldMul_err (m := m) S hσ (by linarith) hr (c := 0) (κ := 4.4 * h) (le_refl _) (by norm_num)
    (by linarith) (fun _ : ℤ => (4 : ℂ)) (fun _ => (⟨r.rnd (r.rnd (2 * 2) - 0), r.rnd (0 - 0)⟩ : ℂ))
    (stepRange (-(n : ℤ) + 1) n)
    (fun j _ => by rw [e4]; simp) (fun j _ => by simp) (by rw [stepRange_sym_length]; linarith)
  have h1 : (stepRange (-(n : ℤ) + 1) n).map (fun _ => (4 : ℂ)) = List.replicate n 4 := by
    rw [List.map_const', stepRange_sym_length]
  rw [stepRange_sym_length, h1, List.prod_replicate] at k
  refine k.trans (mul_le_mul_of_nonneg_right (by linarith) (norm_nonneg _))

/-- The library's power of the edge. -/
theorem powi_err {w w' H σ : ℝ} {n : ℕ} (S : Small r h σ) (hm : m.Accurate r h) (hn : n ≠ 0) (hw : 0 < w)
    (hhH : h ≤ H) (hη : n * H ≤ 1 / 1024) (ew : |w' - w| ≤ 9.7 * H * w) (hσ : σ ≤ w ^ n) :
    |m.powi w' n - w ^ n| ≤ 13.7 * (n * H) * w ^ n := by
  have h0 := S.h_nonneg
  have hH0 : 0 ≤ H := h0.trans hhH
  have hn1 : (1 : ℝ) ≤ n := by exact_mod_cast Nat.one_le_iff_ne_zero.mpr hn
  have hHs : H ≤ 1 / 1024 := by nlinarith
  have hp0 : 0 < w ^ n := pow_pos hw n
  have k1 := pow_err hw.le (by positivity) ew n
  have k2 := one_add_pow_le (κ := 9.7 * H) (by positivity) (n := n) (by linarith)
  have k3 : |w' ^ n - w ^ n| ≤ 10.67 * (n * H) * w ^ n :=
    k1.trans (mul_le_mul_of_nonneg_right (by linarith) hp0.le)
  have hw' : 0 < w' := by
    have := (abs_le.mp ew).1
    have : H * w ≤ 1 / 1024 * w := mul_le_mul_of_nonneg_right hHs hw.le
    linarith
  have k4 := hm.powi w' n hw'
  have hηw : n * H * w ^ n ≤ 1 / 1024 * w ^ n := mul_le_mul_of_nonneg_right hη hp0.le
  have k5 : w' ^ n ≤ 1.011 * w ^ n := by
    have := (abs_le.mp k3).2
    linarith
  have t1 : r.t ≤ h * w ^ n := by
    have i1 := S.t_le
    have i2 := r.u_nonneg
    have i3 : (h - r.u) * σ ≤ (h - r.u) * w ^ n := mul_le_mul_of_nonneg_left hσ (sub_nonneg.mpr S.u_le)
    have i4 : 0 ≤ r.u * w ^ n := mul_nonneg i2 hp0.le
    linarith
  have k6 : h * w' ^ n + 2 * r.t ≤ 3.011 * (H * w ^ n) := by
    have i1 : h * w' ^ n ≤ h * (1.011 * w ^ n) := mul_le_mul_of_nonneg_left k5 h0
    have i2 : h * w ^ n ≤ H * w ^ n := mul_le_mul_of_nonneg_right hhH hp0.le
    linarith
  have k7 : (n : ℝ) * (h * w' ^ n + 2 * r.t) ≤ n * (3.011 * (H * w ^ n)) :=
    mul_le_mul_of_nonneg_left k6 (by linarith)
  have := abs_add_le (m.powi w' n - w' ^ n) (w' ^ n - w ^ n)
  rw [sub_add_sub_cancel] at this
  have i3 : 0 ≤ n * H * w ^ n := by positivity
  nlinarith

/-- The computed power of the edge. -/
theorem warp_pow_err {w w' H σ : ℝ} {n : ℕ} (S : Small r h σ) (hm : m.Accurate r h) (hn : n ≠ 0) (hw : 0 < w)
    (hhH : h ≤ H) (hη : n * H ≤ 1 / 1024) (ew : |w' - w| ≤ 9.7 * H * w) (hσ : σ ≤ w ^ n) :
    |r.rnd (1 * m.powi w' n) - w ^ n| ≤ 15 * (n * H) * |w ^ n| := by
  have h0 := S.h_nonneg
  have hH0 : 0 ≤ H := h0.trans hhH
  have hn1 : (1 : ℝ) ≤ n := by exact_mod_cast Nat.one_le_iff_ne_zero.mpr hn
  have hp0 : 0 < w ^ n := pow_pos hw n
  have hηw : n * H * w ^ n ≤ 1 / 1024 * w ^ n := mul_le_mul_of_nonneg_right hη hp0.le
  have k8 := powi_err S hm hn hw hhH hη ew hσ
  have k9 : |1 * m.powi w' n| ≤ 1.02 * w ^ n := by
    rw [one_mul]
    have := abs_add_le (m.powi w' n - w ^ n) (w ^ n)
    rw [sub_add_cancel, abs_of_pos hp0] at this
    linarith
  have k10 := S.fl k9 (by linarith)
  rw [one_mul] at k10 ⊢
  rw [abs_of_pos hp0]
  have := abs_add_le (r.rnd (m.powi w' n) - m.powi w' n) (m.powi w' n - w ^ n)
  rw [sub_add_sub_cancel] at this
  have i4 : h * w ^ n ≤ n * H * w ^ n := mul_le_mul_of_nonneg_right (by nlinarith) hp0.le
  have i3 : 0 ≤ n * H * w ^ n := by positivity
  linarith

/-- The error of the gain. -/
theorem gain_err {e e' : ℝ} {n : ℕ} (hn : n ≠ 0) (h0e : 0 < e) (S : Small r h ((e * (1 - e) / 20) ^ n)) (hr : r.Nearest)
    (he : e < 1) (hee : |e' - e| ≤ h * e) (hh : 1024 * (n * h) ≤ 1 - e) (hm : m.Accurate r h) {band : Band}
    (hb : band = .lowpass ∨ band = .highpass) :
    exGain n band e ≠ 0 ∧
    |flGain r m n band e' - exGain n band e| ≤ 125 * (n * (h / (1 - e))) * |exGain n band e| := by
  have h0 := S.h_nonneg
  have h1e : 0 < 1 - e := by linarith
  have hn1 : (1 : ℝ) ≤ n := by exact_mod_cast Nat.one_le_iff_ne_zero.mpr hn
  have hh1 : h ≤ (1 - e) / 1024 := by nlinarith
  have hw0 : 0 < exWarp e := by
    rw [exWarp]
    have hpi := Real.pi_pos
    have : 0 < Real.tan (Real.pi * e / 2) := Real.tan_pos_of_pos_of_lt_pi_div_two (by positivity) (by nlinarith)
    linarith
  obtain ⟨s1, s2, s3, s4⟩ := edge_sizes h0e he hw0 hn
  have Se := S.mono s2
  obtain ⟨D1, D2, D3, D4⟩ := den_err hn Se S s1 hr he hee hh hm band
  obtain ⟨-, w1, ew⟩ := warp_err Se hr he hee hh1 hm
  obtain ⟨H, hH⟩ : ∃ H, H = h / (1 - e) := ⟨_, rfl⟩
  rw [← hH] at D4 ew ⊢
  have hHh : H * (1 - e) = h := by rw [hH]; field_simp
  have hH0 : 0 ≤ H := by rw [hH]; positivity
  have hhH : h ≤ H := by nlinarith
  have hη : n * H ≤ 1 / 1024 := by
    rw [hH, ← mul_div_assoc, div_le_iff₀ h1e]; linarith
  have hHη : H ≤ n * H := by nlinarith
  have hD0 : 0 < ‖exDen n band e‖ := by linarith
  obtain ⟨σ, hσd⟩ : ∃ σ, σ = (e * (1 - e) / 20) ^ n := ⟨_, rfl⟩
  rw [← hσd] at S s1 s2 s3 s4
  have inv1 : (1 / (4 + exWarp e)) ^ n ≤ 1 / ‖exDen n band e‖ := by
    rw [one_div_pow]
    exact one_div_le_one_div_of_le hD0 D2
  have inv2 : (exWarp e / (4 + exWarp e)) ^ n ≤ exWarp e ^ n / ‖exDen n band e‖ := by
    rw [div_pow]
    exact div_le_div_of_nonneg_left (by positivity) hD0 D2
  have hwn : 0 < exWarp e ^ n := pow_pos hw0 n
  rcases hb with rfl | rfl
  · have q0 : |(1 / exDen n .lowpass e).re| = 1 / ‖exDen n .lowpass e‖ := by
      rw [re_of_real_quotient (by simp) D3, norm_one]
    have q1 := S.flDiv_rel s1 (by linarith) hr (N := 1) (N' := 1) (α := 0) (by norm_num) (by linarith) (by simp) D4
      (by simp) D1 (by rw [norm_one]; linarith)
    rw [norm_one] at q1
    have q2 : |(flDiv r 1 (flDen r m n .lowpass e')).re - (1 / exDen n .lowpass e).re| ≤
        64.8 * (n * H) * |(1 / exDen n .lowpass e).re| := by
      rw [q0, ← Complex.sub_re]
      refine (Complex.abs_re_le_norm _).trans (q1.trans (mul_le_mul_of_nonneg_right ?_ (by positivity)))
      linarith
    have hq : (1 / exDen n .lowpass e).re ≠ 0 := by
      rw [← abs_pos, q0]; positivity
    have hσw : σ ≤ exWarp e ^ n := by
      refine s4.trans (inv2.trans ?_)
      exact div_le_self hwn.le D1
    have p1 := warp_pow_err S hm hn hw0 hhH hη ew hσw
    have k := S.mul_rel hwn.ne' hq (by linarith) (by linarith) p1 q2 (by
      rw [abs_mul, q0, abs_of_pos hwn, mul_one_div]
      exact s4.trans inv2)
    have hG : exGain n .lowpass e = exWarp e ^ n * (1 / exDen n .lowpass e).re := by simp [exGain]
    have hF : flGain r m n .lowpass e' =
        r.rnd (r.rnd (1 * m.powi (flWarp r m e') n) * (flDiv r 1 (flDen r m n .lowpass e')).re) := by simp [flGain]
    rw [hG, hF]
    refine ⟨mul_ne_zero hwn.ne' hq, k.trans (mul_le_mul_of_nonneg_right ?_ (abs_nonneg _))⟩
    linarith
  · have hhn : 1024 * (n * h) ≤ 1 := by linarith
    have hhη : n * h ≤ n * H := mul_le_mul_of_nonneg_left hhH (by linarith)
    have U0 : (exUnit n).im = 0 := by
      refine prod_sym_real n (fun j => ?_)
      rw [map_neg, exProto_conj]
    have u0 : |(1 / exUnit n).re| = 1 := by
      rw [re_of_real_quotient (by simp) U0, norm_one, exUnit_norm, div_one]
    have U1 := unit_err hn S s1 hr hhn hm
    have u1 := S.flDiv_rel s1 (by linarith) hr (N := 1) (N' := 1) (α := 0) (by norm_num) (by linarith) (by simp) U1
      (by simp) (by rw [exUnit_norm]) (by rw [norm_one, exUnit_norm]; linarith)
    rw [norm_one, exUnit_norm] at u1
    have u2 : |(flDiv r 1 (flUnit r m n)).re - (1 / exUnit n).re| ≤ 42.6 * (n * H) := by
      rw [← Complex.sub_re]
      refine (Complex.abs_re_le_norm _).trans (u1.trans ?_)
      linarith
    have u3 : |1 * (flDiv r 1 (flUnit r m n)).re| ≤ 1.05 := by
      rw [one_mul]
      have := abs_add_le ((flDiv r 1 (flUnit r m n)).re - (1 / exUnit n).re) (1 / exUnit n).re
      rw [sub_add_cancel, u0] at this
      linarith
    have u4 := S.fl u3 (by linarith)
    have u5 : |r.rnd (1 * (flDiv r 1 (flUnit r m n)).re) - (1 / exUnit n).re| ≤
        43.7 * (n * H) * |(1 / exUnit n).re| := by
      rw [u0]
      rw [one_mul] at u4 ⊢
      have := abs_add_le (r.rnd (flDiv r 1 (flUnit r m n)).re - (flDiv r 1 (flUnit r m n)).re)
        ((flDiv r 1 (flUnit r m n)).re - (1 / exUnit n).re)
      rw [sub_add_sub_cancel] at this
      linarith
    have N1 := num_err (m := m) S s1 hr hn hhn
    have n0 : ‖(4 : ℂ) ^ n‖ = 4 ^ n := by rw [norm_pow]; simp
    have n1 : (1 : ℝ) ≤ 4 ^ n := one_le_pow₀ (by norm_num)
    have n4 : ((4 : ℂ) ^ n).im = 0 := by
      have : ((4 : ℂ) ^ n) = (((4 : ℝ) ^ n : ℝ) : ℂ) := by push_cast; rfl
      rw [this, Complex.ofReal_im]
    have q0 : |(4 ^ n / exDen n .highpass e).re| = 4 ^ n / ‖exDen n .highpass e‖ := by
      rw [re_of_real_quotient n4 D3, n0]
    have q3 : σ ≤ 0.9 * (4 ^ n / ‖exDen n .highpass e‖) := by
      have : 1 / ‖exDen n .highpass e‖ ≤ 4 ^ n / ‖exDen n .highpass e‖ := div_le_div_of_nonneg_right n1 hD0.le
      linarith
    have q1 := S.flDiv_rel s1 (by linarith) hr (by linarith) (by linarith) N1 D4
      (by rw [n0]; exact n1) D1 (by rw [n0]; exact q3)
    rw [n0] at q1
    have q2 : |(flDiv r (flNum r m n) (flDen r m n .highpass e')).re - (4 ^ n / exDen n .highpass e).re| ≤
        69.9 * (n * H) * |(4 ^ n / exDen n .highpass e).re| := by
      rw [q0, ← Complex.sub_re]
      refine (Complex.abs_re_le_norm _).trans (q1.trans (mul_le_mul_of_nonneg_right ?_ (by positivity)))
      linarith
    have hq : (4 ^ n / exDen n .highpass e).re ≠ 0 := by
      rw [← abs_pos, q0]; positivity
    have hu : (1 / exUnit n).re ≠ 0 := by
      rw [← abs_pos, u0]; norm_num
    have k := S.mul_rel hu hq (by linarith) (by linarith) u5 q2 (by
      rw [abs_mul, u0, q0, one_mul]
      have : 0 < (4 : ℝ) ^ n / ‖exDen n .highpass e‖ := by positivity
      linarith)
    have hG : exGain n .highpass e = (1 / exUnit n).re * (4 ^ n / exDen n .highpass e).re := by simp [exGain]
    have hF : flGain r m n .highpass e' = r.rnd (r.rnd (1 * (flDiv r 1 (flUnit r m n)).re) *
        (flDiv r (flNum r m n) (flDen r m n .highpass e')).re) := by simp [flGain]
    rw [hG, hF]
    refine ⟨mul_ne_zero hu hq, k.trans (mul_le_mul_of_nonneg_right ?_ (abs_nonneg _))⟩
    linarith

end SciRs.Rounded

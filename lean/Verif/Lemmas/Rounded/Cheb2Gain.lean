import Verif.Lemmas.Rounded.StopError
import Verif.Lemmas.Rounded.ChebGain

/-! # The gain of Chebyshev II low-pass designs, computed and exact -/

namespace SciRs.Rounded

open SciRs.Spec SciRs.Design

/-- The gain of the digital filter, in any arithmetic. -/
theorem stop_gain2 {A : Arith} {n : ℕ} (hn : n ≠ 0) {wn : List ℝ} {rs rp : ℝ} {fs : Option ℝ} {g : Zpk}
    {e : ℝ} (he : edges A wn fs = [e]) (h : design A n wn (some rp) (some rs) .lowpass .chebyshevII false fs = .ok g) :
    g.k =
      let w := A.mul (A.mul 2 2) (A.tan (A.div (A.mul A.pi e) 2))
      let de := A.div 1 (A.sqrt (A.sub (A.powf 10 (A.mul (A.div 1 10) rs)) 1))
      let mu := A.div (A.asinh (A.div 1 de)) (A.ofInt n)
      let p := fun j : ℤ =>
        let z := -A.cexp ⟨0, A.div (A.mul A.pi (A.ofInt j)) (A.mul 2 (A.ofInt n))⟩
        A.cdiv 1 ⟨A.mul (A.sinh mu) z.re, A.mul (A.cosh mu) z.im⟩
      let z := fun j : ℤ => -(starRingEnd ℂ) (A.cdiv Complex.I
        (A.sin (A.mul (A.ofInt j) (A.div A.pi (A.mul 2 (A.ofInt n)))) : ℝ))
      let J := stepRange (-(n : ℤ) + 1) n
      let k0 := (A.cdiv (foldMul A (J.map (fun j => -p j))) (foldMul A ((cheb2Ms n).map (fun j => -z j)))).re
      A.mul (A.mul k0 (A.powi w (n - (cheb2Ms n).length)))
        (A.cdiv (foldMul A ((cheb2Ms n).map (fun j => A.csub (A.mul 2 2 : ℝ) (A.cmul (z j) (w : ℂ)))))
          (foldMul A (J.map (fun j => A.csub (A.mul 2 2 : ℝ) (A.cmul (p j) (w : ℂ)))))).re := by
  unfold design at h
  simp only [bind_eq_ok] at h
  obtain ⟨w, hw, f, hf, v, hv, f', hf', h⟩ := h
  rw [validate_eq_ok] at hw
  obtain ⟨rfl, -⟩ := hw
  unfold warp at hv
  rw [if_pos rfl, he] at hv
  obtain ⟨u, -, hv⟩ := bind_eq_ok.mp hv
  have hv2 : v = [A.mul (A.mul 2 2) (A.tan (A.div (A.mul A.pi e) 2))] := by
    simpa [pure, Except.pure] using hv.symm
  subst hv2
  cases hf
  unfold discretise bilinear at h
  rw [if_pos rfl] at h
  obtain ⟨d, -, h⟩ := bind_eq_ok.mp h
  cases h
  simp only [bandTransform, lp2lp] at hf'
  obtain ⟨d', hd', hf'⟩ := bind_eq_ok.mp hf'
  have hd : d' = n - (cheb2Ms n).length := by
    unfold relativeDegree at hd'
    simp only [cheb2ap, hn, if_false, cheb2Poles, cheb2Zeros, List.length_map, stepRange_sym_length] at hd'
    split at hd'
    · cases hd'
    · cases hd'; omega
  subst hd
  cases hf'
  simp [cheb2ap, hn, cheb2Poles, cheb2Zeros, Function.comp_def]

/-- The exact products. -/
noncomputable def exSUnit (n : ℕ) (rs : ℝ) : ℂ :=
  ((stepRange (-(n : ℤ) + 1) n).map (fun j => -(1 / exStop n rs j))).prod

noncomputable def exZUnit (n : ℕ) : ℂ := ((cheb2Ms n).map (fun j => -exZero n j)).prod

noncomputable def exSDen (n : ℕ) (rs e : ℝ) : ℂ :=
  ((stepRange (-(n : ℤ) + 1) n).map (fun j => 4 - exSPole n rs e j)).prod

noncomputable def exSNum (n : ℕ) (e : ℝ) : ℂ := ((cheb2Ms n).map (fun j => 4 - exSZero n e j)).prod

/-- The exact gain. -/
noncomputable def exSGain (n : ℕ) (rs e : ℝ) : ℝ :=
  (exSUnit n rs / exZUnit n).re * exWarp e ^ (n - (cheb2Ms n).length) * (exSNum n e / exSDen n rs e).re

/-- The computed products. -/
noncomputable def flSUnit (r : Rounding) (m : Libm) (n : ℕ) (rs : ℝ) : ℂ :=
  foldMul (.ofRounding r m) ((stepRange (-(n : ℤ) + 1) n).map (fun j => -flDiv r 1 (flStop r m n rs j)))

noncomputable def flZUnit (r : Rounding) (m : Libm) (n : ℕ) : ℂ :=
  foldMul (.ofRounding r m) ((cheb2Ms n).map (fun j => -flZero r m n j))

noncomputable def flSDen (r : Rounding) (m : Libm) (n : ℕ) (rs e : ℝ) : ℂ :=
  foldMul (.ofRounding r m) ((stepRange (-(n : ℤ) + 1) n).map (fun j =>
    (⟨r.rnd (r.rnd (2 * 2) - (flSPole r m n rs e j).re), r.rnd (0 - (flSPole r m n rs e j).im)⟩ : ℂ)))

noncomputable def flSNum (r : Rounding) (m : Libm) (n : ℕ) (e : ℝ) : ℂ :=
  foldMul (.ofRounding r m) ((cheb2Ms n).map (fun j =>
    (⟨r.rnd (r.rnd (2 * 2) - (flSZero r m n e j).re), r.rnd (0 - (flSZero r m n e j).im)⟩ : ℂ)))

/-- The computed gain. -/
noncomputable def flSGain (r : Rounding) (m : Libm) (n : ℕ) (rs e : ℝ) : ℝ :=
  r.rnd (r.rnd ((flDiv r (flSUnit r m n rs) (flZUnit r m n)).re * m.powi (flWarp r m e) (n - (cheb2Ms n).length)) *
    (flDiv r (flSNum r m n e) (flSDen r m n rs e)).re)

theorem stop_gain2_fl {r : Rounding} {m : Libm} {n : ℕ} (hn : n ≠ 0) {wn : List ℝ} {rs rp : ℝ} {fs : Option ℝ}
    {g : Zpk} {e : ℝ} (he : edges (.ofRounding r m) wn fs = [e])
    (h : design (.ofRounding r m) n wn (some rp) (some rs) .lowpass .chebyshevII false fs = .ok g) :
    g.k = flSGain r m n rs e :=
  stop_gain2 hn he h

theorem stop_gain2_ex {eps : ℝ} {n : ℕ} (hn : n ≠ 0) {wn : List ℝ} {rs rp : ℝ} {fs : Option ℝ} {g : Zpk} {e : ℝ}
    (he : Spec.edges wn fs = [e])
    (h : design (.exact eps) n wn (some rp) (some rs) .lowpass .chebyshevII false fs = .ok g) :
    g.k = exSGain n rs e := by
  have he' : edges (.exact eps) wn fs = [e] := by
    rw [← he]
    cases fs <;> rfl
  rw [stop_gain2 hn he' h]
  have hf : ∀ l : List ℂ, foldMul (.exact eps) l = l.prod := fun l => Design.foldMul_eq l
  simp only [hf]
  have e4 : (((2 * 2 : ℝ)) : ℂ) = 4 := by push_cast; norm_num
  have ew : (2 * 2 * Real.tan (Real.pi * e / 2) : ℝ) = exWarp e := by
    rw [exWarp]; ring
  have emu : Real.arsinh (1 / (1 / Real.sqrt ((10 : ℝ) ^ (1 / 10 * rs) - 1))) / ((n : ℤ) : ℝ) = stopMu n rs := by
    rw [one_div_one_div, stopMu, show (1 / 10 * rs : ℝ) = rs / 10 by ring]; push_cast; rfl
  obtain ⟨ζ, hζ⟩ : ∃ ζ : ℤ → ℂ, ζ = fun j : ℤ =>
      (⟨Real.sinh (Real.arsinh (1 / (1 / Real.sqrt ((10 : ℝ) ^ (1 / 10 * rs) - 1))) / ((n : ℤ) : ℝ)) *
          (-Complex.exp (⟨0, Real.pi * (j : ℝ) / (2 * ((n : ℤ) : ℝ))⟩ : ℂ)).re,
        Real.cosh (Real.arsinh (1 / (1 / Real.sqrt ((10 : ℝ) ^ (1 / 10 * rs) - 1))) / ((n : ℤ) : ℝ)) *
          (-Complex.exp (⟨0, Real.pi * (j : ℝ) / (2 * ((n : ℤ) : ℝ))⟩ : ℂ)).im⟩ : ℂ) := ⟨_, rfl⟩
  have kζ : ∀ j, ζ j = exStop n rs j := by
    intro j
    rw [hζ, exStop]
    simp only [emu]
    simp [Complex.exp_re, Complex.exp_im]
  obtain ⟨z, hz⟩ : ∃ z : ℤ → ℂ, z = fun j : ℤ => -(starRingEnd ℂ) (Complex.I /
      (Real.sin ((j : ℝ) * (Real.pi / (2 * ((n : ℤ) : ℝ)))) : ℝ)) := ⟨_, rfl⟩
  have kz : ∀ j, z j = exZero n j := by
    intro j
    rw [hz]
    dsimp only
    rw [exZero, map_div₀, Complex.conj_I, Complex.conj_ofReal, neg_div, neg_neg]
    congr 3
    push_cast; ring
  have : ((((stepRange (-(n : ℤ) + 1) n).map (fun j => -(1 / ζ j))).prod / ((cheb2Ms n).map (fun j => -z j)).prod).re) *
      (2 * 2 * Real.tan (Real.pi * e / 2)) ^ (n - (cheb2Ms n).length) *
      (((cheb2Ms n).map (fun j => (((2 * 2 : ℝ)) : ℂ) - z j * ((2 * 2 * Real.tan (Real.pi * e / 2) : ℝ) : ℂ))).prod /
        ((stepRange (-(n : ℤ) + 1) n).map (fun j =>
          (((2 * 2 : ℝ)) : ℂ) - 1 / ζ j * ((2 * 2 * Real.tan (Real.pi * e / 2) : ℝ) : ℂ))).prod).re = exSGain n rs e := by
    simp only [ew, kζ, kz, e4]
    simp only [exSGain, exSUnit, exZUnit, exSNum, exSDen, exSPole, exSZero, mul_comm (exWarp e : ℂ)]
  rw [← this, hζ, hz]
  rfl

variable {r : Rounding} {m : Libm} {h σ : ℝ}

theorem cheb2Ms_deg (n : ℕ) : (cheb2Ms n).length ≤ n ∧ n - (cheb2Ms n).length ≤ 1 := by
  have := (Props.cheb2Ms_perm n).length_eq
  rw [stepRange_sym_length] at this
  split at this
  · rw [List.length_cons] at this; omega
  · omega

/-- A product over the indices of the zeros is real if conjugate factors belong to opposite indices. -/
theorem prod_ms_real (n : ℕ) {g : ℤ → ℂ} (hg : ∀ j, (starRingEnd ℂ) (g j) = g (-j)) :
    (((cheb2Ms n).map g).prod).im = 0 := by
  have e : ((cheb2Ms n).map g).prod = ((stepRange (-(n : ℤ) + 1) n).map (fun j => if j = 0 then 1 else g j)).prod := by
    rw [((Props.cheb2Ms_perm n).map _).prod_eq]
    have : (cheb2Ms n).map g = (cheb2Ms n).map (fun j => if j = 0 then 1 else g j) := by
      refine List.map_congr_left (fun j hj => ?_)
      rw [if_neg (mem_of_cheb2Ms hj).2]
    rw [this]
    split
    · rw [List.map_cons, List.prod_cons, if_pos rfl, one_mul]
    · rfl
  rw [e]
  refine prod_sym_real n (fun j => ?_)
  by_cases hj : j = 0
  · simp [hj]
  · rw [if_neg hj, if_neg (by omega), hg]

theorem exStop_conj (n : ℕ) (rs : ℝ) (j : ℤ) : (starRingEnd ℂ) (exStop n rs j) = exStop n rs (-j) := by
  have e : Real.pi * ((-j : ℤ) : ℝ) / (2 * n) = -(Real.pi * j / (2 * n)) := by push_cast; ring
  rw [exStop, exStop, e, Real.cos_neg, Real.sin_neg]
  apply Complex.ext <;> simp

theorem exZero_conj (n : ℕ) (j : ℤ) : (starRingEnd ℂ) (exZero n j) = exZero n (-j) := by
  have e : Real.pi * ((-j : ℤ) : ℝ) / (2 * n) = -(Real.pi * j / (2 * n)) := by push_cast; ring
  rw [exZero, exZero, e, map_div₀, Complex.conj_I, Complex.conj_ofReal, Real.sin_neg, Complex.ofReal_neg, neg_div,
    div_neg]

/-- The sizes of the products. -/
theorem stop_sizes {e : ℝ} (h0 : 0 < e) (h1 : e < 1) {n : ℕ} (hn : n ≠ 0) {rs : ℝ} (hμ : 0 < stopMu n rs) {a b : ℝ}
    (ha : a = 1 / (n * Real.cosh (stopMu n rs)))
    (hb : b = Real.sinh (stopMu n rs) / (Real.cosh (stopMu n rs) * (4 + exWarp e)))
    (hσ : σ = (stopMargin n rs e / 20) ^ n) {d : ℕ} (hd : d ≤ 1) :
    0 < a ∧ a ≤ 1 ∧ 0 < b ∧ b ≤ 1 ∧ σ ≤ 0.8 * (exWarp e ^ d * (a ^ n * b ^ n)) ∧ σ ≤ 0.8 * (a ^ n * b ^ n) := by
  have hn1 : (1 : ℝ) ≤ n := by exact_mod_cast Nat.one_le_iff_ne_zero.mpr hn
  have hn0 : (0 : ℝ) < n := by linarith
  have hw := exWarp_pos h0 h1
  have hR := exWarp_ratio h0 h1
  have hS0 : 0 < Real.sinh (stopMu n rs) := Real.sinh_pos_iff.mpr hμ
  have hC1 := Real.one_le_cosh (stopMu n rs)
  have hSC : Real.sinh (stopMu n rs) ≤ Real.cosh (stopMu n rs) := (Real.sinh_lt_cosh _).le
  rw [stopMargin] at hσ
  generalize Real.sinh (stopMu n rs) = Sh at *
  generalize Real.cosh (stopMu n rs) = C at *
  generalize exWarp e = w at *
  have hC0 : 0 < C := by linarith
  have h4 : 0 < 4 + w := by linarith
  have ha0 : 0 < a := by rw [ha]; positivity
  have hb0 : 0 < b := by rw [hb]; positivity
  have ha1 : a ≤ 1 := by
    rw [ha, div_le_one (by positivity)]; nlinarith
  have hb1 : b ≤ 1 := by
    rw [hb, div_le_one (by positivity)]; nlinarith
  obtain ⟨y, hy⟩ : ∃ y, y = e * (1 - e) * Sh / (n * C ^ 2) / 16 := ⟨_, rfl⟩
  have h1e : 0 < 1 - e := by linarith
  have hy0 : 0 < y := by rw [hy]; positivity
  have key : y ≤ a * b * (w / (4 + w)) := by
    have e1 : a * b * (w / (4 + w)) = 4 * w / (4 + w) ^ 2 * (Sh / (4 * (n * C ^ 2))) := by
      rw [ha, hb]; field_simp
    have e2 : y = e * (1 - e) / 4 * (Sh / (4 * (n * C ^ 2))) := by rw [hy]; field_simp; ring
    rw [e1, e2]
    exact mul_le_mul_of_nonneg_right hR (by positivity)
  have hab : 0 < a * b := by positivity
  have q1 : w / (4 + w) ≤ 1 := by rw [div_le_one h4]; linarith
  have q2 : w / (4 + w) ≤ w := div_le_self hw.le (by linarith)
  have k1 : y ≤ a * b := key.trans (mul_le_of_le_one_right hab.le q1)
  have k2 : y ≤ a * b * w := key.trans (mul_le_mul_of_nonneg_left q2 hab.le)
  have p1 : y ^ n ≤ a ^ n * b ^ n := by rw [← mul_pow]; exact pow_le_pow_left₀ hy0.le k1 n
  have p2 : y ^ n ≤ w ^ d * (a ^ n * b ^ n) := by
    rcases Nat.le_one_iff_eq_zero_or_eq_one.mp hd with rfl | rfl
    · simpa using p1
    · obtain ⟨k, rfl⟩ := Nat.exists_eq_succ_of_ne_zero hn
      rw [← mul_pow, pow_one, Nat.succ_eq_add_one, pow_succ, pow_succ]
      have := mul_le_mul (pow_le_pow_left₀ hy0.le k1 k) k2 hy0.le (by positivity)
      linarith
  have hσy : σ ≤ 0.8 * y ^ n := by
    have e1 : σ = 0.8 ^ n * y ^ n := by
      rw [hσ, hy, ← mul_pow]; congr 1; ring
    rw [e1]
    exact mul_le_mul_of_nonneg_right (pow_le_of_le_one (by norm_num) (by norm_num) hn) (by positivity)
  exact ⟨ha0, ha1, hb0, hb1, by linarith, by linarith⟩

set_option maxHeartbeats 1600000 in
/-- The error of the gain. -/
theorem stop_gain2_err {e e' : ℝ} {n : ℕ} (hn : n ≠ 0) {rs : ℝ} (hμ : 0 < stopMu n rs) (he0 : 0 < e) (he : e < 1)
    (S : Small r h ((stopMargin n rs e / 20) ^ n)) (hr : r.Nearest) (hm : m.Accurate r h) {H : ℝ} (hhH : h ≤ H)
    (hη : n * H ≤ 1 / 8192) (ew : |flWarp r m e' - exWarp e| ≤ 9.7 * H * exWarp e)
    (key : ∀ j ∈ stepRange (-(n : ℤ) + 1) n,
      ‖flDiv r 1 (flStop r m n rs j) - 1 / exStop n rs j‖ ≤ 16 * H * ‖1 / exStop n rs j‖ ∧
      ‖flSPole r m n rs e' j - exSPole n rs e j‖ ≤ 38 * H * ‖exSPole n rs e j‖ ∧
      (j ≠ 0 → ‖flZero r m n j - exZero n j‖ ≤ 16 * H * ‖exZero n j‖ ∧
        ‖flSZero r m n e' j - exSZero n e j‖ ≤ 38 * H * ‖exSZero n e j‖)) :
    exSGain n rs e ≠ 0 ∧ |flSGain r m n rs e' - exSGain n rs e| ≤ 210 * (n * H) * |exSGain n rs e| := by
  have h0 := S.h_nonneg
  have hH0 := h0.trans hhH
  have hn1 : (1 : ℝ) ≤ n := by exact_mod_cast Nat.one_le_iff_ne_zero.mpr hn
  have hn0 : (0 : ℝ) < n := by linarith
  have hnH0 : 0 ≤ n * H := by positivity
  have hHn : H ≤ n * H := le_mul_of_one_le_left hH0 hn1
  have hHs : H ≤ 1 / 1024 := by linarith
  have hw := exWarp_pos he0 he
  obtain ⟨len, hd⟩ := cheb2Ms_deg n
  have hlen : ((cheb2Ms n).length : ℝ) ≤ n := by exact_mod_cast len
  obtain ⟨σ, hσ⟩ : ∃ σ, σ = (stopMargin n rs e / 20) ^ n := ⟨_, rfl⟩
  obtain ⟨a, ha⟩ : ∃ a, a = 1 / (n * Real.cosh (stopMu n rs)) := ⟨_, rfl⟩
  obtain ⟨b, hb⟩ : ∃ b, b = Real.sinh (stopMu n rs) / (Real.cosh (stopMu n rs) * (4 + exWarp e)) := ⟨_, rfl⟩
  obtain ⟨ha0, ha1, hb0, hb1, s1, s2⟩ := stop_sizes he0 he hn hμ ha hb hσ hd
  rw [← hσ] at S
  have han : a ^ n ≤ 1 := pow_le_one₀ ha0.le ha1
  have hbn : b ^ n ≤ 1 := pow_le_one₀ hb0.le hb1
  have han0 : 0 < a ^ n := by positivity
  have hbn0 : 0 < b ^ n := by positivity
  have hwd : 0 < exWarp e ^ (n - (cheb2Ms n).length) := by positivity
  have hC1 := Real.one_le_cosh (stopMu n rs)
  have hC0 : 0 < Real.cosh (stopMu n rs) := by linarith
  have hS0 : 0 < Real.sinh (stopMu n rs) := Real.sinh_pos_iff.mpr hμ
  have hSC : Real.sinh (stopMu n rs) ≤ Real.cosh (stopMu n rs) := (Real.sinh_lt_cosh _).le
  have sa : σ ≤ 0.8 * a ^ n := s2.trans (by
    have : a ^ n * b ^ n ≤ a ^ n := mul_le_of_le_one_right han0.le hbn
    linarith)
  have sb : σ ≤ 0.8 * b ^ n := s2.trans (by
    have : a ^ n * b ^ n ≤ b ^ n := mul_le_of_le_one_left hbn0.le han
    linarith)
  have hX8 := stopMargin_mul_le hn he0 he hμ
  have hX0 : 0 < stopMargin n rs e := by
    have : 0 < 1 - e := by linarith
    rw [stopMargin]; positivity
  have hσ4 : σ ≤ 1 / 4 := by
    have i1 : stopMargin n rs e ≤ stopMargin n rs e * n := le_mul_of_one_le_right hX0.le hn1
    rw [hσ]
    refine (pow_le_of_le_one (by positivity) (by linarith) hn).trans (by linarith)
  have hHh : H * h ≤ 1 / 1024 * H := by
    have := mul_le_mul_of_nonneg_left (hhH.trans hHs) hH0
    linarith
  -- the product of the negated poles of the prototype
  have hCi1 : 1 / Real.cosh (stopMu n rs) ≤ 1 := by rw [div_le_one hC0]; exact hC1
  have hCi0 : 0 < 1 / Real.cosh (stopMu n rs) := by positivity
  have haC : a ≤ 1 / Real.cosh (stopMu n rs) := by
    rw [ha]; exact one_div_le_one_div_of_le hC0 (le_mul_of_one_le_left hC0.le hn1)
  have hinv : ∀ j : ℤ, 1 / Real.cosh (stopMu n rs) ≤ ‖1 / exStop n rs j‖ := by
    intro j
    obtain ⟨b1, b2⟩ := exStop_bounds hμ j
    rw [norm_div, norm_one]
    exact one_div_le_one_div_of_le (by linarith) b2
  have U1 : (1 / Real.cosh (stopMu n rs)) ^ n ≤ ‖exSUnit n rs‖ := by
    have := le_norm_prod hCi0.le (l := (stepRange (-(n : ℤ) + 1) n).map (fun j => -(1 / exStop n rs j))) (fun x hx => by
      obtain ⟨j, -, rfl⟩ := List.mem_map.mp hx
      rw [norm_neg]; exact hinv j)
    rwa [List.length_map, stepRange_sym_length] at this
  have haU : a ^ n ≤ (1 / Real.cosh (stopMu n rs)) ^ n := pow_le_pow_left₀ ha0.le haC n
  have U3 : (exSUnit n rs).im = 0 := by
    refine prod_sym_real n (fun j => ?_)
    rw [map_neg, map_div₀, map_one, exStop_conj]
  have U4 : ‖flSUnit r m n rs - exSUnit n rs‖ ≤ 22.6 * (n * H) * ‖exSUnit n rs‖ := by
    have k := foldMul_err' (m := m) S (by linarith) hr hCi0 hCi1 (c := 16 * H) (κ := 20.5 * H) (by positivity)
      (by linarith) (fun j => -(1 / exStop n rs j)) (fun j => -flDiv r 1 (flStop r m n rs j)) (stepRange (-(n : ℤ) + 1) n)
      (fun j hj => by rw [norm_neg, ← neg_sub', norm_neg]; exact (key j hj).1)
      (fun j _ => by rw [norm_neg]; exact hinv j)
      (by rw [stepRange_sym_length]; linarith) (by rw [stepRange_sym_length]; linarith)
    rw [stepRange_sym_length] at k
    exact k.trans (mul_le_mul_of_nonneg_right (by linarith) (norm_nonneg _))
  -- the product of the negated zeros of the prototype
  have zb : ∀ j ∈ cheb2Ms n, 1 ≤ ‖-exZero n j‖ ∧ ‖-exZero n j‖ ≤ n := by
    intro j hj
    obtain ⟨ja, jb⟩ := mem_of_cheb2Ms hj
    obtain ⟨-, -, -, js⟩ := angle_facts hn ja
    have c6 := Real.abs_sin_le_one (Real.pi * j / (2 * n))
    have js := js jb
    have hs0 : 0 < |Real.sin (Real.pi * j / (2 * n))| := lt_of_lt_of_le (by positivity) js
    have hN : ‖-exZero n j‖ = 1 / |Real.sin (Real.pi * j / (2 * n))| := by
      rw [norm_neg, exZero, norm_div, Complex.norm_I, Complex.norm_real, Real.norm_eq_abs]
    rw [hN]
    constructor
    · rw [le_div_iff₀ hs0]; linarith
    · rw [div_le_iff₀ hs0]
      rw [div_le_iff₀ hn0] at js
      linarith
  have Z1 : 1 ≤ ‖exZUnit n‖ := one_le_norm_prod (fun x hx => by
    obtain ⟨j, hj, rfl⟩ := List.mem_map.mp hx
    exact (zb j hj).1)
  have Z2 : ‖exZUnit n‖ ≤ (n : ℝ) ^ n := by
    have := norm_prod_le (l := (cheb2Ms n).map (fun j => -exZero n j)) (c := (n : ℝ)) (fun x hx => by
      obtain ⟨j, hj, rfl⟩ := List.mem_map.mp hx
      exact (zb j hj).2)
    rw [List.length_map] at this
    exact this.trans (pow_le_pow_right₀ hn1 len)
  have Z3 : (exZUnit n).im = 0 := by
    refine prod_ms_real n (fun j => ?_)
    rw [map_neg, exZero_conj]
  have hlenH : ((cheb2Ms n).length : ℝ) * H ≤ n * H := mul_le_mul_of_nonneg_right hlen hH0
  have Z4 : ‖flZUnit r m n - exZUnit n‖ ≤ 22.6 * (n * H) * ‖exZUnit n‖ := by
    have k := foldMul_err (m := m) S hσ4 (by linarith) hr (c := 16 * H) (κ := 20.5 * H) (by positivity)
      (by linarith) (by linarith) (fun j => -exZero n j) (fun j => -flZero r m n j) (cheb2Ms n)
      (fun j hj => by
        obtain ⟨ja, jb⟩ := mem_of_cheb2Ms hj
        rw [norm_neg, ← neg_sub', norm_neg]; exact ((key j ja).2.2 jb).1)
      (fun j hj => (zb j hj).1) (by linarith)
    exact k.trans (mul_le_mul_of_nonneg_right (by linarith) (norm_nonneg _))
  -- the gain of the prototype
  have hU0 : 0 < ‖exSUnit n rs‖ := by linarith
  have hZ0 : 0 < ‖exZUnit n‖ := by linarith
  have q0 : |(exSUnit n rs / exZUnit n).re| = ‖exSUnit n rs‖ / ‖exZUnit n‖ := re_of_real_quotient U3 Z3
  have aq : a ^ n ≤ ‖exSUnit n rs‖ / ‖exZUnit n‖ := by
    rw [le_div_iff₀ hZ0]
    have i1 : a ^ n * ‖exZUnit n‖ ≤ a ^ n * (n : ℝ) ^ n := mul_le_mul_of_nonneg_left Z2 han0.le
    have i2 : a ^ n * (n : ℝ) ^ n = (1 / Real.cosh (stopMu n rs)) ^ n := by
      rw [← mul_pow]; congr 1; rw [ha]; field_simp
    linarith
  have Q1 := S.flDiv_rel' (by linarith) hr (by linarith) (by linarith) U4 Z4
    (by have : 1 ≤ ‖exZUnit n‖ ^ 2 := one_le_pow₀ Z1
        linarith)
    (by have : ‖exSUnit n rs‖ * 1 ≤ ‖exSUnit n rs‖ * ‖exZUnit n‖ := mul_le_mul_of_nonneg_left Z1 hU0.le
        linarith) (by linarith)
  have Q1' : |(flDiv r (flSUnit r m n rs) (flZUnit r m n)).re - (exSUnit n rs / exZUnit n).re| ≤
      60.2 * (n * H) * |(exSUnit n rs / exZUnit n).re| := by
    rw [q0, ← Complex.sub_re]
    exact (Complex.abs_re_le_norm _).trans (Q1.trans (mul_le_mul_of_nonneg_right (by linarith) (by positivity)))
  have hq0 : (exSUnit n rs / exZUnit n).re ≠ 0 := by rw [← abs_pos, q0]; positivity
  -- the products of the bilinear transform
  have h4 : ‖(4 : ℂ)‖ = 4 := by simp
  have fac : ∀ j ∈ stepRange (-(n : ℤ) + 1) n, 4 ≤ ‖4 - exSPole n rs e j‖ ∧
      ‖(⟨r.rnd (r.rnd (2 * 2) - (flSPole r m n rs e' j).re), r.rnd (0 - (flSPole r m n rs e' j).im)⟩ : ℂ) -
        (4 - exSPole n rs e j)‖ ≤ 40 * H * ‖4 - exSPole n rs e j‖ := by
    intro j hj
    exact factor_err S hσ4 hr hhH hHs (stop_margin hn hμ he0 he hj rfl).1 (key j hj).2.1
  have zfac : ∀ j ∈ cheb2Ms n, 4 ≤ ‖4 - exSZero n e j‖ ∧
      ‖(⟨r.rnd (r.rnd (2 * 2) - (flSZero r m n e' j).re), r.rnd (0 - (flSZero r m n e' j).im)⟩ : ℂ) -
        (4 - exSZero n e j)‖ ≤ 40 * H * ‖4 - exSZero n e j‖ := by
    intro j hj
    obtain ⟨ja, jb⟩ := mem_of_cheb2Ms hj
    exact factor_err S hσ4 hr hhH hHs (exSZero_parts n e j).1.le ((key j ja).2.2 jb).2
  have D1 : 1 ≤ ‖exSDen n rs e‖ := one_le_norm_prod (fun x hx => by
    obtain ⟨j, hj, rfl⟩ := List.mem_map.mp hx
    linarith [(fac j hj).1])
  have N1 : 1 ≤ ‖exSNum n e‖ := one_le_norm_prod (fun x hx => by
    obtain ⟨j, hj, rfl⟩ := List.mem_map.mp hx
    linarith [(zfac j hj).1])
  have D3 : (exSDen n rs e).im = 0 := by
    refine prod_sym_real n (fun j => ?_)
    rw [map_sub, map_ofNat, exSPole, map_mul, Complex.conj_ofReal, map_div₀, map_one, exStop_conj, exSPole]
  have N3 : (exSNum n e).im = 0 := by
    refine prod_ms_real n (fun j => ?_)
    rw [map_sub, map_ofNat, exSZero, map_mul, Complex.conj_ofReal, exZero_conj, exSZero]
  have D2 : ‖exSDen n rs e‖ ≤ (1 / b) ^ n := by
    have := norm_prod_le (l := (stepRange (-(n : ℤ) + 1) n).map (fun j => 4 - exSPole n rs e j))
      (c := 1 / b) (fun x hx => by
        obtain ⟨j, hj, rfl⟩ := List.mem_map.mp hx
        refine (norm_sub_le _ _).trans ?_
        obtain ⟨b1, b2⟩ := exStop_bounds hμ j
        have hz0 : 0 < ‖exStop n rs j‖ := by linarith
        rw [exSPole, norm_mul, Complex.norm_real, Real.norm_of_nonneg hw.le, h4, norm_div, norm_one, mul_one_div, hb,
          one_div_div, le_div_iff₀ hS0]
        have i1 : exWarp e / ‖exStop n rs j‖ * Real.sinh (stopMu n rs) ≤ exWarp e := by
          rw [div_mul_eq_mul_div, div_le_iff₀ hz0]
          exact mul_le_mul_of_nonneg_left b1 hw.le
        have i2 := mul_le_mul_of_nonneg_left hC1 hw.le
        linarith)
    rwa [List.length_map, stepRange_sym_length] at this
  have D4 : ‖flSDen r m n rs e' - exSDen n rs e‖ ≤ 49.5 * (n * H) * ‖exSDen n rs e‖ := by
    have k := foldMul_err (m := m) S hσ4 (by linarith) hr (c := 40 * H) (κ := 45 * H) (by positivity) (by linarith)
      (by linarith) (fun j => 4 - exSPole n rs e j) (fun j =>
        (⟨r.rnd (r.rnd (2 * 2) - (flSPole r m n rs e' j).re), r.rnd (0 - (flSPole r m n rs e' j).im)⟩ : ℂ))
      (stepRange (-(n : ℤ) + 1) n) (fun j hj => (fac j hj).2) (fun j hj => by linarith [(fac j hj).1])
      (by rw [stepRange_sym_length]; linarith)
    rw [stepRange_sym_length] at k
    exact k.trans (mul_le_mul_of_nonneg_right (by linarith) (norm_nonneg _))
  have N4 : ‖flSNum r m n e' - exSNum n e‖ ≤ 49.5 * (n * H) * ‖exSNum n e‖ := by
    have k := foldMul_err (m := m) S hσ4 (by linarith) hr (c := 40 * H) (κ := 45 * H) (by positivity) (by linarith)
      (by linarith) (fun j => 4 - exSZero n e j) (fun j =>
        (⟨r.rnd (r.rnd (2 * 2) - (flSZero r m n e' j).re), r.rnd (0 - (flSZero r m n e' j).im)⟩ : ℂ))
      (cheb2Ms n) (fun j hj => (zfac j hj).2) (fun j hj => by linarith [(zfac j hj).1]) (by linarith)
    exact k.trans (mul_le_mul_of_nonneg_right (by linarith) (norm_nonneg _))
  have hD0 : 0 < ‖exSDen n rs e‖ := by linarith
  have t0 : |(exSNum n e / exSDen n rs e).re| = ‖exSNum n e‖ / ‖exSDen n rs e‖ := re_of_real_quotient N3 D3
  have bt : b ^ n ≤ ‖exSNum n e‖ / ‖exSDen n rs e‖ := by
    rw [le_div_iff₀ hD0]
    have i1 := mul_le_mul_of_nonneg_left D2 hbn0.le
    have i2 : b ^ n * (1 / b) ^ n = 1 := by rw [← mul_pow, mul_one_div_cancel hb0.ne', one_pow]
    linarith
  have Q2 := S.flDiv_rel hσ4 (by linarith) hr (by linarith) (by linarith) N4 D4 N1 D1 (by linarith)
  have Q2' : |(flDiv r (flSNum r m n e') (flSDen r m n rs e')).re - (exSNum n e / exSDen n rs e).re| ≤
      117.2 * (n * H) * |(exSNum n e / exSDen n rs e).re| := by
    rw [t0, ← Complex.sub_re]
    exact (Complex.abs_re_le_norm _).trans (Q2.trans (mul_le_mul_of_nonneg_right (by linarith) (by positivity)))
  have ht0 : (exSNum n e / exSDen n rs e).re ≠ 0 := by rw [← abs_pos, t0]; positivity
  -- the power of the edge
  have hab1 : a ^ n * b ^ n ≤ 1 := mul_le_one₀ han hbn0.le hbn
  have sw : σ ≤ exWarp e ^ (n - (cheb2Ms n).length) := by
    have : exWarp e ^ (n - (cheb2Ms n).length) * (a ^ n * b ^ n) ≤ exWarp e ^ (n - (cheb2Ms n).length) :=
      mul_le_of_le_one_right hwd.le hab1
    linarith
  have pw : |m.powi (flWarp r m e') (n - (cheb2Ms n).length) - exWarp e ^ (n - (cheb2Ms n).length)| ≤
      13.7 * (n * H) * exWarp e ^ (n - (cheb2Ms n).length) := by
    generalize n - (cheb2Ms n).length = d at *
    rcases Nat.le_one_iff_eq_zero_or_eq_one.mp hd with rfl | rfl
    · have hw' : 0 < flWarp r m e' := by
        have := (abs_le.mp ew).1
        have : H * exWarp e ≤ 1 / 1024 * exWarp e := mul_le_mul_of_nonneg_right hHs hw.le
        linarith
      have := hm.powi _ 0 hw'
      simp only [Nat.cast_zero, zero_mul] at this
      exact this.trans (by positivity)
    · have := powi_err (n := 1) S hm one_ne_zero hw hhH (by simpa using hHs) ew sw
      refine this.trans (mul_le_mul_of_nonneg_right ?_ hwd.le)
      simp only [Nat.cast_one, one_mul]
      linarith
  have wabs : |exWarp e ^ (n - (cheb2Ms n).length)| = exWarp e ^ (n - (cheb2Ms n).length) := abs_of_pos hwd
  have p2 := S.mul_rel (y := exWarp e ^ (n - (cheb2Ms n).length)) (y' := m.powi (flWarp r m e') (n - (cheb2Ms n).length))
    (β := 13.7 * (n * H)) hq0 hwd.ne' (by linarith) (by linarith) Q1' (by rw [wabs]; exact pw) (by
      rw [abs_mul, wabs, q0]
      have i1 := mul_le_mul_of_nonneg_right aq hwd.le
      have i2 : exWarp e ^ (n - (cheb2Ms n).length) * a ^ n * b ^ n ≤ exWarp e ^ (n - (cheb2Ms n).length) * a ^ n :=
        mul_le_of_le_one_right (by positivity) hbn
      have i3 : 0 < exWarp e ^ (n - (cheb2Ms n).length) * a ^ n := by positivity
      linarith)
  have k := S.mul_rel (α := 76.6 * (n * H)) (mul_ne_zero hq0 hwd.ne') ht0 (by linarith) (by linarith)
    (p2.trans (mul_le_mul_of_nonneg_right (by linarith) (abs_nonneg _))) Q2' (by
      rw [abs_mul, abs_mul, wabs, q0, t0]
      have i1 := mul_le_mul_of_nonneg_right aq hwd.le
      have i2 := mul_le_mul i1 bt hbn0.le (by positivity)
      have i3 : 0 < exWarp e ^ (n - (cheb2Ms n).length) * (a ^ n * b ^ n) := by positivity
      linarith)
  refine ⟨mul_ne_zero (mul_ne_zero hq0 hwd.ne') ht0, ?_⟩
  refine k.trans (mul_le_mul_of_nonneg_right ?_ (abs_nonneg _))
  linarith

end SciRs.Rounded

import Verif.Props.Rounded.Coefficients
import Mathlib.Analysis.Real.Pi.Bounds

/-!
# C87: a cutoff too low for the precision

A valid request whose filter is not stable: rounding moves the pole onto the unit circle.
-/

namespace SciRs.Props

open SciRs SciRs.Design SciRs.Spec SciRs.Rounded

/-- Numbers close to a power of two are rounded to it. -/
theorem rnd32_four {x : ℝ} (h : |x - 4| ≤ 2 ^ (-26 : ℤ)) : binary32.rnd x = 4 := by
  have e26 : (2 : ℝ) ^ (-26 : ℤ) = 1 / 2 ^ 26 := by rw [zpow_neg]; norm_num
  rw [e26] at h
  obtain ⟨h1, h2⟩ := abs_le.mp h
  have hx : 0 < x := by norm_num at h1; linarith
  change Binary.rnd 24 (-149) x = 4
  have place : ∀ k : ℤ, (2 : ℝ) ^ k ≤ x → x < (2 : ℝ) ^ (k + 1) → -100 ≤ k →
      Binary.lastPlace 24 (-149) x = k - 23 := by
    intro k a b hk
    have hl : Int.log 2 |x| = k := by
      rw [abs_of_pos hx]
      apply le_antisymm
      · have : Int.log 2 x < k + 1 := (Int.lt_zpow_iff_log_lt (b := 2) (by norm_num) hx).mp (by exact_mod_cast b)
        omega
      · exact (Int.zpow_le_iff_le_log (b := 2) (by norm_num) hx).mp (by exact_mod_cast a)
    unfold Binary.lastPlace
    rw [hl]; omega
  by_cases h4 : 4 ≤ x
  · have hp := place 2 (by norm_num; exact h4) (by norm_num; norm_num at h2; linarith) (by norm_num)
    unfold Binary.rnd
    have e : (2 : ℝ) ^ ((2 : ℤ) - 23) = 1 / 2 ^ 21 := by
      rw [show (2 : ℤ) - 23 = -21 by norm_num, zpow_neg]; norm_num
    rw [hp, e, Binary.rne_unique (n := 2 ^ 23) (by
      rw [abs_lt]
      push_cast
      norm_num at h1 h2 ⊢
      constructor <;> linarith)]
    push_cast
    norm_num
  · push Not at h4
    have hp := place 1 (by norm_num; norm_num at h1; linarith) (by norm_num; linarith) (by norm_num)
    unfold Binary.rnd
    have e : (2 : ℝ) ^ ((1 : ℤ) - 23) = 1 / 2 ^ 22 := by
      rw [show (1 : ℤ) - 23 = -22 by norm_num, zpow_neg]; norm_num
    rw [hp, e, Binary.rne_unique (n := 2 ^ 24) (by
      rw [abs_lt]
      push_cast
      norm_num at h1 h2 ⊢
      constructor <;> linarith)]
    push_cast
    norm_num

/-- `f32` with a library that rounds the exact values. -/
noncomputable def f32 : Arith :=
  .ofRounding binary32 (.rounded binary32 binary32_nearest ((2 : ℝ) ^ (-23 : ℤ)) (by positivity))

/-- A power of two is kept. -/
theorem rnd32_pow (k : ℕ) (hk : k ≤ 60) : binary32.rnd (1 / 2 ^ k) = 1 / 2 ^ k := by
  have e : (1 / 2 ^ k : ℝ) = ((1 : ℤ) : ℝ) * (2 : ℝ) ^ (-(k : ℤ)) := by
    rw [zpow_neg, zpow_natCast]; simp
  have hx : (0 : ℝ) < 1 / 2 ^ k := by positivity
  refine Binary.rnd_multiple 24 (-149) 1 (j := -(k : ℤ)) ?_ e
  have hl : Int.log 2 |(1 / 2 ^ k : ℝ)| ≤ -(k : ℤ) := by
    have := Binary.lead_le hx.ne'
    rw [abs_of_pos hx] at this ⊢
    have h2 : (2 : ℝ) ^ Int.log 2 (1 / 2 ^ k : ℝ) ≤ 2 ^ (-(k : ℤ)) := by
      refine this.trans (le_of_eq ?_)
      rw [e]; simp
    exact (zpow_le_zpow_iff_right₀ (by norm_num : (1 : ℝ) < 2)).mp h2
  unfold Binary.lastPlace
  omega

/-- The pre-warped cutoff is tiny. -/
theorem warped_tiny : 0 ≤ f32.mul (f32.mul 2 2) (f32.tan (f32.div (f32.mul f32.pi (1 / 2 ^ 30)) 2)) ∧
    f32.mul (f32.mul 2 2) (f32.tan (f32.div (f32.mul f32.pi (1 / 2 ^ 30)) 2)) ≤ 1 / 2 ^ 26 := by
  have nn : ∀ x, 0 ≤ x → 0 ≤ binary32.rnd x := fun x hx => by
    have := binary32.mono 0 x hx; rwa [binary32.zero] at this
  have ub : ∀ (x : ℝ) (k : ℕ), k ≤ 60 → x ≤ 1 / 2 ^ k → binary32.rnd x ≤ 1 / 2 ^ k := fun x k hk hx => by
    have := binary32.mono x _ hx; rwa [rnd32_pow k hk] at this
  have h22 : f32.mul 2 2 = 4 := by
    change binary32.rnd (2 * 2) = 4
    rw [show (2 : ℝ) * 2 = 4 by norm_num, rnd_four binary32_nearest]
  have hpi0 : 0 ≤ f32.pi := nn _ Real.pi_pos.le
  have hpi4 : f32.pi ≤ 4 := by
    have := binary32.mono Real.pi 4 Real.pi_le_four
    rwa [rnd_four binary32_nearest] at this
  have a0 : 0 ≤ f32.mul f32.pi (1 / 2 ^ 30) := nn _ (by positivity)
  have a1 : f32.mul f32.pi (1 / 2 ^ 30) ≤ 1 / 2 ^ 28 := by
    refine ub _ 28 (by norm_num) ?_
    norm_num
    linarith
  have b0 : 0 ≤ f32.div (f32.mul f32.pi (1 / 2 ^ 30)) 2 := nn _ (by positivity)
  have b1 : f32.div (f32.mul f32.pi (1 / 2 ^ 30)) 2 ≤ 1 / 2 ^ 29 := by
    refine ub _ 29 (by norm_num) ?_
    norm_num at a1 ⊢
    linarith
  obtain ⟨y, hy⟩ : ∃ y, y = f32.div (f32.mul f32.pi (1 / 2 ^ 30)) 2 := ⟨_, rfl⟩
  rw [← hy] at b0 b1 ⊢
  have hy1 : y ≤ 1 := by norm_num at b1; linarith
  have hcos : 1 / 2 ≤ Real.cos y := by
    have := Real.one_sub_sq_div_two_le_cos (x := y)
    nlinarith
  have hsin : Real.sin y ≤ y := Real.sin_le b0
  have hsin0 : 0 ≤ Real.sin y := Real.sin_nonneg_of_nonneg_of_le_pi b0 (by linarith [Real.pi_gt_three])
  have t0 : 0 ≤ Real.tan y := by rw [Real.tan_eq_sin_div_cos]; positivity
  have t1 : Real.tan y ≤ 1 / 2 ^ 28 := by
    rw [Real.tan_eq_sin_div_cos, div_le_iff₀ (by linarith)]
    have : Real.sin y ≤ 1 / 2 ^ 29 := hsin.trans b1
    norm_num at this ⊢
    linarith
  have c0 : 0 ≤ f32.tan y := nn _ t0
  have c1 : f32.tan y ≤ 1 / 2 ^ 28 := ub _ 28 (by norm_num) t1
  rw [h22]
  refine ⟨nn _ (by positivity), ub _ 26 (by norm_num) ?_⟩
  norm_num at c1 ⊢
  linarith

/-- The first-order low-pass filter with cutoff `W`, in `f32`: one zero at `-1` and one pole. -/
theorem first_order_roots (s : Sorts) (W : ℝ)
    (hv : Valid f32 [W] none none .lowpass .butterworth false none) {w : ℝ}
    (hw : w = f32.mul (f32.mul 2 2) (f32.tan (f32.div (f32.mul f32.pi W) 2))) :
    ∃ g, Rounded.iirfilter f32 s 1 [W] none none (some .lowpass) none none (some .zpk) none = .ok (.zpk g) ∧
      g.z = [-1] ∧ g.p = [f32.cdiv (binary32.rnd (4 - w) : ℝ) (binary32.rnd (4 + w) : ℝ)] := by
  have hwr : binary32.rnd w = w := by rw [hw]; exact binary32_nearest.idem _
  have hpole : f32.cexp ⟨0, f32.div (f32.mul f32.pi (f32.ofInt 0)) (f32.ofInt (2 * (1 : ℕ)))⟩ = 1 := by
    have h0 : f32.ofInt 0 = 0 := by
      change binary32.rnd ((0 : ℤ) : ℝ) = 0
      rw [Int.cast_zero, binary32.zero]
    have h1 : f32.mul f32.pi 0 = 0 := by
      change binary32.rnd (f32.pi * 0) = 0
      rw [mul_zero, binary32.zero]
    have h2 : f32.div 0 (f32.ofInt (2 * (1 : ℕ))) = 0 := by
      change binary32.rnd (0 / _) = 0
      rw [zero_div, binary32.zero]
    rw [h0, h1, h2]
    have e1 : binary32.rnd (Real.exp 0) = 1 := by rw [Real.exp_zero]; exact binary32_nearest.one
    have e2 : binary32.rnd (Real.cos 0) = 1 := by rw [Real.cos_zero]; exact binary32_nearest.one
    have e3 : binary32.rnd (Real.sin 0) = 0 := by rw [Real.sin_zero]; exact binary32.zero
    apply Complex.ext
    · change binary32.rnd (binary32.rnd (Real.exp 0) * binary32.rnd (Real.cos 0)) = 1
      rw [e1, e2, one_mul, binary32_nearest.one]
    · change binary32.rnd (binary32.rnd (Real.exp 0) * binary32.rnd (Real.sin 0)) = 0
      rw [e3, mul_zero, binary32.zero]
  have hmul : f32.cmul (-1) (w : ℂ) = ((-w : ℝ) : ℂ) := by
    change flMul binary32 (-1) (w : ℂ) = _
    apply Complex.ext <;> simp [flMul, binary32.zero, binary32_nearest.odd, hwr]
  have h4 : f32.mul 2 2 = 4 := by
    change binary32.rnd (2 * 2) = 4
    rw [show (2 : ℝ) * 2 = 4 by norm_num, rnd_four binary32_nearest]
  have hadd : f32.cadd ((4 : ℝ) : ℂ) ((-w : ℝ) : ℂ) = (binary32.rnd (4 - w) : ℝ) := by
    apply Complex.ext
    · change binary32.rnd (4 + -w) = _
      rw [← sub_eq_add_neg]; rfl
    · change binary32.rnd (0 + 0) = 0
      rw [add_zero, binary32.zero]
  have hsub : f32.csub ((4 : ℝ) : ℂ) ((-w : ℝ) : ℂ) = (binary32.rnd (4 + w) : ℝ) := by
    apply Complex.ext
    · change binary32.rnd (4 - -w) = _
      rw [sub_neg_eq_add]; rfl
    · change binary32.rnd (0 - 0) = 0
      rw [sub_zero, binary32.zero]
  obtain ⟨g, hg⟩ := (Rounded.design_returns_iff (order := 1)).mpr hv
  have hz : Rounded.iirfilter f32 s 1 [W] none none (some .lowpass) none none (some .zpk) none =
      .ok (.zpk g) := by
    rw [Rounded.iirfilter_eq]
    change (Rounded.design f32 1 [W] none none .lowpass .butterworth false none >>= _) = _
    rw [hg]; rfl
  have hgz : g.z = [-1] := (C87_zeros binary32_nearest _ s 1 _ none none .lowpass none (by simp) none rfl none hz).1 rfl
  have hgp : g.p = [f32.cdiv (binary32.rnd (4 - w) : ℝ) (binary32.rnd (4 + w) : ℝ)] := by
    unfold Rounded.design at hg
    obtain ⟨e, he, hg⟩ := bind_eq_ok.mp hg
    obtain ⟨f, hf, hg⟩ := bind_eq_ok.mp hg
    obtain ⟨v, hv', hg⟩ := bind_eq_ok.mp hg
    obtain ⟨f', hf', hg⟩ := bind_eq_ok.mp hg
    rw [Rounded.validate_eq_ok] at he
    obtain ⟨rfl, -⟩ := he
    unfold Rounded.warp at hv'
    rw [if_pos rfl] at hv'
    obtain ⟨u, -, hv'⟩ := bind_eq_ok.mp hv'
    have hv2 : v = [w] := by
      rw [hw]
      simpa [Rounded.edges, pure, Except.pure] using hv'.symm
    subst hv2
    cases hf
    simp only [Rounded.bandTransform, Rounded.lp2lp] at hf'
    obtain ⟨d', -, hf'⟩ := bind_eq_ok.mp hf'
    cases hf'
    unfold Rounded.discretise Rounded.bilinear at hg
    rw [if_pos rfl] at hg
    obtain ⟨d, -, hg⟩ := bind_eq_ok.mp hg
    cases hg
    have hst : stepRange (-((1 : ℕ) : ℤ) + 1) ((1 : ℕ) : ℤ) = [0] := by decide
    simp only [Rounded.buttap, hst, List.map_cons, List.map_nil, hpole, Option.getD_some, hmul, h4, hadd, hsub]
  exact ⟨g, hz, hgz, hgp⟩

/-- **C87**, the claim "a valid request gives a stable filter" is false in `f32`: the first-order low-pass filter
with its cutoff at `2^-30` of the Nyquist frequency has its pole at exactly one. -/
theorem C87_low_edge_false (s : Sorts) (hs : s.Correct) :
    (∃ k, Rounded.iirfilter f32 s 1 [1 / 2 ^ 30] none none (some .lowpass) none none (some .zpk) none =
      .ok (.zpk { z := [-1], p := [1], k := k })) ∧
    ∃ x, Rounded.iirfilter f32 s 1 [1 / 2 ^ 30] none none (some .lowpass) none none (some .sos) none =
      .ok (.sos [x]) ∧ x.a1 = -1 ∧ x.a2 = 0 ∧ ¬ Stable x := by
  obtain ⟨w0, w1⟩ := warped_tiny
  obtain ⟨w, hw⟩ : ∃ w, w = f32.mul (f32.mul 2 2) (f32.tan (f32.div (f32.mul f32.pi (1 / 2 ^ 30)) 2)) := ⟨_, rfl⟩
  rw [← hw] at w0 w1
  have hv : Valid f32 [1 / 2 ^ 30] none none .lowpass .butterworth false none :=
    ⟨⟨by simp [Rounded.edges], by simp [Rounded.edges, Spec.edges], by simp [Rounded.edges, Spec.edges],
      by simp [Rounded.edges, Spec.edges]; norm_num, by simp, by simp, by simp, .inl rfl⟩, by simp⟩
  have e26 : (2 : ℝ) ^ (-26 : ℤ) = 1 / 2 ^ 26 := by rw [zpow_neg]; norm_num
  have hadd : binary32.rnd (4 - w) = 4 := by
    refine rnd32_four ?_
    rw [e26, abs_le]; constructor <;> linarith
  have hsub : binary32.rnd (4 + w) = 4 := by
    refine rnd32_four ?_
    rw [e26, abs_le]; constructor <;> linarith
  have hdiv : f32.cdiv ((4 : ℝ) : ℂ) ((4 : ℝ) : ℂ) = 1 := by
    change flDiv binary32 _ _ = _
    have h16 : (4 : ℝ) * 4 = 16 := by norm_num
    apply Complex.ext <;> simp [flDiv, binary32.zero, h16, rnd_sixteen binary32_nearest, binary32_nearest.one]
  obtain ⟨g, hz, hgz, hgp⟩ := first_order_roots s (1 / 2 ^ 30) hv hw
  rw [hadd, hsub, hdiv] at hgp
  refine ⟨⟨g.k, by rw [hz, ← hgz, ← hgp]⟩, ?_⟩
  obtain ⟨x, hx⟩ := C86_first_order (ofRounding_lawful binary32_nearest _) hs [1 / 2 ^ 30] none none .lowpass (.inl rfl)
    none none (by simp [KeepsPairs]) hv
  have hx : Rounded.iirfilter f32 s 1 [1 / 2 ^ 30] none none (some .lowpass) none none (some .sos) none =
      .ok (.sos [x]) := hx
  obtain ⟨f, hf, -, -, -, -, q0, qs, hl, -, -, hP⟩ := C87_coefficients binary32_nearest _ hs 1 one_ne_zero _ none none
    (some .lowpass) none none rfl none (by simp [KeepsPairs]) hx
  have hfg : f = g := by
    have := hf.symm.trans hz
    simpa using this
  subst hfg
  have hqs : qs = [] := by
    have := congrArg List.length hl
    simp at this
    exact this
  subst hqs
  have hx' : x = _ := (List.cons.inj hl).1
  rw [hgp] at hP
  have hP : [q0.2.2.1, q0.2.2.2].Perm [1, 0] := by simpa using hP
  have hq : (q0.2.2.1 = 1 ∧ q0.2.2.2 = 0) ∨ (q0.2.2.1 = 0 ∧ q0.2.2.2 = 1) := by
    have hm : q0.2.2.1 ∈ [(1 : ℂ), 0] := hP.subset (by simp)
    rcases List.mem_cons.mp hm with e | e
    · rw [e] at hP
      exact .inl ⟨e, by simpa using hP.cons_inv⟩
    · have e := List.mem_singleton.mp e
      rw [e] at hP
      exact .inr ⟨e, by simpa using (hP.trans (List.Perm.swap _ _ _)).cons_inv⟩
  have ha1 : x.a1 = -1 := by
    rw [hx']
    change -binary32.rnd (q0.2.2.1.re + q0.2.2.2.re) = -1
    rcases hq with ⟨a, b⟩ | ⟨a, b⟩ <;> rw [a, b] <;> simp [binary32_nearest.one]
  have ha2 : x.a2 = 0 := by
    rw [hx']
    change binary32.rnd (binary32.rnd (q0.2.2.1.re * q0.2.2.2.re) - binary32.rnd (q0.2.2.1.im * q0.2.2.2.im)) = 0
    rcases hq with ⟨a, b⟩ | ⟨a, b⟩ <;> rw [a, b] <;> simp [binary32.zero]
  refine ⟨x, hx, ha1, ha2, fun hst => ?_⟩
  have := hst 1 (by rw [ha1, ha2]; norm_num)
  norm_num at this

/-! ### A request that meets the margin -/

theorem rnd32_int (n : ℤ) (h : |n| < 2 ^ 24) : binary32.rnd n = n := Binary.rnd_int 24 (-149) (by norm_num) n h

theorem rnd32_near_one : binary32.rnd (63 / 64) = 63 / 64 := by
  have e : (63 / 64 : ℝ) = ((63 : ℤ) : ℝ) * (2 : ℝ) ^ (-6 : ℤ) := by rw [zpow_neg]; norm_num
  refine Binary.rnd_multiple 24 (-149) 63 (j := -6) ?_ e
  have : Int.log 2 |(63 / 64 : ℝ)| ≤ 0 := by
    have h := Binary.lead_le (show (63 / 64 : ℝ) ≠ 0 by norm_num)
    have h2 : (2 : ℝ) ^ Int.log 2 |(63 / 64 : ℝ)| ≤ 2 ^ (0 : ℤ) := h.trans (by rw [abs_of_pos] <;> norm_num)
    exact (zpow_le_zpow_iff_right₀ (by norm_num : (1 : ℝ) < 2)).mp h2
  unfold Binary.lastPlace
  omega

/-- The first-order low-pass filter with its cutoff at half the Nyquist frequency meets the hypotheses of
`C87_stable_partial` in `f32`: it is returned as sections, its pole is at most `63/64` in size, and the section is stable. -/
example (s : Sorts) (hs : s.Correct) :
    ∃ x, Rounded.iirfilter f32 s 1 [1 / 2] none none (some .lowpass) none none (some .sos) none = .ok (.sos [x]) ∧
      Stable x := by
  have R := binary32_nearest
  have lo : ∀ (x : ℝ) (n : ℤ), |n| < 2 ^ 24 → (n : ℝ) ≤ x → (n : ℝ) ≤ binary32.rnd x := fun x n hn hx => by
    have := binary32.mono _ x hx; rwa [rnd32_int n hn] at this
  have hi : ∀ (x : ℝ) (n : ℤ), |n| < 2 ^ 24 → x ≤ n → binary32.rnd x ≤ n := fun x n hn hx => by
    have := binary32.mono x _ hx; rwa [rnd32_int n hn] at this
  have hv : Valid f32 [1 / 2] none none .lowpass .butterworth false none :=
    ⟨⟨by simp [Rounded.edges], by simp [Rounded.edges, Spec.edges], by simp [Rounded.edges, Spec.edges],
      by simp [Rounded.edges, Spec.edges]; norm_num, by simp, by simp, by simp, .inl rfl⟩, by simp⟩
  have h4 : f32.mul 2 2 = 4 := by
    change binary32.rnd (2 * 2) = 4
    rw [show (2 : ℝ) * 2 = 4 by norm_num, rnd_four R]
  -- the pre-warped cutoff is between 2 and 8
  obtain ⟨w, hw⟩ : ∃ w, w = f32.mul (f32.mul 2 2) (f32.tan (f32.div (f32.mul f32.pi (1 / 2)) 2)) := ⟨_, rfl⟩
  have hw01 : 2 ≤ w ∧ w ≤ 8 := by
    have p1 : 3 ≤ f32.pi := by exact_mod_cast lo Real.pi 3 (by norm_num) (by push_cast; exact Real.pi_gt_three.le)
    have p2 : f32.pi ≤ 4 := by exact_mod_cast hi Real.pi 4 (by norm_num) (by push_cast; exact Real.pi_le_four)
    have q1 : 1 ≤ f32.mul f32.pi (1 / 2) := by
      exact_mod_cast lo (f32.pi * (1 / 2)) 1 (by norm_num) (by push_cast; linarith)
    have q2 : f32.mul f32.pi (1 / 2) ≤ 2 := by
      exact_mod_cast hi (f32.pi * (1 / 2)) 2 (by norm_num) (by push_cast; linarith)
    have half : binary32.rnd (1 / 2) = 1 / 2 := by have := rnd32_pow 1 (by norm_num); norm_num at this ⊢; exact this
    have y1 : 1 / 2 ≤ f32.div (f32.mul f32.pi (1 / 2)) 2 := by
      have := binary32.mono (1 / 2) (f32.mul f32.pi (1 / 2) / 2) (by linarith)
      rwa [half] at this
    have y2 : f32.div (f32.mul f32.pi (1 / 2)) 2 ≤ 1 := by
      exact_mod_cast hi (f32.mul f32.pi (1 / 2) / 2) 1 (by norm_num) (by push_cast; linarith)
    obtain ⟨y, hy⟩ : ∃ y, y = f32.div (f32.mul f32.pi (1 / 2)) 2 := ⟨_, rfl⟩
    rw [← hy] at y1 y2 hw
    have c1 : 1 / 2 ≤ Real.cos y := by nlinarith [Real.one_sub_sq_div_two_le_cos (x := y)]
    have t1 : 1 / 2 ≤ Real.tan y := y1.trans (Real.le_tan (by linarith) (by linarith [Real.pi_gt_three]))
    have t2 : Real.tan y ≤ 2 := by
      rw [Real.tan_eq_sin_div_cos, div_le_iff₀ (by linarith)]
      linarith [Real.sin_le_one y]
    have r1 : 1 / 2 ≤ f32.tan y := by
      have := binary32.mono (1 / 2) _ t1
      rwa [half] at this
    have r2 : f32.tan y ≤ 2 := by exact_mod_cast hi (Real.tan y) 2 (by norm_num) (by push_cast; exact t2)
    rw [hw, h4]
    constructor
    · exact_mod_cast lo (4 * f32.tan y) 2 (by norm_num) (by push_cast; linarith)
    · exact_mod_cast hi (4 * f32.tan y) 8 (by norm_num) (by push_cast; linarith)
  obtain ⟨w0, w1⟩ := hw01
  obtain ⟨g, hz, hgz, hgp⟩ := first_order_roots s (1 / 2) hv hw
  have hu : binary32.u = 1 / 2 ^ 24 := by
    change (2 : ℝ) ^ (-24 : ℤ) = _
    rw [zpow_neg]; norm_num
  have ht : binary32.t ≤ 1 / 2 ^ 24 := by
    have : binary32.t = (2 : ℝ) ^ (-150 : ℤ) := rfl
    rw [this, ← hu]
    exact zpow_le_zpow_right₀ (by norm_num) (by norm_num)
  have hnorm : ∀ p ∈ g.p, ‖p‖ ≤ 1 - 1 / 64 := by
    intro p hp
    rw [hgp, List.mem_singleton] at hp
    obtain ⟨a, ha⟩ : ∃ a, a = binary32.rnd (4 - w) := ⟨_, rfl⟩
    obtain ⟨b, hb⟩ : ∃ b, b = binary32.rnd (4 + w) := ⟨_, rfl⟩
    have a1 : -4 ≤ a := by rw [ha]; exact_mod_cast lo (4 - w) (-4) (by norm_num) (by push_cast; linarith)
    have a2 : a ≤ 2 := by rw [ha]; exact_mod_cast hi (4 - w) 2 (by norm_num) (by push_cast; linarith)
    have b1 : 6 ≤ b := by rw [hb]; exact_mod_cast lo (4 + w) 6 (by norm_num) (by push_cast; linarith)
    have hab : |a * b| ≤ 4 * b := by
      rw [abs_mul, abs_of_pos (by linarith : 0 < b)]
      exact mul_le_mul_of_nonneg_right (abs_le.mpr ⟨by linarith, by linarith⟩) (by linarith)
    have hbb : 6 * b ≤ b * b := mul_le_mul_of_nonneg_right b1 (by linarith)
    have e2 := abs_le.mp (binary32.err (b * b))
    rw [hu] at e2
    have hbb0 : |b * b| = b * b := abs_of_nonneg (by positivity)
    rw [hbb0] at e2
    have n1 : |binary32.rnd (a * b)| ≤ 5 * b := by
      have e0 := binary32.err (a * b)
      rw [hu] at e0
      have e3 := abs_sub_abs_le_abs_sub (binary32.rnd (a * b)) (a * b)
      generalize |a * b| = y at hab e0 e3
      norm_num at ht e0 ⊢
      linarith
    have n2 : 59 / 10 * b ≤ binary32.rnd (b * b) := by
      norm_num at ht e2 ⊢
      nlinarith [e2.1, e2.2]
    have hn0 : 0 < binary32.rnd (b * b) := lt_of_lt_of_le (by linarith) n2
    have hq : |binary32.rnd (a * b) / binary32.rnd (b * b)| ≤ 63 / 64 := by
      rw [abs_div, abs_of_pos hn0, div_le_iff₀ hn0]
      linarith
    obtain ⟨k1, k2⟩ := abs_le.mp hq
    have hre : p = ((binary32.rnd (binary32.rnd (a * b) / binary32.rnd (b * b)) : ℝ) : ℂ) := by
      rw [hp, ← ha, ← hb]
      change flDiv binary32 _ _ = _
      apply Complex.ext <;> simp [flDiv, binary32.zero, R.idem]
    rw [hre, Complex.norm_real, Real.norm_eq_abs, abs_le]
    have m1 := binary32.mono _ _ k1
    have m2 := binary32.mono _ _ k2
    rw [R.odd, rnd32_near_one] at m1
    rw [rnd32_near_one] at m2
    constructor <;> linarith
  obtain ⟨x, hx⟩ := C86_first_order (ofRounding_lawful binary32_nearest _) hs [1 / 2] none none .lowpass (.inl rfl)
    none none (by simp [KeepsPairs]) hv
  refine ⟨x, hx, (C87_stable_partial R _ hs 1 one_ne_zero _ none none (some .lowpass) none none rfl none
    (by simp [KeepsPairs]) hx hz (δ := 1 / 64) (by norm_num) hnorm ?_ ?_).1 x (by simp)⟩
  · rw [hu]; norm_num at ht ⊢; linarith
  · rw [hu]; norm_num at ht ⊢; linarith

end SciRs.Props

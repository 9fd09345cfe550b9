import Verif.Lemmas.Design.Response

/-! # Lemmas about the formats of a designed filter -/

namespace SciRs.Design

open Complex SciRs.Spec SciRs.Props

/-- The prototype of a valid request is stable, real, and has its zeros on the imaginary axis. -/
theorem prototype_good {N : ℕ} {ftype : FType} {rp rs : Option ℝ} {f : Zpk}
    (h : prototype N ftype rp rs = .ok f) (hr : PositiveRipple ftype rp rs) :
    f.z.length ≤ f.p.length ∧ ConjClosed f.z ∧ ConjClosed f.p ∧ (∀ z ∈ f.z, z.re = 0) ∧
      (∀ p ∈ f.p, p.re < 0) ∧ f.p.length ≤ N ∧ (ftype ≠ .chebyshevII → f.z = []) := by
  by_cases hN : N = 0
  · subst hN
    have : f.z = [] ∧ f.p = [] := by
      cases ftype <;> cases rp <;> cases rs <;> simp [prototype] at h <;> subst h
      all_goals first
        | exact ⟨rfl, by rw [buttap_p_eq, stepRange_sym]; rfl⟩
        | (rw [C46_order_zero]; exact ⟨rfl, rfl⟩)
        | (rw [C47_order_zero]; exact ⟨rfl, rfl⟩)
    obtain ⟨h1, h2⟩ := this
    rw [h1, h2]
    simp [conjClosed_nil]
  · cases ftype with
    | butterworth =>
      cases h
      obtain ⟨h1, h2, h3, h4⟩ := C45_poles N hN
      rw [h1, h2]
      simp [conjClosed_nil, h3]
      exact fun p hp => (h4 p hp).1
    | chebyshevI =>
      cases rp with
      | none => simp [prototype] at h
      | some r =>
        cases h
        obtain ⟨h1, h2, h3, h4⟩ := C46_poles N hN r (hr.1 rfl r rfl)
        rw [h1, h2]
        simp [conjClosed_nil, h3]
        exact h4
    | chebyshevII =>
      cases rp with
      | none => simp [prototype] at h
      | some r =>
        cases rs with
        | none => simp [prototype] at h
        | some q =>
          cases h
          obtain ⟨h1, h2, h3, h4, h5, h6⟩ := C47_poles_zeros N hN q (hr.2 rfl q rfl)
          rw [h1, h2]
          refine ⟨by omega, h4, h3, fun z hz => (h6 z hz).1, h5, le_refl _, by simp⟩
    | cauerElliptic => simp [prototype] at h
    | besselThomson => simp [prototype] at h

theorem design_stable {N : ℕ} {wn : List ℝ} {rp rs : Option ℝ} {band : Band} {ftype : FType}
    {analog : Bool} {fs : Option ℝ} (hv : ValidRequest wn rp rs band ftype analog fs)
    (hr : PositiveRipple ftype rp rs) :
    ∃ d, design N wn rp rs band ftype analog fs = .ok d ∧
      (analog = false → ∀ p ∈ d.p, ‖p‖ < 1) ∧ (analog = true → ∀ p ∈ d.p, p.re < 0) := by
  obtain ⟨f, hf⟩ := (prototype_ok (order := N)).mpr hv.family
  obtain ⟨h1, h2, h3, h4, h5, -⟩ := prototype_good hf hr
  cases analog with
  | true =>
    obtain ⟨g, hg, hl, -⟩ := bandTransform_left h1 h5 (edgesOk_of_valid hv)
    refine ⟨g, ?_, by simp, fun _ => hl⟩
    unfold design
    rw [validate_valid hv, ok_bind, hf, ok_bind]
    simp only [warp, Bool.true_eq_false, if_false, pure, Except.pure, ok_bind, discretise]
    rw [hg, ok_bind]
  | false =>
    have hny := hv.nyquist rfl
    obtain ⟨g, hg, hl, hlen, -⟩ := bandTransform_left h1 h5 (edgesOk_warped (edgesOk_of_valid hv) hny)
    have hp0 : ∀ p ∈ g.p, p ≠ 2 * ((2 : ℝ) : ℂ) := by
      intro p hp h
      have := hl p hp
      rw [h] at this
      norm_num at this
    obtain ⟨d, hd, hst, -⟩ := C43_stability g 2 two_pos hlen hp0
    refine ⟨d, ?_, fun _ => hst.mpr hl, by simp⟩
    unfold design
    rw [validate_valid hv, ok_bind, hf, ok_bind, warp_digital (fun x hx => ⟨hv.positive x hx, hny x hx⟩),
      ok_bind, hg, ok_bind]
    simpa [discretise] using hd

/-- The digital designs that are right: real, stable, with as many zeros as poles. -/
theorem design_sound {N : ℕ} {wn : List ℝ} {rp rs : Option ℝ} {band : Band} {ftype : FType}
    {fs : Option ℝ} (hv : ValidRequest wn rp rs band ftype false fs) (hr : PositiveRipple ftype rp rs)
    (hII : ftype = .chebyshevII → band = .lowpass ∨ band = .bandpass) :
    ∃ f d, prototype N ftype rp rs = .ok f ∧ design N wn rp rs band ftype false fs = .ok d ∧
      Digital f band ((edges wn fs).map (fun x => 4 * Real.tan (Real.pi * x / 2))) d ∧
      d.p.length ≤ 2 * N := by
  obtain ⟨f, hf⟩ := (prototype_ok (order := N)).mpr hv.family
  obtain ⟨h1, h2, h3, h4, h5, h6, h7⟩ := prototype_good hf hr
  have hP : Proto band f := ⟨h1, h2, h3, h4, h5, fun hb => h7 (fun hII' => by
    rcases hII hII' with h | h <;> rw [h] at hb <;> simp at hb)⟩
  obtain ⟨d, hd, hD⟩ := design_digital hv hf hP
  refine ⟨f, d, hf, hd, hD, ?_⟩
  rw [hD.plen]
  split <;> omega

/-! ### All families and bands -/

theorem conjClosed_of_im {l : List ℂ} (h : ∀ x ∈ l, x.im = 0) : ConjClosed l := by
  have e : l.map (starRingEnd ℂ) = l.map id := List.map_congr_left fun x hx => Complex.conj_eq_iff_im.mpr (h x hx)
  unfold ConjClosed
  rw [e, List.map_id]

theorem highpass_zero_im {zi : ℂ} (h : zi.re = 0) (c : ℝ) : ((((c : ℝ) : ℂ) / zi) * (-I)).im = 0 := by
  rw [mul_im, div_re]
  simp [h]

theorem conjClosed_bsZeros (l : List ℂ) (wo : ℝ) : ConjClosed (bsZeros l wo) := by
  unfold ConjClosed bsZeros
  simp only [List.map_map, List.map_append]
  refine List.perm_append_comm.trans (List.Perm.of_eq ?_)
  congr 1 <;> refine List.map_congr_left fun x _ => ?_ <;> apply Complex.ext <;> simp

theorem conjClosed_pair_replicate (n : ℕ) (w : ℝ) :
    ConjClosed (List.replicate n ((w : ℂ) * I) ++ List.replicate n (-(w : ℂ) * I)) := by
  unfold ConjClosed
  simp only [List.map_append, List.map_replicate, map_mul, map_neg, conj_ofReal, conj_I, mul_neg, neg_mul, neg_neg]
  exact List.perm_append_comm

/-- The frequency transformation of a real prototype with zeros on the imaginary axis is real, whatever the band. -/
theorem bandTransform_real {f g : Zpk} {band : Band} {e : List ℝ} (hl : f.z.length ≤ f.p.length) (hz : ConjClosed f.z)
    (hp : ConjClosed f.p) (hax : ∀ z ∈ f.z, z.re = 0) (he : EdgesOk band e) (hg : bandTransform band f e = .ok g) :
    ConjClosed g.z ∧ ConjClosed g.p := by
  have hreal := fun wo bw => C43_real_filters f g wo bw 1 hz hp
  have hr := relativeDegree_ok hl
  match band, e, he with
  | .lowpass, [a], _ => exact (hreal _ none).1 hg
  | .bandpass, [a, b], _ => exact (hreal _ _).2.2.1 hg
  | .highpass, [a], _ =>
    simp only [bandTransform, lp2hp, hr, ok_bind] at hg
    cases hg
    refine ⟨conjClosed_append (conjClosed_of_im ?_) (by simpa using conjClosed_replicate_real _ 0),
      conjClosed_map hp fun x => by simp⟩
    intro x hx
    obtain ⟨zi, hzi, rfl⟩ := List.mem_map.mp hx
    exact highpass_zero_im (hax zi hzi) _
  | .bandstop, [a, b], _ =>
    simp only [bandTransform, lp2bs, hr, ok_bind] at hg
    cases hg
    refine ⟨?_, conjClosed_splitPm (conjClosed_map hp fun x => by
      simp only [map_mul, map_div₀, map_neg, conj_ofReal, conj_I]; ring) _⟩
    dsimp only
    rw [List.append_assoc]
    exact conjClosed_append (conjClosed_bsZeros _ _) (conjClosed_pair_replicate _ _)

theorem zerosFinite_of {N : ℕ} {band : Band} {e : List ℝ} (h : band = .lowpass ∨ band = .bandpass) :
    ZerosFinite N band e := by
  rcases h with rfl | rfl <;> simp [ZerosFinite]

/-- Every digital design is real and stable and has as many zeros as poles. -/
theorem design_real {N : ℕ} {wn : List ℝ} {rp rs : Option ℝ} {band : Band} {ftype : FType}
    {fs : Option ℝ} (hv : ValidRequest wn rp rs band ftype false fs) (hr : PositiveRipple ftype rp rs) :
    ∃ f g d, prototype N ftype rp rs = .ok f ∧
      bandTransform band f ((edges wn fs).map (fun x => 4 * Real.tan (Real.pi * x / 2))) = .ok g ∧
      bilinear g 2 = .ok d ∧ design N wn rp rs band ftype false fs = .ok d ∧
      ConjClosed g.z ∧ ConjClosed g.p ∧ (∀ p ∈ g.p, p.re < 0) ∧ g.z.length ≤ g.p.length ∧
      ConjClosed d.z ∧ ConjClosed d.p ∧ (∀ p ∈ d.p, ‖p‖ < 1) ∧ d.z.length = d.p.length ∧
      d.p.length = (if band = .lowpass ∨ band = .highpass then 1 else 2) * f.p.length ∧ d.p.length ≤ 2 * N := by
  obtain ⟨f, hf⟩ := (prototype_ok (order := N)).mpr hv.family
  obtain ⟨h1, h2, h3, h4, h5, h6, -⟩ := prototype_good hf hr
  have hny := hv.nyquist rfl
  have he := edgesOk_warped (edgesOk_of_valid hv) hny
  obtain ⟨g, hg, hl, hlen, hplen⟩ := bandTransform_left h1 h5 he
  obtain ⟨c1, c2⟩ := bandTransform_real h1 h2 h3 h4 he hg
  have hp0 : ∀ p ∈ g.p, p ≠ 2 * ((2 : ℝ) : ℂ) := by
    intro p hp h
    have := hl p hp
    rw [h] at this
    norm_num at this
  obtain ⟨d, hd, hst, -, l1, l2⟩ := C43_stability g 2 two_pos hlen hp0
  obtain ⟨c3, c4⟩ := (C43_real_filters g d none none 2 c1 c2).2.2.2.2 hd
  refine ⟨f, g, d, hf, hg, hd, ?_, c1, c2, hl, hlen, c3, c4, hst.mpr hl, l1.trans l2.symm, l2.trans hplen, ?_⟩
  · unfold design
    rw [validate_valid hv, ok_bind, hf, ok_bind, warp_digital (fun x hx => ⟨hv.positive x hx, hny x hx⟩),
      ok_bind, hg, ok_bind]
    simpa [discretise] using hd
  · rw [l2, hplen]
    split <;> omega

/-! ### Distance of the Butterworth poles from the real axis -/

/-- The bilinear image of the pole `q` of a low-pass or high-pass filter with pre-warped edge `T`. -/
noncomputable def lowHighPole (band : Band) (T : ℝ) (q : ℂ) : ℂ :=
  (4 + (if band = .lowpass then q * ((T : ℝ) : ℂ) else ((T : ℝ) : ℂ) / q)) /
    (4 - (if band = .lowpass then q * ((T : ℝ) : ℂ) else ((T : ℝ) : ℂ) / q))

theorem low_high_poles {N : ℕ} {wn W : ℝ} {fs : Option ℝ} {band : Band}
    (hb : band = .lowpass ∨ band = .highpass) (hW : edges [wn] fs = [W]) (h0 : 0 < W) (h1 : W < 1) {d : Zpk}
    (hd : design N [wn] none none band .butterworth false fs = .ok d) :
    (∀ z ∈ d.z, z.im = 0) ∧ d.p = (buttap N).p.map (lowHighPole band (4 * Real.tan (Real.pi * W / 2))) := by
  have hv := valid_single (rp := none) (rs := none) (ftype := .butterworth) hb hW h0 h1 (by simp) (by simp) (.inl rfl)
  unfold design at hd
  rw [validate_valid hv, ok_bind, show prototype N .butterworth none none = .ok (buttap N) from rfl, ok_bind,
    hW, warp_digital (by simpa using ⟨h0, h1⟩), ok_bind] at hd
  have hz : (buttap N).z = [] := rfl
  have hr : relativeDegree (buttap N).z (buttap N).p = .ok ((buttap N).p.length - (buttap N).z.length) :=
    relativeDegree_ok (by rw [hz]; exact Nat.zero_le _)
  rcases hb with rfl | rfl
  · simp only [bandTransform, lp2lp, List.map_cons, List.map_nil, hr, ok_bind, pure, Except.pure, discretise,
      if_true] at hd
    rw [bilinear, relativeDegree_ok (by simp [hz]), ok_bind] at hd
    cases hd
    refine ⟨?_, ?_⟩
    · intro z hz'
      simp only [hz, List.map_nil, List.nil_append] at hz'
      rw [(List.mem_replicate.mp hz').2]; simp
    · dsimp only
      rw [List.map_map]
      refine List.map_congr_left fun q _ => ?_
      simp only [Function.comp_apply, Option.getD_some, if_true, lowHighPole]
      norm_num
  · simp only [bandTransform, lp2hp, List.map_cons, List.map_nil, hr, ok_bind, pure, Except.pure, discretise,
      if_true] at hd
    rw [bilinear, relativeDegree_ok (by simp [hz]), ok_bind] at hd
    cases hd
    refine ⟨?_, ?_⟩
    · intro z hz'
      simp only [hz, List.map_nil, List.nil_append, List.mem_append] at hz'
      rcases hz' with hz' | hz'
      · obtain ⟨y, hy, rfl⟩ := List.mem_map.mp hz'
        rw [(List.mem_replicate.mp hy).2]
        norm_num
      · rw [(List.mem_replicate.mp hz').2]; simp
    · dsimp only
      rw [List.map_map]
      refine List.map_congr_left fun q _ => ?_
      simp only [Function.comp_apply, Option.getD_some, reduceCtorEq, if_false, lowHighPole]
      norm_num

/-- When a pole `(1 - T e^{iθ}) / (1 + T e^{iθ})` is far enough from the real axis. -/
theorem pole_apart {T θ tol : ℝ} (hT : 0 < T) (hc : 0 < Real.cos θ) (p : ℂ)
    (hp : p = (1 - T * exp (θ * I)) / (1 + T * exp (θ * I))) :
    (p.im = 0 ∨ tol * |p.re| < |p.im|) ↔ (Real.sin θ = 0 ∨ tol * |1 - T ^ 2| < 2 * T * |Real.sin θ|) := by
  have hD : 0 < normSq (1 + T * exp (θ * I)) := by
    rw [normSq_pos]
    intro h0
    have := congrArg Complex.re h0
    simp only [add_re, one_re, re_ofReal_mul, exp_ofReal_mul_I_re, zero_re] at this
    have := mul_pos hT hc
    linarith
  have hre : p.re = (1 - T ^ 2) / normSq (1 + T * exp (θ * I)) := by
    rw [hp, div_re, ← add_div]
    congr 1
    simp only [add_re, sub_re, add_im, sub_im, one_re, one_im, re_ofReal_mul, im_ofReal_mul, exp_ofReal_mul_I_re,
      exp_ofReal_mul_I_im]
    linear_combination -T ^ 2 * Real.sin_sq_add_cos_sq θ
  have him : p.im = -(2 * T * Real.sin θ) / normSq (1 + T * exp (θ * I)) := by
    rw [hp, div_im, ← sub_div]
    congr 1
    simp only [add_re, sub_re, add_im, sub_im, one_re, one_im, re_ofReal_mul, im_ofReal_mul, exp_ofReal_mul_I_re,
      exp_ofReal_mul_I_im]
    ring
  refine or_congr ?_ ?_
  · rw [him, div_eq_zero_iff, neg_eq_zero, mul_eq_zero]
    simp [hT.ne', hD.ne']
  · rw [hre, him, abs_div, abs_div, abs_of_pos hD, ← mul_div_assoc, div_lt_div_iff_of_pos_right hD, abs_neg, abs_mul,
      abs_of_pos (by positivity : 0 < 2 * T)]

theorem sin_th_lower {N : ℕ} (hN : N ≠ 0) {m : ℤ} (h : m ∈ stepRange (-(N : ℤ) + 1) N) (hm : m ≠ 0) :
    Real.sin (Real.pi / (2 * N)) ≤ |Real.sin (th N m)| := by
  have hN' : (0 : ℝ) < N := by exact_mod_cast Nat.pos_of_ne_zero hN
  have hpi := Real.pi_pos
  have hb := th_bound hN h
  have key : ∀ k : ℤ, 1 ≤ k → th N k < Real.pi / 2 → Real.sin (Real.pi / (2 * N)) ≤ Real.sin (th N k) := by
    intro k hk hlt
    have hk' : (1 : ℝ) ≤ (k : ℝ) := by exact_mod_cast hk
    refine Real.sin_le_sin_of_le_of_le_pi_div_two ?_ hlt.le ?_
    · have : 0 ≤ Real.pi / (2 * N) := by positivity
      linarith
    · unfold th
      exact div_le_div_of_nonneg_right (by nlinarith) (by positivity)
  rcases lt_or_gt_of_ne hm with h0 | h0
  · have := key (-m) (by omega) (by rw [th_neg]; linarith)
    rw [th_neg, Real.sin_neg] at this
    exact this.trans (neg_le_abs _)
  · exact (key m (by omega) hb.2).trans (le_abs_self _)

/-- When the poles of a low-pass or high-pass Butterworth filter are real or far from the real axis, pole by
pole. -/
theorem low_high_separated_iff {N : ℕ} (hN : N ≠ 0) {wn W tol : ℝ} {fs : Option ℝ} {band : Band}
    (hb : band = .lowpass ∨ band = .highpass) (hW : edges [wn] fs = [W]) (h0 : 0 < W) (h1 : W < 1) {d : Zpk}
    (hd : design N [wn] none none band .butterworth false fs = .ok d) :
    Separated tol d.z ∧ (Separated tol d.p ↔ ∀ m ∈ stepRange (-(N : ℤ) + 1) N, Real.sin (th N m) = 0 ∨
      tol * |Real.cos (Real.pi * W)| < Real.sin (Real.pi * W) * |Real.sin (th N m)|) := by
  obtain ⟨hz, hp⟩ := low_high_poles hb hW h0 h1 hd
  refine ⟨fun z h => .inl (hz z h), ?_⟩
  have hT := tan_pos_of h0 h1
  have hpi := Real.pi_pos
  have hcW : 0 < Real.cos (Real.pi * W / 2) := Real.cos_pos_of_mem_Ioo ⟨by nlinarith, by nlinarith⟩
  have hcos : Real.cos (Real.pi * W) * (1 + Real.tan (Real.pi * W / 2) ^ 2) = 1 - Real.tan (Real.pi * W / 2) ^ 2 := by
    rw [show Real.pi * W = 2 * (Real.pi * W / 2) by ring, Real.cos_two_mul, show 2 * (Real.pi * W / 2) / 2 =
      Real.pi * W / 2 by ring, Real.tan_eq_sin_div_cos]
    have := Real.sin_sq_add_cos_sq (Real.pi * W / 2)
    field_simp
    linear_combination (2 * Real.cos (Real.pi * W / 2) ^ 2) * this
  have hsin : Real.sin (Real.pi * W) * (1 + Real.tan (Real.pi * W / 2) ^ 2) = 2 * Real.tan (Real.pi * W / 2) := by
    rw [show Real.pi * W = 2 * (Real.pi * W / 2) by ring, Real.sin_two_mul, show 2 * (Real.pi * W / 2) / 2 =
      Real.pi * W / 2 by ring, Real.tan_eq_sin_div_cos]
    have := Real.sin_sq_add_cos_sq (Real.pi * W / 2)
    field_simp
    linear_combination Real.sin (Real.pi * W / 2) * this
  rw [hp, buttap_p_eq, List.map_map]
  unfold Separated
  rw [List.forall_mem_map]
  refine forall₂_congr fun m hm => ?_
  set T := Real.tan (Real.pi * W / 2) with hTd
  have hT2 : 0 < 1 + T ^ 2 := by positivity
  have key : tol * |1 - T ^ 2| < 2 * T * |Real.sin (th N m)| ↔
      tol * |Real.cos (Real.pi * W)| < Real.sin (Real.pi * W) * |Real.sin (th N m)| := by
    rw [← hcos, ← hsin, abs_mul, abs_of_pos hT2, ← mul_assoc, mul_right_comm (Real.sin (Real.pi * W)),
      mul_lt_mul_iff_left₀ hT2]
  rw [← key]
  have hcm := cos_th_pos hN hm
  have hne : exp ((th N m : ℂ) * I) ≠ 0 := exp_ne_zero _
  rcases hb with rfl | rfl
  · refine pole_apart (θ := th N m) hT hcm _ ?_
    rw [Function.comp_apply, lowHighPole, if_pos rfl]
    push_cast
    rw [← mul_div_mul_left (c := (4 : ℂ)) (1 - _) _ (by norm_num)]
    congr 1 <;> ring
  · rw [pole_apart (θ := -th N m) hT (by rw [Real.cos_neg]; exact hcm) _ ?_]
    · rw [Real.sin_neg, abs_neg, neg_eq_zero]
    · rw [Function.comp_apply, lowHighPole, if_neg (by simp)]
      push_cast
      rw [neg_mul, exp_neg, ← mul_div_mul_left (c := (4 : ℂ)) (1 - _) _ (by norm_num)]
      congr 1 <;> field_simp <;> ring

/-- The poles of a low-pass or high-pass Butterworth filter are real or far from the real axis. -/
theorem low_high_separated {N : ℕ} (hN : N ≠ 0) {wn W tol : ℝ} {fs : Option ℝ} {band : Band}
    (hb : band = .lowpass ∨ band = .highpass) (hW : edges [wn] fs = [W]) (h0 : 0 < W) (h1 : W < 1)
    (htol : tol * |Real.cos (Real.pi * W)| < Real.sin (Real.pi * W) * Real.sin (Real.pi / (2 * N))) {d : Zpk}
    (hd : design N [wn] none none band .butterworth false fs = .ok d) :
    Separated tol d.z ∧ Separated tol d.p := by
  obtain ⟨hz, hp⟩ := low_high_separated_iff (tol := tol) hN hb hW h0 h1 hd
  refine ⟨hz, hp.mpr fun m hm => ?_⟩
  by_cases hm0 : m = 0
  · left; simp [hm0, th]
  · right
    have h2 := sin_th_lower hN hm hm0
    have hpi := Real.pi_pos
    have hsp : 0 < Real.sin (Real.pi * W) := Real.sin_pos_of_pos_of_lt_pi (by positivity) (by nlinarith)
    exact htol.trans_le (mul_le_mul_of_nonneg_left h2 hsp.le)

end SciRs.Design

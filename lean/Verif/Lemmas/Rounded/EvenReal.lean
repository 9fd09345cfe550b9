import Verif.Lemmas.Rounded.LimitDesign
import Verif.Lemmas.Rounded.BandAccuracy

/-! # Lemmas: filters of even order have no real poles -/

namespace SciRs.Rounded

open Complex SciRs.Design SciRs.Spec

theorem prototype_real_odd {n : ℕ} (hn : n ≠ 0) {ftype : FType} {rp rs : Option ℝ} (hr : PositiveRipple ftype rp rs)
    {g : Zpk} (h : Design.prototype n ftype rp rs = .ok g) : ∀ p ∈ g.p, p.im = 0 → n % 2 = 1 := by
  have odd : ∀ m ∈ stepRange (-(n : ℤ) + 1) n, Real.sin (th n m) = 0 → n % 2 = 1 := by
    intro m hm hs
    have := sin_th_zero hn hm hs
    subst this
    exact mem_stepRange_odd hm
  cases ftype with
  | butterworth =>
    cases h
    intro p hp h0
    obtain ⟨m, hm, rfl⟩ := List.mem_map.mp hp
    refine odd m hm ?_
    rw [show (⟨0, Real.pi * (m : ℝ) / (2 * (n : ℝ))⟩ : ℂ) = ⟨0, th n m⟩ from rfl, cexp_th] at h0
    simpa using h0
  | chebyshevI =>
    cases rp with
    | none => simp [Design.prototype] at h
    | some r =>
      cases h
      intro p hp h0
      have hp : p ∈ (if n = 0 then _ else _ : Zpk).p := hp
      rw [if_neg hn] at hp
      obtain ⟨m, hm, rfl⟩ := List.mem_map.mp hp
      refine odd m hm ?_
      have e : Real.pi * ((m : ℝ) / ((2 * (n : ℤ) : ℤ) : ℝ)) = th n m := by unfold th; push_cast; ring
      rw [e, neg_im, neg_eq_zero] at h0
      have hs : ∀ x y : ℝ, (sinh ⟨x, y⟩).im = Real.cosh x * Real.sin y := by
        intro x y
        have e : (⟨x, y⟩ : ℂ) = x + y * I := by apply Complex.ext <;> simp
        rw [e, Complex.sinh_add, Complex.sinh_mul_I, Complex.cosh_mul_I]
        rw [← ofReal_sinh, ← ofReal_cosh, ← ofReal_sin, ← ofReal_cos, ← mul_assoc, ← ofReal_mul, ← ofReal_mul, add_im, ofReal_im,
          im_ofReal_mul, I_im]
        ring
      rw [hs] at h0
      exact (mul_eq_zero.mp h0).resolve_left (Real.cosh_pos _).ne'
  | chebyshevII =>
    cases rp with
    | none => simp [Design.prototype] at h
    | some r =>
      cases rs with
      | none => simp [Design.prototype] at h
      | some q =>
        cases h
        intro p hp h0
        have hp : p ∈ (if n = 0 then _ else _ : Zpk).p := hp
        rw [if_neg hn] at hp
        obtain ⟨m, hm, rfl⟩ := List.mem_map.mp hp
        refine odd m hm ?_
        obtain ⟨mu, hmu⟩ : ∃ mu, mu = Real.arsinh (1 / (1 / √((10 : ℝ) ^ (1 / 10 * q) - 1))) / n := ⟨_, rfl⟩
        have hqq := hr.2 rfl q rfl
        have hmu0 : 0 < mu := by
          rw [hmu]
          have h1 : (1 : ℝ) < (10 : ℝ) ^ (1 / 10 * q) := Real.one_lt_rpow (by norm_num) (by positivity)
          have hpos : 0 < √((10 : ℝ) ^ (1 / 10 * q) - 1) := Real.sqrt_pos.mpr (by linarith)
          have := Real.arsinh_pos_iff.mpr (show 0 < 1 / (1 / √((10 : ℝ) ^ (1 / 10 * q) - 1)) by positivity)
          positivity
        have h1 : (1 / (⟨Real.sinh mu * (-exp ⟨0, th n m⟩ : ℂ).re, Real.cosh mu * (-exp ⟨0, th n m⟩ : ℂ).im⟩ : ℂ)).im = 0 := by
          rw [hmu]; exact h0
        have hcos := cos_th_pos hn hm
        rw [cexp_th, one_div, inv_im, div_eq_zero_iff] at h1
        have h3 : Real.cosh mu * -Real.sin (th n m) = 0 := by
          rcases h1 with h2 | h2
          · simpa using h2
          · have h4 := congrArg Complex.re (normSq_eq_zero.mp h2)
            have h5 : Real.sinh mu * -Real.cos (th n m) = 0 := h4
            have := Real.sinh_pos_iff.mpr hmu0
            rcases mul_eq_zero.mp h5 with h6 | h6 <;> linarith
        have := (mul_eq_zero.mp h3).resolve_left (Real.cosh_pos _).ne'
        linarith
  | cauerElliptic => simp [Design.prototype] at h
  | besselThomson => simp [Design.prototype] at h

theorem splitPm_real {l : List ℂ} {wo : ℝ} (hw : wo ≠ 0) {x : ℂ} (hx : x ∈ Design.splitPm l wo) (h0 : x.im = 0) :
    ∃ c ∈ l, c.im = 0 := by
  have key : ∀ (c : ℂ) (x : ℂ), (x - c) ^ 2 = c ^ 2 - ((wo ^ 2 : ℝ) : ℂ) → x.im = 0 → c.im = 0 := by
    intro c x h h0
    have h1 : 2 * c * x = x ^ 2 + ((wo ^ 2 : ℝ) : ℂ) := by linear_combination -h
    obtain ⟨a, rfl⟩ : ∃ a : ℝ, x = a := ⟨x.re, by apply Complex.ext <;> simp [h0]⟩
    have h2 := congrArg Complex.im h1
    have h3 := congrArg Complex.re h1
    rw [← ofReal_pow, ← ofReal_add, ofReal_im] at h2
    simp at h2
    rcases h2 with h2 | h2
    · exact h2
    · subst h2
      have h4 : wo = 0 := by
        rw [← ofReal_pow, ← ofReal_add, ofReal_re] at h3
        simpa using h3.symm
      exact absurd h4 hw
  unfold Design.splitPm at hx
  dsimp only at hx
  rcases List.mem_append.mp hx with hx | hx
  · obtain ⟨q, hq, rfl⟩ := List.mem_map.mp hx
    obtain ⟨c, hc, rfl⟩ := List.mem_map.mp hq
    exact ⟨c, hc, key c _ (by dsimp only; rw [add_sub_cancel_left, csqrt_sq]) h0⟩
  · obtain ⟨q, hq, rfl⟩ := List.mem_map.mp hx
    obtain ⟨c, hc, rfl⟩ := List.mem_map.mp hq
    exact ⟨c, hc, key c _ (by dsimp only; rw [sub_sub_cancel_left, neg_sq, csqrt_sq]) h0⟩

theorem band_even_no_real {n : ℕ} (hn : n ≠ 0) (he : n % 2 = 0) {wn : List ℝ} {rp rs : Option ℝ} {band : Band}
    {ftype : FType} {fs : Option ℝ} (hb : band = .bandpass ∨ band = .bandstop)
    (hv : ValidRequest wn rp rs band ftype false fs) (hr : PositiveRipple ftype rp rs) {g : Zpk}
    (hg : Design.design n wn rp rs band ftype false fs = .ok g) : ∀ p ∈ g.p, p.im ≠ 0 := by
  intro p hp h0
  obtain ⟨f, hf⟩ := (Design.prototype_ok (order := n)).mpr hv.family
  obtain ⟨h1, h2, h3, h4, h5, h6, h7⟩ := Design.prototype_good hf hr
  have hny := hv.nyquist rfl
  have hin : ∀ x ∈ Spec.edges wn fs, 0 < x ∧ x < 1 := fun x hx => ⟨hv.positive x hx, hny x hx⟩
  have hEd := edgesOk_warped (edgesOk_of_valid hv) hny
  obtain ⟨b, hbt, hleft, hlen, -⟩ := bandTransform_left h1 h5 hEd
  unfold Design.design at hg
  rw [validate_valid hv, ok_bind, hf, ok_bind, Design.warp_digital hin, ok_bind, hbt, ok_bind] at hg
  unfold Design.discretise Design.bilinear at hg
  rw [if_pos rfl, relativeDegree_ok hlen, ok_bind] at hg
  cases hg
  obtain ⟨x, hx, hxp⟩ := List.mem_map.mp hp
  have hx0 : x.im = 0 := by
    refine cayley_real (b := x) ?_ ?_
    · intro h9
      have := congrArg Complex.re h9
      rw [sub_re, ofReal_re, zero_re] at this
      linarith [hleft x hx]
    · rw [← h0, ← hxp]
  have hbt' := hbt
  generalize (Spec.edges wn fs).map (fun x => 4 * Real.tan (Real.pi * x / 2)) = e at hEd hbt
  have hf0 : ∀ c ∈ f.p, c.im ≠ 0 := fun c hc hc0 => by
    have := prototype_real_odd hn hr hf c hc hc0
    omega
  rcases hb with rfl | rfl
  · match e, hEd, hbt with
    | [a, b'], hEd, hbt =>
      obtain ⟨ha, hab⟩ : 0 < a ∧ a < b' := hEd
      simp only [Design.bandTransform, Design.lp2bp, relativeDegree_ok h1, ok_bind] at hbt
      cases hbt
      have hw : √(a * b') ≠ 0 := (Real.sqrt_pos.mpr (mul_pos ha (by linarith))).ne'
      obtain ⟨c, hc, hc0⟩ := splitPm_real hw hx hx0
      obtain ⟨y, hy, rfl⟩ := List.mem_map.mp hc
      refine hf0 y hy ?_
      have hbw : ((b' - a) / 2 : ℝ) ≠ 0 := by
        have : 0 < (b' - a) / 2 := by linarith
        exact this.ne'
      rw [im_mul_ofReal] at hc0
      exact (mul_eq_zero.mp hc0).resolve_right hbw
  · match e, hEd, hbt with
    | [a, b'], hEd, hbt =>
      obtain ⟨ha, hab⟩ : 0 < a ∧ a < b' := hEd
      simp only [Design.bandTransform, Design.lp2bs, relativeDegree_ok h1, ok_bind] at hbt
      cases hbt
      have hw : √(a * b') ≠ 0 := (Real.sqrt_pos.mpr (mul_pos ha (by linarith))).ne'
      obtain ⟨c, hc, hc0⟩ := splitPm_real hw hx hx0
      obtain ⟨y, hy, rfl⟩ := List.mem_map.mp hc
      refine hf0 y hy ?_
      have hbw : ((b' - a) / 2 : ℝ) ≠ 0 := by
        have : 0 < (b' - a) / 2 := by linarith
        exact this.ne'
      have e : ((((b' - a) / 2 : ℝ) : ℂ) * I / y) * (-I) = (((b' - a) / 2 : ℝ) : ℂ) * y⁻¹ := by
        rw [div_eq_mul_inv]
        linear_combination (-(((b' - a) / 2 : ℝ) : ℂ) * y⁻¹) * I_mul_I
      have hc0' : ((((b' - a) / 2 : ℝ) : ℂ) * I / y * (-I)).im = 0 := hc0
      rw [e, im_ofReal_mul, inv_im] at hc0'
      rcases div_eq_zero_iff.mp ((mul_eq_zero.mp hc0').resolve_left hbw) with h8 | h8
      · linarith
      · rw [normSq_eq_zero.mp h8]; rfl

end SciRs.Rounded

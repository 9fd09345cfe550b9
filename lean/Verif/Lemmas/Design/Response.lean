import Verif.Lemmas.Design.Digital

/-! # Lemmas about the frequency response of the designed filters -/

namespace SciRs.Design

open Complex SciRs.Spec SciRs.Props

theorem tan_pos_of {W : ℝ} (h0 : 0 < W) (h1 : W < 1) : 0 < Real.tan (Real.pi * W / 2) := by
  have := Real.pi_pos
  exact Real.tan_pos_of_pos_of_lt_pi_div_two (by positivity) (by nlinarith)

theorem tan_lt_of {A B : ℝ} (h0 : 0 < A) (hab : A < B) (h1 : B < 1) :
    Real.tan (Real.pi * A / 2) < Real.tan (Real.pi * B / 2) := by
  have := Real.pi_pos
  refine Real.tan_lt_tan_of_nonneg_of_lt_pi_div_two (by positivity) (by nlinarith) (by nlinarith)

theorem edgesOk_of_valid {wn : List ℝ} {rp rs : Option ℝ} {band : Band} {ftype : FType} {analog : Bool}
    {fs : Option ℝ} (hv : ValidRequest wn rp rs band ftype analog fs) : EdgesOk band (edges wn fs) := by
  have hc := hv.count
  rw [← edges_length wn fs] at hc
  have hpos := hv.positive
  have hinc := hv.increasing
  generalize edges wn fs = e at *
  match band, e, hc with
  | .lowpass, [a], _ => exact hpos a (by simp)
  | .highpass, [a], _ => exact hpos a (by simp)
  | .bandpass, [a, b], _ => exact ⟨hpos a (by simp), by simpa using hinc⟩
  | .bandstop, [a, b], _ => exact ⟨hpos a (by simp), by simpa using hinc⟩

theorem edgesOk_warped {band : Band} {e : List ℝ} (he : EdgesOk band e) (h1 : ∀ w ∈ e, w < 1) :
    EdgesOk band (e.map (fun x => 4 * Real.tan (Real.pi * x / 2))) := by
  match band, e, he with
  | .lowpass, [a], he => exact mul_pos (by norm_num) (tan_pos_of he (h1 a (by simp)))
  | .highpass, [a], he => exact mul_pos (by norm_num) (tan_pos_of he (h1 a (by simp)))
  | .bandpass, [a, b], he =>
    obtain ⟨ha, hab⟩ : (0 : ℝ) < a ∧ a < b := he
    have hb := h1 b (by simp)
    exact ⟨mul_pos (by norm_num) (tan_pos_of ha (by linarith)), by linarith [tan_lt_of ha hab hb]⟩
  | .bandstop, [a, b], he =>
    obtain ⟨ha, hab⟩ : (0 : ℝ) < a ∧ a < b := he
    have hb := h1 b (by simp)
    exact ⟨mul_pos (by norm_num) (tan_pos_of ha (by linarith)), by linarith [tan_lt_of ha hab hb]⟩

theorem validate_valid {wn : List ℝ} {rp rs : Option ℝ} {band : Band} {ftype : FType} {analog : Bool}
    {fs : Option ℝ} (hv : ValidRequest wn rp rs band ftype analog fs) :
    validate wn rp rs analog fs = .ok (edges wn fs) := by
  rw [validate_eq_ok]
  refine ⟨rfl, ?_, hv.fs_digital, hv.positive, hv.increasing, hv.ripple, hv.attenuation⟩
  rw [hv.count]; split <;> omega

theorem design_digital {N : ℕ} {wn : List ℝ} {rp rs : Option ℝ} {band : Band} {ftype : FType}
    {fs : Option ℝ} {f : Zpk} (hv : ValidRequest wn rp rs band ftype false fs)
    (hproto : prototype N ftype rp rs = .ok f) (hf : Proto band f) :
    ∃ d, design N wn rp rs band ftype false fs = .ok d ∧
      Digital f band ((edges wn fs).map (fun x => 4 * Real.tan (Real.pi * x / 2))) d := by
  have hny := hv.nyquist rfl
  obtain ⟨g, hg⟩ := transformed hf (edgesOk_warped (edgesOk_of_valid hv) hny)
  obtain ⟨d, hd, hD⟩ := digital hg
  refine ⟨d, ?_, hD⟩
  unfold design
  rw [validate_valid hv, ok_bind, hproto, ok_bind, warp_digital (fun x hx => ⟨hv.positive x hx, hny x hx⟩),
    ok_bind, hg.ok, ok_bind, hd]

theorem design_analog {N : ℕ} {wn : List ℝ} {rp rs : Option ℝ} {band : Band} {ftype : FType}
    {f : Zpk} (hv : ValidRequest wn rp rs band ftype true none)
    (hproto : prototype N ftype rp rs = .ok f) (hf : Proto band f) :
    ∃ d, design N wn rp rs band ftype true none = .ok d ∧ Transformed f band wn d := by
  obtain ⟨g, hg⟩ := transformed hf (edgesOk_of_valid hv)
  refine ⟨g, ?_, hg⟩
  unfold design
  rw [validate_valid hv, ok_bind, hproto, ok_bind]
  simp only [warp, Bool.true_eq_false, if_false, pure, Except.pure, ok_bind, discretise]
  rw [hg.ok, ok_bind]

theorem butter_eq (eps : ℝ) (s : Sorts) (order : ℕ) (wn : List ℝ) (btype : Option Band)
    (analog : Option Bool) (output : Option Output) (fs : Option ℝ) :
    butter eps s order wn btype analog output fs =
      design order wn none none (btype.getD .lowpass) .butterworth (analog.getD false) fs >>=
        convert eps s order (analog.getD false) (output.getD .ba) := by
  unfold butter
  rw [iirfilter_eq]
  rfl

theorem cheby1_eq (eps : ℝ) (s : Sorts) (order : ℕ) (rp : ℝ) (wn : List ℝ) (btype : Option Band)
    (analog : Option Bool) (output : Option Output) (fs : Option ℝ) :
    cheby1 eps s order rp wn btype analog output fs =
      design order wn (some rp) none (btype.getD .bandpass) .chebyshevI (analog.getD false) fs >>=
        convert eps s order (analog.getD false) (output.getD .ba) := by
  unfold cheby1
  rw [iirfilter_eq]
  rfl

theorem proto_butter {N : ℕ} (hN : N ≠ 0) (band : Band) : Proto band (buttap N) :=
  ⟨Nat.zero_le _, conjClosed_nil, buttap_conj N, by simp [show (buttap N).z = [] from rfl], buttap_re hN, fun _ => rfl⟩

theorem proto_cheby1 {N : ℕ} (hN : N ≠ 0) {rp : ℝ} (hrp : 0 < rp) (band : Band) : Proto band (cheb1ap N rp) := by
  obtain ⟨hz, hl, hc, hr⟩ := C46_poles N hN rp hrp
  exact ⟨by rw [hz]; exact Nat.zero_le _, by rw [hz]; exact conjClosed_nil, hc, by simp [hz], hr, fun _ => hz⟩

/-- On the unit circle the bilinear map is `i tan(w/2)`. -/
theorem circle_map {w : ℝ} (hw : |w| < Real.pi) :
    exp (I * w) ≠ -1 ∧ 4 * (exp (I * w) - 1) / (exp (I * w) + 1) = I * ((4 * Real.tan (w / 2) : ℝ) : ℂ) := by
  obtain ⟨h1, h2⟩ := abs_lt.mp hw
  have hc : 0 < Real.cos (w / 2) := Real.cos_pos_of_mem_Ioo ⟨by linarith, by linarith⟩
  have hsc : (Real.sin (w / 2) : ℂ) ^ 2 + (Real.cos (w / 2) : ℂ) ^ 2 = 1 := by
    exact_mod_cast Real.sin_sq_add_cos_sq (w / 2)
  have he : exp (I * w) = ((Real.cos (w / 2) : ℂ) + (Real.sin (w / 2) : ℂ) * I) ^ 2 := by
    rw [ofReal_cos, ofReal_sin, ← exp_mul_I, ← exp_nat_mul]
    congr 1
    push_cast
    ring
  have ht : ((4 * Real.tan (w / 2) : ℝ) : ℂ) = 4 * ((Real.sin (w / 2) : ℂ) / (Real.cos (w / 2) : ℂ)) := by
    rw [Real.tan_eq_sin_div_cos]; push_cast; rfl
  have hc' : (Real.cos (w / 2) : ℂ) ≠ 0 := by exact_mod_cast hc.ne'
  rw [he, ht]
  generalize (Real.cos (w / 2) : ℂ) = c at *
  generalize (Real.sin (w / 2) : ℂ) = t at *
  have e1 : (c + t * I) ^ 2 + 1 = 2 * c * (c + t * I) := by linear_combination t ^ 2 * I_sq - hsc
  have e0 : (c + t * I) ≠ 0 := by
    intro h0
    have : (c + t * I) * (c - t * I) = 1 := by linear_combination hsc - t ^ 2 * I_sq
    rw [h0, zero_mul] at this
    exact one_ne_zero this.symm
  have e2 : (c + t * I) ^ 2 + 1 ≠ 0 := by
    rw [e1]; exact mul_ne_zero (mul_ne_zero two_ne_zero hc') e0
  refine ⟨fun h => e2 (by rw [h]; ring), ?_⟩
  rw [div_eq_iff e2, e1]
  field_simp
  linear_combination hsc - t ^ 2 * I_sq

theorem norm_circle (w : ℝ) : ‖exp (I * w)‖ = 1 := by
  rw [mul_comm]; exact norm_exp_ofReal_mul_I w

section Bands

variable {f d : Zpk} {w : ℝ}

theorem Digital.lowpass {T : ℝ} (h : Digital f .lowpass [4 * T] d) (hT : T ≠ 0) (hw : |w| < Real.pi) :
    d.eval (exp (I * w)) = f.eval (I * ((Real.tan (w / 2) / T : ℝ) : ℂ)) := by
  obtain ⟨h1, h2⟩ := circle_map hw
  rw [(h.same _ h1 trivial).2, h2]
  have hT' : (T : ℂ) ≠ 0 := by exact_mod_cast hT
  congr 1
  simp only [bandMap]
  push_cast
  field_simp

theorem Digital.highpass {T : ℝ} (h : Digital f .highpass [4 * T] d) (hw : |w| < Real.pi)
    (ht : Real.tan (w / 2) ≠ 0) :
    d.eval (exp (I * w)) = f.eval (I * ((-(T / Real.tan (w / 2)) : ℝ) : ℂ)) := by
  obtain ⟨h1, h2⟩ := circle_map hw
  have ht' : ((Real.tan (w / 2) : ℝ) : ℂ) ≠ 0 := by exact_mod_cast ht
  have hne : I * ((4 * Real.tan (w / 2) : ℝ) : ℂ) ≠ 0 := by
    push_cast at ht' ⊢
    exact mul_ne_zero I_ne_zero (mul_ne_zero (by norm_num) ht')
  rw [(h.same _ h1 (by rw [h2]; exact hne)).2, h2]
  congr 1
  simp only [bandMap]
  rw [div_eq_iff hne]
  push_cast at ht' ⊢
  field_simp
  linear_combination (T : ℂ) * I_sq

theorem Digital.bandpass {A B : ℝ} (h : Digital f .bandpass [4 * A, 4 * B] d) (hw : |w| < Real.pi)
    (hAB : A < B) (ht : Real.tan (w / 2) ≠ 0) :
    d.eval (exp (I * w)) = f.eval (I * (((Real.tan (w / 2) ^ 2 - A * B) / (Real.tan (w / 2) * (B - A)) : ℝ) : ℂ)) := by
  obtain ⟨h1, h2⟩ := circle_map hw
  have ht' : ((Real.tan (w / 2) : ℝ) : ℂ) ≠ 0 := by exact_mod_cast ht
  have hBA : (B : ℂ) - A ≠ 0 := by
    rw [← ofReal_sub]; exact_mod_cast (sub_pos.mpr hAB).ne'
  have hne : I * ((4 * Real.tan (w / 2) : ℝ) : ℂ) ≠ 0 := by
    push_cast at ht' ⊢
    exact mul_ne_zero I_ne_zero (mul_ne_zero (by norm_num) ht')
  rw [(h.same _ h1 (by rw [h2]; exact hne)).2, h2]
  congr 1
  simp only [bandMap]
  generalize Real.tan (w / 2) = t at *
  have hd : (((4 * B : ℝ) : ℂ) - ((4 * A : ℝ) : ℂ)) * (I * ((4 * t : ℝ) : ℂ)) ≠ 0 := by
    refine mul_ne_zero ?_ hne
    push_cast
    rw [← mul_sub]
    exact mul_ne_zero (by norm_num) hBA
  rw [div_eq_iff hd]
  push_cast
  field_simp
  linear_combination ((A : ℂ) * B) * I_sq

theorem Digital.bandstop {A B : ℝ} (h : Digital f .bandstop [4 * A, 4 * B] d) (hw : |w| < Real.pi)
    (ht : Real.tan (w / 2) ^ 2 ≠ A * B) :
    d.eval (exp (I * w)) = f.eval (I * ((Real.tan (w / 2) * (B - A) / (A * B - Real.tan (w / 2) ^ 2) : ℝ) : ℂ)) := by
  obtain ⟨h1, h2⟩ := circle_map hw
  generalize Real.tan (w / 2) = t at *
  have hq : (A : ℂ) * B - (t : ℂ) ^ 2 ≠ 0 := by
    have : A * B - t ^ 2 ≠ 0 := sub_ne_zero.mpr (Ne.symm ht)
    exact_mod_cast this
  have e : (I * ((4 * t : ℝ) : ℂ)) ^ 2 + ((4 * A : ℝ) : ℂ) * ((4 * B : ℝ) : ℂ) = 16 * ((A : ℂ) * B - (t : ℂ) ^ 2) := by
    push_cast
    linear_combination 16 * (t : ℂ) ^ 2 * I_sq
  have hdef : BandDefined .bandstop [4 * A, 4 * B] (I * ((4 * t : ℝ) : ℂ)) := by
    change (I * ((4 * t : ℝ) : ℂ)) ^ 2 + ((4 * A : ℝ) : ℂ) * ((4 * B : ℝ) : ℂ) ≠ 0
    rw [e]
    exact mul_ne_zero (by norm_num) hq
  rw [(h.same _ h1 (by rw [h2]; exact hdef)).2, h2]
  congr 1
  simp only [bandMap]
  rw [e]
  push_cast
  field_simp
  ring

theorem Digital.stop_centre {A B : ℝ} (h : Digital f .bandstop [4 * A, 4 * B] d) (hf : f.p ≠ []) (hw : |w| < Real.pi)
    (ht : Real.tan (w / 2) ^ 2 = A * B) : d.eval (exp (I * w)) = 0 := by
  obtain ⟨h1, h2⟩ := circle_map hw
  refine h.centre _ _ rfl rfl hf _ h1 ?_
  rw [h2]
  have : ((Real.tan (w / 2) : ℝ) : ℂ) ^ 2 = A * B := by exact_mod_cast ht
  push_cast at this ⊢
  linear_combination 16 * Complex.tan (w / 2) ^ 2 * I_sq - 16 * this

theorem Digital.lowpass_one {T : ℝ} (h : Digital f .lowpass [4 * T] d) : d.eval 1 = f.eval 0 := by
  rw [(h.same 1 (by norm_num) trivial).2]
  simp [bandMap]

theorem Digital.bandstop_one {A B : ℝ} (hA : 0 < A) (hB : 0 < B) (h : Digital f .bandstop [4 * A, 4 * B] d) :
    d.eval 1 = f.eval 0 := by
  rw [(h.same 1 (by norm_num) ?_).2]
  · simp [bandMap]
  · simp [BandDefined, hA.ne', hB.ne']

end Bands

theorem valid_single {wn W : ℝ} {rp rs : Option ℝ} {fs : Option ℝ} {band : Band} {ftype : FType}
    (hb : band = .lowpass ∨ band = .highpass) (hW : edges [wn] fs = [W]) (h0 : 0 < W) (h1 : W < 1)
    (hr : ∀ r, rp = some r → 0 ≤ r) (hs : ∀ r, rs = some r → 0 ≤ r)
    (hf : ftype = .butterworth ∨ (ftype = .chebyshevI ∧ rp.isSome) ∨
      (ftype = .chebyshevII ∧ rp.isSome ∧ rs.isSome)) :
    ValidRequest [wn] rp rs band ftype false fs :=
  ⟨by rw [if_pos hb]; rfl, by rw [hW]; simpa using h0, by rw [hW]; simp, by rw [hW]; simpa using h1, fun _ => rfl,
    hr, hs, hf⟩

theorem valid_pair {a b A B : ℝ} {rp rs : Option ℝ} {fs : Option ℝ} {band : Band} {ftype : FType}
    (hb : band = .bandpass ∨ band = .bandstop) (hW : edges [a, b] fs = [A, B]) (h0 : 0 < A) (hAB : A < B)
    (h1 : B < 1) (hr : ∀ r, rp = some r → 0 ≤ r) (hs : ∀ r, rs = some r → 0 ≤ r)
    (hf : ftype = .butterworth ∨ (ftype = .chebyshevI ∧ rp.isSome) ∨
      (ftype = .chebyshevII ∧ rp.isSome ∧ rs.isSome)) :
    ValidRequest [a, b] rp rs band ftype false fs :=
  ⟨by rcases hb with rfl | rfl <;> rfl, by rw [hW]; simp; constructor <;> linarith, by rw [hW]; simpa using hAB,
    by rw [hW]; simp; constructor <;> linarith, fun _ => rfl, hr, hs, hf⟩

theorem tan_half_ne_zero {w : ℝ} (h0 : 0 < |w|) (hw : |w| < Real.pi) : Real.tan (w / 2) ≠ 0 := by
  obtain ⟨h1, h2⟩ := abs_lt.mp hw
  have hc : 0 < Real.cos (w / 2) := Real.cos_pos_of_mem_Ioo ⟨by linarith, by linarith⟩
  rw [Real.tan_eq_sin_div_cos]
  refine div_ne_zero (fun h => ?_) hc.ne'
  rcases lt_trichotomy w 0 with h3 | h3 | h3
  · have := Real.sin_neg_of_neg_of_neg_pi_lt (x := w / 2) (by linarith) (by linarith)
    linarith
  · rw [h3] at h0; simp at h0
  · have := Real.sin_pos_of_pos_of_lt_pi (x := w / 2) (by linarith) (by linarith)
    linarith

end SciRs.Design

import Verif.Props.Design.Minimal
import Verif.Props.Design.SosOutput

/-!
# C88: analog designs in the coefficient and section formats
-/

namespace SciRs.Props

open SciRs SciRs.Design SciRs.Spec Complex

theorem sin_th_eq_zero {N : ℕ} (hN : N ≠ 0) {m : ℤ} (h : m ∈ stepRange (-(N : ℤ) + 1) N) :
    Real.sin (th N m) = 0 ↔ m = 0 := by
  obtain ⟨h1, h2⟩ := th_bound hN h
  have hpi := Real.pi_pos
  rw [Real.sin_eq_zero_iff_of_lt_of_lt (by linarith) (by linarith)]
  unfold th
  have hN' : (N : ℝ) ≠ 0 := by exact_mod_cast hN
  simp [hN', hpi.ne']

theorem count_real {N : ℕ} (hodd : N % 2 = 1) {g : ℤ → ℂ}
    (hg : ∀ m ∈ stepRange (-(N : ℤ) + 1) N, (g m).im = 0 ↔ m = 0) :
    (((stepRange (-(N : ℤ) + 1) N).map g).filter (fun p => decide (p.im = 0))).length = 1 := by
  rw [List.filter_map, List.length_map]
  have e : (stepRange (-(N : ℤ) + 1) N).filter ((fun p : ℂ => decide (p.im = 0)) ∘ g) =
      (stepRange (-(N : ℤ) + 1) N).filter (fun m => m == 0) := by
    refine List.filter_congr (fun m hm => ?_)
    simp only [Function.comp_apply, decide_eq_decide.mpr (hg m hm)]
    rfl
  rw [e, ← List.count_eq_length_filter]
  refine List.count_eq_one_of_mem ?_ ?_
  · rw [stepRange_sym]
    refine List.Nodup.map (fun a b h => ?_) List.nodup_range
    omega
  · rw [stepRange_sym, List.mem_map]
    exact ⟨(N - 1) / 2, List.mem_range.mpr (by omega), by omega⟩

/-- Butterworth and Chebyshev I prototypes have no zeros, and exactly one real pole when the order is odd. -/
theorem allpole_prototype {N : ℕ} (hN : N ≠ 0) {ftype : FType} (hII : ftype ≠ .chebyshevII) {rp rs : Option ℝ}
    {f : Zpk} (h : prototype N ftype rp rs = .ok f) (hr : PositiveRipple ftype rp rs) :
    f.z = [] ∧ f.p.length = N ∧
      (N % 2 = 1 → (f.p.filter (fun p => decide (p.im = 0))).length = 1) := by
  cases ftype with
  | butterworth =>
    cases h
    refine ⟨rfl, (C45_poles N hN).2.1, fun ho => ?_⟩
    rw [buttap_p_eq]
    refine count_real ho (fun m hm => ?_)
    rw [neg_im, exp_ofReal_mul_I_im, neg_eq_zero]
    exact sin_th_eq_zero hN hm
  | chebyshevI =>
    cases rp with
    | none => simp [prototype] at h
    | some r =>
      cases h
      obtain ⟨h1, h2, -⟩ := C46_poles N hN r (hr.1 rfl r rfl)
      refine ⟨h1, h2, fun ho => ?_⟩
      rw [cheb1ap_p N hN, cheb1Poles_eq]
      refine count_real ho (fun m hm => ?_)
      rw [← sin_th_eq_zero hN hm]
      have e : ∀ a b : ℝ, (-Complex.sinh ((a : ℂ) + (b : ℂ) * I)).im = -(Real.cosh a * Real.sin b) := fun a b => by
        rw [Complex.sinh_add, Complex.sinh_mul_I, Complex.cosh_mul_I, ← ofReal_sinh, ← ofReal_cosh, ← ofReal_sin,
          ← ofReal_cos]
        simp [-ofReal_sin, -ofReal_cos, -ofReal_sinh, -ofReal_cosh]
      rw [e, neg_eq_zero, mul_eq_zero]
      simp [(Real.cosh_pos _).ne']
  | chebyshevII => exact absurd rfl hII
  | cauerElliptic => simp [prototype] at h
  | besselThomson => simp [prototype] at h

/-- An analog design of Butterworth or Chebyshev I kind. -/
theorem analog_allpole {N : ℕ} (hN : N ≠ 0) {wn : List ℝ} {rp rs : Option ℝ} {band : Band} {ftype : FType}
    (hII : ftype ≠ .chebyshevII) (hv : ValidRequest wn rp rs band ftype true none)
    (hr : PositiveRipple ftype rp rs) :
    ∃ d, design N wn rp rs band ftype true none = .ok d ∧ ConjClosed d.z ∧ ConjClosed d.p ∧
      d.p.length = (if band = .lowpass ∨ band = .highpass then N else 2 * N) ∧
      (band = .lowpass → d.z = []) ∧ (band = .bandpass → d.z = List.replicate N 0) ∧
      (band = .highpass ∨ band = .bandstop → d.z.length = d.p.length) ∧
      (band = .highpass → N % 2 = 1 → (d.p.filter (fun p => decide (p.im = 0))).length = 1) := by
  obtain ⟨f, hf⟩ := (prototype_ok (order := N)).mpr hv.family
  obtain ⟨hz, hp, hone⟩ := allpole_prototype hN hII hf hr
  obtain ⟨h1, h2, h3, h4, h5, h6, h7⟩ := prototype_good hf hr
  obtain ⟨d, hd, hT⟩ := design_analog (N := N) hv hf (⟨h1, h2, h3, h4, h5, fun _ => hz⟩ : Proto band f)
  have hE := edgesOk_of_valid hv
  have hplen := hT.plen
  refine ⟨d, hd, hT.zconj, hT.pconj, ?_, ?_, ?_, fun hb => (hT.high hb).1, ?_⟩
  · rw [hplen, hp]; split <;> omega
  · rintro rfl
    have := hT.ok
    match wn, hE with
    | [a], _ =>
      simp only [bandTransform, lp2lp, relativeDegree_ok h1, ok_bind] at this
      cases this
      simp [hz]
  · rintro rfl
    have := hT.ok
    match wn, hE with
    | [a, b], _ =>
      simp only [bandTransform, lp2bp, relativeDegree_ok h1, ok_bind] at this
      cases this
      simp [hz, hp, splitPm]
  · rintro rfl ho
    have := hT.ok
    match wn, hE with
    | [a], ha =>
      simp only [bandTransform, lp2hp, relativeDegree_ok h1, ok_bind] at this
      cases this
      have ha : 0 < a := by simpa [edges, EdgesOk] using ha
      dsimp only
      rw [List.filter_map, List.length_map, ← hone ho]
      congr 1
      refine List.filter_congr (fun p hp' => ?_)
      have hp0 : p ≠ 0 := fun h => by have := h5 p hp'; rw [h] at this; simp at this
      have hns : normSq p ≠ 0 := fun h => hp0 (normSq_eq_zero.mp h)
      simp only [Function.comp_apply, Option.getD_some, decide_eq_decide]
      rw [div_im]
      simp [ha.ne', hns]

section
variable (eps : ℝ) (s : Sorts)

/-- **C88**, analog designs in the coefficient format: what comes back is the transfer function times
`x^(#p - #z)`: right for high-pass and band-stop filters, `x^N` times too large for low-pass and band-pass. -/
theorem C88_analog_ba (N : ℕ) (hN : N ≠ 0) (wn : List ℝ) (rp rs : Option ℝ) (band : Band) (ftype : FType)
    (hII : ftype ≠ .chebyshevII) (hv : ValidRequest wn rp rs band ftype true none)
    (hr : PositiveRipple ftype rp rs) :
    ∃ d t, iirfilter eps s N wn rp rs (some band) (some ftype) (some true) (some .zpk) none = .ok (.zpk d) ∧
      iirfilter eps s N wn rp rs (some band) (some ftype) (some true) (some .ba) none = .ok (.ba t) ∧
      ∀ x : ℂ, x ≠ 0 → (coeffVal t.a x ≠ 0 ↔ d.Regular x) ∧
        coeffVal t.b x / coeffVal t.a x =
          (if band = .lowpass ∨ band = .bandpass then x ^ N else 1) * d.eval x := by
  obtain ⟨d, hd, hzc, hpc, hpl, hlp, hbp, hhs, -⟩ := analog_allpole hN hII hv hr
  have hle : d.z.length ≤ d.p.length ∧ d.p.length ≤ 2 * N ∧
      d.p.length - d.z.length = if band = .lowpass ∨ band = .bandpass then N else 0 := by
    cases band with
    | lowpass => rw [hlp rfl]; simp at hpl ⊢; omega
    | highpass => rw [hhs (.inl rfl)]; simp at hpl ⊢; omega
    | bandpass => rw [hbp rfl]; simp at hpl ⊢; omega
    | bandstop => rw [hhs (.inr rfl)]; simp at hpl ⊢; omega
  obtain ⟨t, ht, -, -, h⟩ := C49_polynomials (2 * N) d hzc hpc (by omega) (by omega)
  refine ⟨d, t, ?_, ?_, fun x hx => ?_⟩
  · rw [iirfilter_eq]; simp only [Option.getD_some]; rw [hd]; rfl
  · rw [iirfilter_eq]
    simp only [Option.getD_some]
    rw [hd, ok_bind]
    simp only [convert, ht, ok_bind]
    rfl
  · rw [(h x).1, (h x).2]
    have hx1 : x ^ (2 * N - d.p.length) ≠ 0 := pow_ne_zero _ hx
    refine ⟨by unfold Zpk.Regular; simp [hx1], ?_⟩
    rw [show 2 * N - d.z.length = d.p.length - d.z.length + (2 * N - d.p.length) by omega, pow_add, ← mul_assoc,
      mul_div_mul_right _ _ hx1, hle.2.2]
    unfold Zpk.eval
    split <;> ring

/-- **C88**, analog designs in the section format, for zeros and poles that are real or away from the real axis:
high-pass and band-stop filters are right for every order, band-pass filters are `x^N` times too large, low-pass
filters are `x^N` times too large for even orders and panic for odd ones. -/
theorem C88_analog_sos (heps : 0 ≤ eps) (hs : s.Correct) (N : ℕ) (hN : N ≠ 0) (wn : List ℝ) (rp rs : Option ℝ)
    (band : Band) (ftype : FType) (hII : ftype ≠ .chebyshevII) (hv : ValidRequest wn rp rs band ftype true none)
    (hr : PositiveRipple ftype rp rs) :
    ∃ d, iirfilter eps s N wn rp rs (some band) (some ftype) (some true) (some .zpk) none = .ok (.zpk d) ∧
      (Separated (eps * 100) d.z → Separated (eps * 100) d.p →
        if band = .lowpass ∧ N % 2 = 1 then
          Panics (iirfilter eps s N wn rp rs (some band) (some ftype) (some true) (some .sos) none)
        else
          ∃ l, iirfilter eps s N wn rp rs (some band) (some ftype) (some true) (some .sos) none = .ok (.sos l) ∧
            l.length = (d.p.length + 1) / 2 ∧ (∀ q ∈ l, q.a0 = 1 ∧ q.zi0 = 0 ∧ q.zi1 = 0) ∧
            ∀ x : ℂ, x ≠ 0 → (sosDen l x ≠ 0 ↔ d.Regular x) ∧
              sosNum l x / sosDen l x =
                (if band = .lowpass ∨ band = .bandpass then x ^ N else 1) * d.eval x) := by
  obtain ⟨d, hd, hzc, hpc, hpl, hlp, hbp, hhs, hone⟩ := analog_allpole hN hII hv hr
  refine ⟨d, by rw [iirfilter_eq]; simp only [Option.getD_some]; rw [hd]; rfl, fun hzs hps => ?_⟩
  have hf : GoodRoots eps d := ⟨heps, hzc, hpc, hzs, hps⟩
  have hm : UsesMinimal none (some true) := Or.inr ⟨rfl, rfl⟩
  have hsos : iirfilter eps s N wn rp rs (some band) (some ftype) (some true) (some .sos) none =
      zpk2sos eps s N d none (some true) >>= fun l => .ok (.sos l) := by
    rw [iirfilter_eq]
    simp only [Option.getD_some]
    rw [hd, ok_bind]
    rfl
  have hne : d.p ≠ [] := by
    intro h0
    rw [h0] at hpl
    simp only [List.length_nil] at hpl
    split at hpl <;> omega
  have hle : d.z.length ≤ d.p.length ∧
      d.p.length - d.z.length = if band = .lowpass ∨ band = .bandpass then N else 0 := by
    cases band with
    | lowpass => rw [hlp rfl]; simp at hpl ⊢; omega
    | highpass => rw [hhs (.inl rfl)]; simp
    | bandpass => rw [hbp rfl]; simp at hpl ⊢; omega
    | bandstop => rw [hhs (.inr rfl)]; simp
  by_cases hodd : band = .lowpass ∧ N % 2 = 1
  · rw [if_pos hodd]
    obtain ⟨hb, ho⟩ := hodd
    rw [hsos]
    have hb' : d.p.length = N := by rw [hpl, if_pos (.inl hb)]
    obtain ⟨e, he, h⟩ := C88_no_real_zero_panics hs N d hf (by omega) (by rw [hlp hb]; simp) hm
    rw [h]
    exact ⟨e, he, rfl⟩
  · rw [if_neg hodd]
    have hret : Returns (zpk2sos eps s N d none (some true)) := by
      refine C88_returns hs N d hf hne hle.1 hm ?_
      cases band with
      | lowpass => rw [hlp rfl]; left; simp at hpl hodd ⊢; omega
      | highpass =>
        have := hhs (.inl rfl)
        simp at hpl
        by_cases ho : N % 2 = 1
        · exact Or.inr (Or.inr ⟨hone rfl ho, this⟩)
        · exact Or.inl (by omega)
      | bandpass =>
        rw [hbp rfl]; right; left
        simp at hpl
        exact ⟨by omega, fun z hz => by rw [(List.mem_replicate.mp hz).2]; simp⟩
      | bandstop =>
        have := hhs (.inr rfl)
        simp at hpl
        exact Or.inl (by omega)
    obtain ⟨l, hl⟩ := hret
    obtain ⟨-, h2, h3, -, h5⟩ := C88_sound hs N d hf hne hm hl
    refine ⟨l, by rw [hsos, hl, ok_bind], h2, h3, fun x hx => ?_⟩
    have := h5 x hx
    rw [hle.2] at this
    refine ⟨this.1, this.2.trans ?_⟩
    split <;> simp

/-- **C88**, analog Butterworth high-pass filters as sections: for every order whose poles are further apart from
the real axis than the tolerance, odd or even, the sections returned have the Butterworth response. -/
theorem C88_butter_highpass (heps : 0 ≤ eps) (hs : s.Correct) (N : ℕ) (hN : N ≠ 0) (wn : ℝ) (h0 : 0 < wn)
    (htol : eps * 100 < Real.sin (leastAngle N)) :
    ∃ l, butter eps s N [wn] (some .highpass) (some true) (some .sos) none = .ok (.sos l) ∧
      l.length = (N + 1) / 2 ∧
      ∀ w : ℝ, w ≠ 0 → sosDen l (I * w) ≠ 0 ∧
        ‖sosNum l (I * w) / sosDen l (I * w)‖ ^ 2 = 1 / (1 + (wn / w) ^ (2 * N)) := by
  have hv : ValidRequest [wn] none none .highpass .butterworth true none :=
    ⟨by simp, by simpa [edges] using h0, by simp [edges], by simp, by simp, by simp, by simp, .inl rfl⟩
  obtain ⟨d, hd, hx⟩ := C88_analog_sos eps s heps hs N hN [wn] none none .highpass .butterworth (by simp) hv
    ⟨by simp, by simp⟩
  obtain ⟨d', hd', hw⟩ := (C66_low_high_partial eps s N hN wn h0).2
  have e : ∀ o, butter eps s N [wn] (some .highpass) (some true) (some o) none =
      iirfilter eps s N [wn] none none (some .highpass) (some .butterworth) (some true) (some o) none := fun o => by
    rw [butter_eq, iirfilter_eq]; rfl
  rw [e, hd] at hd'
  cases hd'
  have hdes : design N [wn] none none .highpass .butterworth true none = .ok d := by
    rw [iirfilter_eq] at hd
    obtain ⟨g, hg, h⟩ := bind_eq_ok.mp hd
    simp only [convert, Option.getD_some, Except.ok.injEq, Filter.zpk.injEq] at h
    rw [← h]
    exact hg
  have hzp : d.z = List.replicate N 0 ∧
      d.p = (stepRange (-(N : ℤ) + 1) N).map (fun m : ℤ => (wn : ℂ) / -exp ((th N m : ℂ) * I)) := by
    unfold design at hdes
    rw [validate_valid hv, ok_bind] at hdes
    simp only [prototype, ok_bind, warp, Bool.true_eq_false, if_false, pure, Except.pure, edges, bandTransform, lp2hp,
      discretise, relativeDegree_ok (show (buttap N).z.length ≤ (buttap N).p.length from Nat.zero_le _)] at hdes
    cases hdes
    have hl := (C45_poles N hN).2.1
    refine ⟨by simp [show (buttap N).z = [] from rfl, hl], ?_⟩
    dsimp only
    rw [buttap_p_eq, List.map_map]
    rfl
  have hzs : Separated (eps * 100) d.z := by
    intro x hx
    rw [hzp.1] at hx
    left; rw [(List.mem_replicate.mp hx).2]; simp
  have hps : Separated (eps * 100) d.p := by
    intro x hx
    rw [hzp.2] at hx
    obtain ⟨m, hm, rfl⟩ := List.mem_map.mp hx
    have ex : (wn : ℂ) / -exp ((th N m : ℂ) * I) = -((wn : ℂ) * exp (((-th N m : ℝ) : ℂ) * I)) := by
      rw [div_neg, ofReal_neg, neg_mul, Complex.exp_neg, div_eq_mul_inv]
    have him : ((wn : ℂ) / -exp ((th N m : ℂ) * I)).im = wn * Real.sin (th N m) := by
      rw [ex, neg_im, im_ofReal_mul, exp_ofReal_mul_I_im, Real.sin_neg]; ring
    have hre : ((wn : ℂ) / -exp ((th N m : ℂ) * I)).re = -(wn * Real.cos (th N m)) := by
      rw [ex, neg_re, re_ofReal_mul, exp_ofReal_mul_I_re, Real.cos_neg]
    rw [him, hre]
    by_cases h : m = 0
    · left
      rw [(sin_th_eq_zero hN hm).mpr h, mul_zero]
    · right
      have h1 := least_angle_le hN hm h
      have h2 := Real.abs_cos_le_one (th N m)
      rw [abs_neg, abs_mul, abs_mul, abs_of_pos h0]
      have : eps * 100 * |Real.cos (th N m)| < |Real.sin (th N m)| := by nlinarith
      nlinarith
  have hx := hx hzs hps
  rw [if_neg (by simp)] at hx
  obtain ⟨l, hl, hlen, -, h⟩ := hx
  refine ⟨l, by rw [e]; exact hl, ?_, fun w hw0 => ?_⟩
  · rw [hlen, hzp.2, List.length_map, stepRange_sym_length]
  · have hI : I * (w : ℂ) ≠ 0 := mul_ne_zero I_ne_zero (by exact_mod_cast hw0)
    obtain ⟨h1, h2⟩ := h _ hI
    obtain ⟨h3, h4⟩ := hw w hw0
    rw [if_neg (by simp), one_mul] at h2
    exact ⟨h1.mpr h3, by rw [h2, h4]⟩

/-- A concrete case of C88: third-order analog high-pass filters in double precision. -/
example (hs : s.Correct) :
    ∃ l, butter (1 / 2 ^ 52) s 3 [100] (some .highpass) (some true) (some .sos) none = .ok (.sos l) ∧ l.length = 2 := by
  obtain ⟨l, h, hl, -⟩ := C88_butter_highpass (1 / 2 ^ 52) s (by positivity) hs 3 (by norm_num) 100 (by norm_num) (by
    have : leastAngle 3 = Real.pi / 3 := by simp [leastAngle]
    rw [this, Real.sin_pi_div_three]
    have : (1 : ℝ) ≤ √3 := by rw [Real.one_le_sqrt]; norm_num
    norm_num
    linarith)
  exact ⟨l, h, by rw [hl]⟩

end

end SciRs.Props

import Verif.Lemmas.Design.NearReal
import Verif.Lemmas.Design.BandRoots
import Verif.Props.Design.Formats
import Mathlib.Analysis.Real.Pi.Bounds
import Mathlib.Analysis.SpecialFunctions.Trigonometric.Bounds

/-!
# C52, C84: when the section format is returned
-/

namespace SciRs.Props

open SciRs SciRs.Design SciRs.Spec Complex

/-- **C52**, exactly: a digital filter with real coefficients is converted to sections if and only if each of
its zeros and poles is real or further from the real axis than the tolerance `100 eps` (relative to its real
part).  Otherwise the conversion panics. -/
theorem C52_returns_iff {eps : ℝ} (he : 0 ≤ eps) {s : Sorts} (hs : s.Correct) (order : ℕ) (f : Zpk)
    (hz : ConjClosed f.z) (hp : ConjClosed f.p) {pairing : Option Pairing} {analog : Option Bool}
    (hpair : pairing = none ∨ pairing = some .nearest) (han : analog = none ∨ analog = some false) :
    (Returns (zpk2sos eps s order f pairing analog) ↔
      Separated (eps * 100) f.z ∧ Separated (eps * 100) f.p) ∧
    (Panics (zpk2sos eps s order f pairing analog) ↔
      ¬ (Separated (eps * 100) f.z ∧ Separated (eps * 100) f.p)) := by
  have key : Returns (zpk2sos eps s order f pairing analog) ↔
      Separated (eps * 100) f.z ∧ Separated (eps * 100) f.p := by
    constructor
    · rintro ⟨l, hl⟩
      have ha : analog.getD false = false := by rcases han with rfl | rfl <;> rfl
      have hpg : pairing.getD (if (false : Bool) = true then .minimal else .nearest) = .nearest := by
        rcases hpair with rfl | rfl <;> rfl
      unfold zpk2sos at hl
      rw [ha] at hl
      dsimp only at hl
      rw [hpg, if_neg (by simp)] at hl
      by_cases h0 : f.z = [] ∧ f.p = []
      · rw [h0.1, h0.2]
        simp [Separated]
      rw [if_neg h0, if_pos (by simp)] at hl
      obtain ⟨u, hu, hl⟩ := bind_eq_ok.mp hl
      set M := max f.z.length f.p.length with hM
      have hPl : (f.p ++ List.replicate (f.z.length - f.p.length) (0 : ℂ)).length = M := by
        rw [List.length_append, List.length_replicate]; omega
      rw [hPl] at hl
      have hZl : (f.z ++ List.replicate (M - f.z.length) (0 : ℂ)).length = M := by
        rw [List.length_append, List.length_replicate]; omega
      rw [hZl, Nat.max_self] at hl
      have hsub : ∀ {t : ℝ} {l m : List ℂ}, Separated t (l ++ m) → Separated t l := fun h x hx =>
        h x (List.mem_append_left _ hx)
      by_cases hodd : M % 2 = 1
      · rw [if_pos ⟨hodd, rfl⟩] at hl
        dsimp only at hl
        obtain ⟨h1, h2⟩ := pairUp_near_real he hs (by rw [List.length_append, hZl]; simp; omega)
          (by rw [List.length_append, hPl]; simp; omega) hl
        exact ⟨hsub (hsub h1), hsub (hsub h2)⟩
      · rw [if_neg (by simp [hodd])] at hl
        dsimp only at hl
        obtain ⟨h1, h2⟩ := pairUp_near_real he hs (by rw [hZl]; omega) (by rw [hPl]; omega) hl
        exact ⟨hsub h1, hsub h2⟩
    · rintro ⟨h1, h2⟩
      obtain ⟨sos, e, -⟩ := C51_sections hs order f ⟨he, hz, hp, h1, h2⟩ hpair han
      exact ⟨sos, e⟩
  exact ⟨key, by rw [panics_iff_not_returns (noUb_zpk2sos _ _ _ _ _ _), key]⟩

/-- C52 decides in both directions: a pair of poles `1 ± y i` is accepted exactly when `100 eps < |y|`. -/
example {eps : ℝ} (he : 0 ≤ eps) {s : Sorts} (hs : s.Correct) (y : ℝ) (hy : y ≠ 0) :
    Returns (zpk2sos eps s 2 ⟨[0, 0], [1 + y * I, 1 - y * I], 1⟩ none none) ↔ eps * 100 < |y| := by
  have hcl : ConjClosed [1 + (y : ℂ) * I, 1 - (y : ℂ) * I] := by
    simp only [ConjClosed, List.map_cons, List.map_nil, map_add, map_sub, map_mul, map_one, conj_I, conj_ofReal,
      mul_neg, sub_neg_eq_add, ← sub_eq_add_neg]
    exact List.Perm.swap _ _ _
  rw [(C52_returns_iff he hs 2 _ (by simpa using conjClosed_replicate_real 2 0) hcl (.inl rfl) (.inl rfl)).1]
  simp [Separated, hy]

/-! ### The least angle of a Butterworth pole -/

/-- The least non-zero angle between the negative real axis and a pole of the Butterworth prototype of order `N`:
`π/(2N)` for an even order, `π/N` for an odd one (which also has a real pole). -/
noncomputable def leastAngle (N : ℕ) : ℝ := if N % 2 = 0 then Real.pi / (2 * N) else Real.pi / N

theorem leastAngle_eq (N : ℕ) : Real.sin (th N (if N % 2 = 0 then 1 else 2)) = Real.sin (leastAngle N) := by
  congr 1
  unfold th leastAngle
  split
  · simp
  · push_cast
    by_cases h : (N : ℝ) = 0
    · simp [h]
    · field_simp

theorem least_pole {N : ℕ} (hN : N ≠ 0) (hN1 : N ≠ 1) :
    (if N % 2 = 0 then (1 : ℤ) else 2) ∈ stepRange (-(N : ℤ) + 1) N ∧
      0 < Real.sin (th N (if N % 2 = 0 then 1 else 2)) := by
  have hm : (if N % 2 = 0 then (1 : ℤ) else 2) ∈ stepRange (-(N : ℤ) + 1) N := by
    rw [stepRange_sym, List.mem_map]
    split
    · exact ⟨N / 2, List.mem_range.mpr (by omega), by push_cast; omega⟩
    · exact ⟨(N + 1) / 2, List.mem_range.mpr (by omega), by push_cast; omega⟩
  refine ⟨hm, ?_⟩
  have hb := th_bound hN hm
  have hpi := Real.pi_pos
  refine Real.sin_pos_of_pos_of_lt_pi ?_ (by linarith)
  have hN' : (0 : ℝ) < N := by exact_mod_cast Nat.pos_of_ne_zero hN
  unfold th
  split <;> · push_cast; positivity

theorem least_angle_le {N : ℕ} (hN : N ≠ 0) {m : ℤ} (h : m ∈ stepRange (-(N : ℤ) + 1) N) (hm : m ≠ 0) :
    Real.sin (leastAngle N) ≤ |Real.sin (th N m)| := by
  have hN' : (0 : ℝ) < N := by exact_mod_cast Nat.pos_of_ne_zero hN
  have hpi := Real.pi_pos
  have hb := th_bound hN h
  have hpar : (if N % 2 = 0 then (1 : ℤ) else 2) ≤ |m| := by
    rw [stepRange_sym] at h
    obtain ⟨j, hj, rfl⟩ := List.mem_map.mp h
    have := List.mem_range.mp hj
    rcases abs_cases (-(N : ℤ) + 1 + 2 * (j : ℤ)) with ⟨h1, h2⟩ | ⟨h1, h2⟩ <;> split <;> omega
  have key : ∀ k : ℤ, (if N % 2 = 0 then (1 : ℤ) else 2) ≤ k → th N k < Real.pi / 2 →
      Real.sin (leastAngle N) ≤ Real.sin (th N k) := by
    intro k hk hlt
    rw [← leastAngle_eq]
    have hk' : ((if N % 2 = 0 then (1 : ℤ) else 2 : ℤ) : ℝ) ≤ (k : ℝ) := by exact_mod_cast hk
    have hnn : 0 ≤ th N (if N % 2 = 0 then 1 else 2) := by
      unfold th
      split <;> · push_cast; positivity
    refine Real.sin_le_sin_of_le_of_le_pi_div_two (by linarith) hlt.le ?_
    unfold th
    exact div_le_div_of_nonneg_right (by nlinarith) (by positivity)
  rcases lt_or_gt_of_ne hm with h0 | h0
  · have := key (-m) (by rwa [abs_of_neg h0] at hpar) (by rw [th_neg]; linarith)
    rw [th_neg, Real.sin_neg] at this
    exact this.trans (neg_le_abs _)
  · exact (key m (by rwa [abs_of_pos h0] at hpar) hb.2).trans (le_abs_self _)

section
variable (eps : ℝ) (s : Sorts)

/-- **C84.**  For a valid digital request of any family and band
the section format is returned exactly when the zeros and poles of the design, as reported by the
zero-pole-gain format, are real or further from the real axis than the tolerance of `cplxreal_dyn`;
otherwise `iirfilter_dyn` panics. -/
theorem C84_returns_iff (heps : 0 ≤ eps) (hs : s.Correct) (N : ℕ) (wn : List ℝ) (rp rs : Option ℝ)
    (btype : Option Band) (ftype : Option FType) (analog : Option Bool) (ha : analog = none ∨ analog = some false)
    (fs : Option ℝ)
    (hv : ValidRequest wn rp rs (btype.getD .bandpass) (ftype.getD .butterworth) false fs)
    (hr : PositiveRipple (ftype.getD .butterworth) rp rs)
    (_hfin : ftype.getD .butterworth = .chebyshevII → ZerosFinite N (btype.getD .bandpass) (edges wn fs)) :
    ∃ d, iirfilter eps s N wn rp rs btype ftype analog (some .zpk) fs = .ok (.zpk d) ∧
      (Returns (iirfilter eps s N wn rp rs btype ftype analog (some .sos) fs) ↔
        Separated (eps * 100) d.z ∧ Separated (eps * 100) d.p) ∧
      (Panics (iirfilter eps s N wn rp rs btype ftype analog (some .sos) fs) ↔
        ¬ (Separated (eps * 100) d.z ∧ Separated (eps * 100) d.p)) := by
  have ha' : analog.getD false = false := by rcases ha with rfl | rfl <;> rfl
  obtain ⟨-, -, d, -, -, -, hd, -, -, -, -, hzc, hpc, -⟩ := design_real (N := N) hv hr
  obtain ⟨h1, h2⟩ := C52_returns_iff heps hs N d hzc hpc (pairing := none) (analog := some false)
    (.inl rfl) (.inr rfl)
  have e : iirfilter eps s N wn rp rs btype ftype analog (some .sos) fs =
      (zpk2sos eps s N d none (some false) >>= fun l => .ok (.sos l)) := by
    rw [iirfilter_eq, ha', hd, ok_bind]
    rfl
  refine ⟨d, by rw [iirfilter_eq, ha', hd]; rfl, ?_⟩
  rw [e, ← h1]
  have hret : Returns (zpk2sos eps s N d none (some false) >>= fun l => (.ok (.sos l) : Res Filter)) ↔
      Returns (zpk2sos eps s N d none (some false)) := by
    cases zpk2sos eps s N d none (some false) with
    | ok l => simp [Bind.bind, Except.bind]
    | error er => simp [Bind.bind, Except.bind, Returns]
  exact ⟨hret, by rw [panics_iff_not_returns ((noUb_zpk2sos _ _ _ _ _ _).bind fun _ _ => noUb_ok _), hret]⟩

/-- A request for sections that returns, returns sections. -/
theorem C84_format (N : ℕ) (wn : List ℝ) (rp rs : Option ℝ) (btype : Option Band) (ftype : Option FType)
    (analog : Option Bool) (fs : Option ℝ)
    (h : Returns (iirfilter eps s N wn rp rs btype ftype analog (some .sos) fs)) :
    ∃ l, iirfilter eps s N wn rp rs btype ftype analog (some .sos) fs = .ok (.sos l) := by
  obtain ⟨F, hF⟩ := h
  rw [iirfilter_eq] at hF ⊢
  obtain ⟨d, hd, hF⟩ := bind_eq_ok.mp hF
  rw [hd, ok_bind]
  simp only [Option.getD_some, convert] at hF ⊢
  obtain ⟨l, hl, hF⟩ := bind_eq_ok.mp hF
  exact ⟨l, by rw [hl]; rfl⟩

/-- **C84**, and then the sections are right: whenever a valid digital request of any family and band returns
sections, they are stable, normalised and at rest, and have the transfer function of the zero-pole-gain
format. -/
theorem C84_sound (heps : 0 ≤ eps) (hs : s.Correct) (N : ℕ) (wn : List ℝ) (rp rs : Option ℝ)
    (btype : Option Band) (ftype : Option FType) (analog : Option Bool) (ha : analog = none ∨ analog = some false)
    (fs : Option ℝ)
    (hv : ValidRequest wn rp rs (btype.getD .bandpass) (ftype.getD .butterworth) false fs)
    (hr : PositiveRipple (ftype.getD .butterworth) rp rs)
    (hfin : ftype.getD .butterworth = .chebyshevII → ZerosFinite N (btype.getD .bandpass) (edges wn fs))
    (l : List (Sos ℝ)) (hl : iirfilter eps s N wn rp rs btype ftype analog (some .sos) fs = .ok (.sos l)) :
    ∃ d, iirfilter eps s N wn rp rs btype ftype analog (some .zpk) fs = .ok (.zpk d) ∧
      l.length = max 1 ((d.p.length + 1) / 2) ∧
      (∀ c ∈ l, c.a0 = 1 ∧ c.zi0 = 0 ∧ c.zi1 = 0 ∧
        ∀ x : ℂ, coeffVal [c.a0, c.a1, c.a2] x = 0 → ‖x‖ < 1) ∧
      ∀ x : ℂ, x ≠ 0 → (sosDen l x ≠ 0 ↔ d.Regular x) ∧ sosNum l x / sosDen l x = d.eval x := by
  obtain ⟨d, hd, h1, -⟩ := C84_returns_iff eps s heps hs N wn rp rs btype ftype analog ha fs hv hr hfin
  obtain ⟨hz, hp⟩ := h1.mp ⟨_, hl⟩
  obtain ⟨d', hd', h⟩ := C59_zpk_sos eps s heps hs N wn rp rs btype ftype analog ha fs hv hr hfin
  rw [hd] at hd'
  cases hd'
  obtain ⟨l', hl', h2, h3, h4⟩ := h hz hp
  rw [hl] at hl'
  cases hl'
  exact ⟨d, hd, h2, h3, h4⟩

/-- **C84** for Butterworth low-pass and high-pass filters, in terms of the request: sections are returned if
and only if the order is 1 or `100 eps |cos(πW)| < sin(πW) sin(leastAngle N)`, `W` being the edge relative
to the Nyquist frequency.  Otherwise the design panics. -/
theorem C84_butter_iff (heps : 0 ≤ eps) (hs : s.Correct) (N : ℕ) (hN : N ≠ 0) (band : Band)
    (hb : band = .lowpass ∨ band = .highpass) (wn W : ℝ) (fs : Option ℝ) (hW : edges [wn] fs = [W]) (h0 : 0 < W)
    (h1 : W < 1) :
    (Returns (butter eps s N [wn] (some band) none (some .sos) fs) ↔
      (N = 1 ∨ eps * 100 * |Real.cos (Real.pi * W)| < Real.sin (Real.pi * W) * Real.sin (leastAngle N))) ∧
    (Panics (butter eps s N [wn] (some band) none (some .sos) fs) ↔
      ¬ (N = 1 ∨ eps * 100 * |Real.cos (Real.pi * W)| < Real.sin (Real.pi * W) * Real.sin (leastAngle N))) := by
  have hv : ValidRequest [wn] none none band .butterworth false fs :=
    valid_single hb hW h0 h1 (by simp) (by simp) (.inl rfl)
  have hr : PositiveRipple .butterworth none none := ⟨by simp, by simp⟩
  obtain ⟨d, e, hR, hP⟩ := C84_returns_iff eps s heps hs N [wn] none none (some band) (some .butterworth) (some false)
    (.inr rfl) fs hv hr (by simp)
  have hd : design N [wn] none none band .butterworth false fs = .ok d := by
    obtain ⟨f, d', -, hd', -⟩ := design_sound (N := N) hv hr (by simp)
    rw [iirfilter_eq] at e
    simp only [Option.getD_some] at e
    rw [hd'] at e
    cases e
    exact hd'
  obtain ⟨hz, hp⟩ := low_high_separated_iff (tol := eps * 100) hN hb hW h0 h1 hd
  have hpi := Real.pi_pos
  have hsp : 0 < Real.sin (Real.pi * W) := Real.sin_pos_of_pos_of_lt_pi (by positivity) (by nlinarith)
  have key : Separated (eps * 100) d.z ∧ Separated (eps * 100) d.p ↔
      (N = 1 ∨ eps * 100 * |Real.cos (Real.pi * W)| < Real.sin (Real.pi * W) * Real.sin (leastAngle N)) := by
    rw [hp]
    constructor
    · rintro ⟨-, h⟩
      by_cases hN1 : N = 1
      · exact .inl hN1
      obtain ⟨hm, hpos⟩ := least_pole hN hN1
      refine .inr ((h _ hm).resolve_left ?_ |>.trans_eq ?_)
      · exact hpos.ne'
      · rw [← leastAngle_eq, abs_of_pos hpos]
    · intro h
      refine ⟨hz, fun m hm => ?_⟩
      by_cases hm0 : m = 0
      · left; simp [hm0, th]
      rcases h with rfl | h
      · exact absurd (mem_stepRange_sym hm) (by omega)
      · exact .inr (h.trans_le (mul_le_mul_of_nonneg_left (least_angle_le hN hm hm0) hsp.le))
  rw [← key]
  exact ⟨hR, hP⟩

/-- **C84**, a design that fails (a finding): single precision, `eps = 2^-23`.  A second-order Butterworth
low-pass or high-pass filter with its edge at 0.1 Hz for signals sampled at 48 kHz, asked for as sections,
panics, although the request is valid and the filter exists (its zero-pole-gain format is returned). -/
theorem C84_low_edge_panics (hs : s.Correct) (band : Band) (hb : band = .lowpass ∨ band = .highpass) :
    Panics (butter (1 / 2 ^ 23) s 2 [1 / 10] (some band) none (some .sos) (some 48000)) ∧
      Returns (butter (1 / 2 ^ 23) s 2 [1 / 10] (some band) none (some .zpk) (some 48000)) := by
  have hW : edges [(1 : ℝ) / 10] (some 48000) = [1 / 240000] := by simp [edges]; norm_num
  refine ⟨?_, ?_⟩
  · refine ((C84_butter_iff _ s (by norm_num) hs 2 (by norm_num) band hb _ _ _ hW (by norm_num) (by norm_num)).2).mpr ?_
    rintro (h | h)
    · omega
    have hpi := Real.pi_pos
    have hpi4 : Real.pi < 3.15 := Real.pi_lt_d2
    rw [leastAngle, if_pos rfl, show Real.pi / (2 * ((2 : ℕ) : ℝ)) = Real.pi / 4 by push_cast; ring,
      Real.sin_pi_div_four] at h
    set x := Real.pi * (1 / 240000) with hx
    have hx0 : 0 < x := by positivity
    have h1 : Real.sin x ≤ x := (Real.sin_lt hx0).le
    have h2 : 1 - x ^ 2 / 2 ≤ Real.cos x := Real.one_sub_sq_div_two_le_cos
    have h3 : √2 < 1.4143 := by
      rw [Real.sqrt_lt' (by norm_num)]; norm_num
    have hxs : x < 0.000013125 := by rw [hx]; linarith
    have h4 : x ^ 2 < 0.0000001 := by nlinarith
    have h5 : (0.99 : ℝ) < |Real.cos x| := lt_of_lt_of_le (by linarith) (le_abs_self _)
    have h6 : 0 ≤ √2 := Real.sqrt_nonneg _
    have h7 : Real.sin x * (√2 / 2) ≤ 0.000013125 * (1.4143 / 2) :=
      (mul_le_mul_of_nonneg_right (h1.trans hxs.le) (by positivity)).trans
        (mul_le_mul_of_nonneg_left (by linarith) (by norm_num))
    norm_num at h h7
    linarith
  · obtain ⟨d, e, -⟩ := C84_returns_iff (1 / 2 ^ 23) s (by norm_num) hs 2 [1 / 10] none none (some band)
      (some .butterworth) (some false) (.inr rfl) (some 48000)
      (valid_single hb hW (by norm_num) (by norm_num) (by simp) (by simp) (.inl rfl)) ⟨by simp, by simp⟩ (by simp)
    exact ⟨_, e⟩

/-- C84 in use: in double precision, `eps = 2^-52`, the same request is served. -/
example (hs : s.Correct) :
    Returns (butter (1 / 2 ^ 52) s 2 [1 / 10] (some .lowpass) none (some .sos) (some 48000)) := by
  have hW : edges [(1 : ℝ) / 10] (some 48000) = [1 / 240000] := by simp [edges]; norm_num
  refine ((C84_butter_iff _ s (by norm_num) hs 2 (by norm_num) .lowpass (.inl rfl) _ _ _ hW (by norm_num)
    (by norm_num)).1).mpr (.inr ?_)
  have hpi : 3.14 < Real.pi := Real.pi_gt_d2
  have hpi4 : Real.pi < 3.15 := Real.pi_lt_d2
  rw [leastAngle, if_pos rfl, show Real.pi / (2 * ((2 : ℕ) : ℝ)) = Real.pi / 4 by push_cast; ring,
    Real.sin_pi_div_four]
  set x := Real.pi * (1 / 240000) with hx
  have hx0 : 0 < x := by positivity
  have h1 := Real.mul_le_sin hx0.le (by rw [hx]; linarith)
  have h2 : |Real.cos x| ≤ 1 := Real.abs_cos_le_one x
  have h3 : 1 < √2 := by rw [Real.lt_sqrt (by norm_num)]; norm_num
  have h4 : 2 / Real.pi * x = 1 / 120000 := by rw [hx]; field_simp; norm_num
  rw [h4] at h1
  have h7 : (1 : ℝ) / 120000 * (1 / 2) ≤ Real.sin x * (√2 / 2) :=
    mul_le_mul h1 (by linarith) (by norm_num) (by linarith)
  have h8 : (1 / 2 ^ 52 * 100 : ℝ) * |Real.cos x| ≤ 1 / 2 ^ 52 * 100 := mul_le_of_le_one_right (by norm_num) h2
  refine h8.trans_lt (lt_of_lt_of_le ?_ h7)
  norm_num

/-- `2 tan(x/2) = sin x (1 + tan²(x/2))`. -/
theorem sin_tan {W : ℝ} (h0 : 0 < W) (h1 : W < 1) :
    Real.sin (Real.pi * W) * (1 + Real.tan (Real.pi * W / 2) ^ 2) = 2 * Real.tan (Real.pi * W / 2) := by
  have hpi := Real.pi_pos
  have hcW : 0 < Real.cos (Real.pi * W / 2) := Real.cos_pos_of_mem_Ioo ⟨by nlinarith, by nlinarith⟩
  rw [show Real.pi * W = 2 * (Real.pi * W / 2) by ring, Real.sin_two_mul, show 2 * (Real.pi * W / 2) / 2 =
    Real.pi * W / 2 by ring, Real.tan_eq_sin_div_cos]
  have := Real.sin_sq_add_cos_sq (Real.pi * W / 2)
  field_simp
  linear_combination Real.sin (Real.pi * W / 2) * this

/-- **C84** for Butterworth band-pass and band-stop filters: sections are returned if `100 eps` is less than
`sin(πA) sin(leastAngle N)` and than `sin(πB) sin(leastAngle N)` (order 1 excepted), if the poles from the real
prototype pole of an odd order are real or far from the axis (`hodd`), and if the zeros of a band-stop filter
are (`hstop`); `A` and `B` are the edges relative to the Nyquist frequency. -/
theorem C84_butter_band (heps : 0 ≤ eps) (hs : s.Correct) (N : ℕ) (hN : N ≠ 0) (band : Band)
    (hb : band = .bandpass ∨ band = .bandstop) (w0 w1 A B : ℝ) (fs : Option ℝ) (hW : edges [w0, w1] fs = [A, B])
    (h0 : 0 < A) (hAB : A < B) (h1 : B < 1) (a b : ℝ) (ha : a = Real.tan (Real.pi * A / 2))
    (hb' : b = Real.tan (Real.pi * B / 2))
    (hA : N = 1 ∨ eps * 100 < Real.sin (Real.pi * A) * Real.sin (leastAngle N))
    (hB : N = 1 ∨ eps * 100 < Real.sin (Real.pi * B) * Real.sin (leastAngle N))
    (hodd : N % 2 = 1 → 6 * a * b ≤ a ^ 2 + b ^ 2 ∨ eps * 100 * |1 - a * b| < √(6 * a * b - a ^ 2 - b ^ 2))
    (hstop : band = .bandstop → eps * 100 * |1 - a * b| < 2 * √(a * b)) :
    Returns (butter eps s N [w0, w1] (some band) none (some .sos) fs) := by
  have hv : ValidRequest [w0, w1] none none band .butterworth false fs :=
    valid_pair hb hW h0 hAB h1 (by simp) (by simp) (.inl rfl)
  have hr : PositiveRipple .butterworth none none := ⟨by simp, by simp⟩
  obtain ⟨d, e, hR, -⟩ := C84_returns_iff eps s heps hs N [w0, w1] none none (some band) (some .butterworth) (some false)
    (.inr rfl) fs hv hr (by simp)
  have hd : design N [w0, w1] none none band .butterworth false fs = .ok d := by
    obtain ⟨f, d', -, hd', -⟩ := design_sound (N := N) hv hr (by simp)
    rw [iirfilter_eq] at e
    simp only [Option.getD_some] at e
    rw [hd'] at e
    cases e
    exact hd'
  have ha0 : 0 < a := ha ▸ tan_pos_of h0 (hAB.trans h1)
  have hab : a < b := by rw [ha, hb']; exact tan_lt_of h0 hAB h1
  have htol : 0 ≤ eps * 100 := by positivity
  obtain ⟨hz, hp⟩ := band_roots (N := N) hb hv hW h0 hAB h1 (f := buttap N) rfl rfl
    (fun q hq => ((C45_poles N hN).2.2.2 q hq).1) hd ha hb'
  refine hR.mpr ⟨fun z hz' => ?_, fun p hp' => ?_⟩
  · rcases hz z hz' with h | ⟨hbs, σ, hσ, him, h⟩
    · exact .inl h
    · refine (bilinear_apart hσ.le h).mpr (.inr ?_)
      have hn : normSq σ = a * b := by rw [normSq_apply, hσ, ← him]; ring
      have hi : |σ.im| = √(a * b) := by rw [← him, Real.sqrt_sq_eq_abs]
      rw [hn, hi]
      exact hstop hbs
  · obtain ⟨q, hq, σ, hσ, he, hroot⟩ := hp p hp'
    refine (bilinear_apart hσ.le he).mpr ?_
    rw [buttap_p_eq] at hq
    obtain ⟨m, hm, rfl⟩ := List.mem_map.mp hq
    -- the prototype pole, or its inverse, on the unit circle
    obtain ⟨φ, hφ, hq'⟩ : ∃ φ : ℝ, (φ = th N m ∨ φ = -th N m) ∧
        (if band = .bandpass then -exp ((th N m : ℂ) * I) else (-exp ((th N m : ℂ) * I))⁻¹) = -exp ((φ : ℂ) * I) := by
      split
      · exact ⟨_, .inl rfl, rfl⟩
      · refine ⟨_, .inr rfl, ?_⟩
        rw [inv_neg, ← exp_neg]; push_cast; rw [neg_mul]
    rw [hq'] at hroot
    have hsin : |Real.sin φ| = |Real.sin (th N m)| := by
      rcases hφ with rfl | rfl
      · rfl
      · rw [Real.sin_neg, abs_neg]
    by_cases hm0 : m = 0
    · -- the real pole
      have hN2 : N % 2 = 1 := by
        subst hm0
        rw [stepRange_sym] at hm
        obtain ⟨j, -, hj⟩ := List.mem_map.mp hm
        omega
      have hφ0 : φ = 0 := by rcases hφ with rfl | rfl <;> simp [hm0, th]
      rw [hφ0] at hroot
      refine (band_apart_real ha0 hab ?_).mpr (hodd hN2)
      rw [← hroot]
      simp only [ofReal_zero, zero_mul, exp_zero]
      ring
    · right
      have hN1 : N ≠ 1 := by
        rintro rfl
        exact hm0 (by have := mem_stepRange_sym hm; omega)
      have hle := least_angle_le hN hm hm0
      have himq : |(-exp ((φ : ℂ) * I)).im| = |Real.sin φ| := by
        rw [neg_im, abs_neg, exp_ofReal_mul_I_im]
      have hedge : ∀ W : ℝ, 0 < W → W < 1 →
          eps * 100 < Real.sin (Real.pi * W) * Real.sin (leastAngle N) →
          eps * 100 * (1 + Real.tan (Real.pi * W / 2) ^ 2) <
            2 * Real.tan (Real.pi * W / 2) * |(-exp ((φ : ℂ) * I)).im| := by
        intro W hW0 hW1 h
        rw [himq, hsin, ← sin_tan hW0 hW1]
        have hpi := Real.pi_pos
        have hsp : 0 < Real.sin (Real.pi * W) := Real.sin_pos_of_pos_of_lt_pi (by positivity) (by nlinarith)
        have h2 := h.trans_le (mul_le_mul_of_nonneg_left hle hsp.le)
        have := mul_lt_mul_of_pos_right h2 (by positivity : 0 < 1 + Real.tan (Real.pi * W / 2) ^ 2)
        linarith
      refine band_apart htol ha0 hab ?_ hroot ?_ ?_
      · rw [norm_neg, norm_exp_ofReal_mul_I]
      · rw [ha]; exact hedge A h0 (hAB.trans h1) (hA.resolve_left hN1)
      · rw [hb']; exact hedge B (h0.trans hAB) h1 (hB.resolve_left hN1)

/-- C84 in use: the band-pass filter of the crate's documentation, order 4, 10 Hz to 50 Hz at 1666 Hz, in double
precision. -/
theorem C84_doc_bandpass (hs : s.Correct) :
    Returns (butter (1 / 2 ^ 52) s 4 [10, 50] (some .bandpass) none (some .sos) (some 1666)) := by
  have hpi := Real.pi_pos
  have hlow : ∀ x : ℝ, 0 ≤ x → x ≤ 1 / 2 → 2 * x ≤ Real.sin (Real.pi * x) := by
    intro x h0 h1
    have := Real.mul_le_sin (x := Real.pi * x) (by positivity) (by nlinarith)
    rwa [← mul_assoc, div_mul_cancel₀ _ hpi.ne'] at this
  have hL : (1 : ℝ) / 4 ≤ Real.sin (leastAngle 4) := by
    have := hlow (1 / 8) (by norm_num) (by norm_num)
    rw [leastAngle, if_pos rfl]
    rw [show Real.pi / (2 * ((4 : ℕ) : ℝ)) = Real.pi * (1 / 8) by push_cast; ring]
    linarith
  refine C84_butter_band _ s (by norm_num) hs 4 (by norm_num) .bandpass (.inl rfl) 10 50 (20 / 1666) (100 / 1666)
    (some 1666) (by simp [edges]; norm_num) (by norm_num) (by norm_num) (by norm_num) _ _ rfl rfl (.inr ?_) (.inr ?_)
    (by norm_num) (by simp)
  · have h1 := hlow (20 / 1666) (by norm_num) (by norm_num)
    refine lt_of_lt_of_le ?_ (mul_le_mul h1 hL (by norm_num) (by linarith))
    norm_num
  · have h1 := hlow (100 / 1666) (by norm_num) (by norm_num)
    refine lt_of_lt_of_le ?_ (mul_le_mul h1 hL (by norm_num) (by linarith))
    norm_num

end

end SciRs.Props

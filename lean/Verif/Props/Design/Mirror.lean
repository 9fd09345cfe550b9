import Verif.Spec.Mirror
import Verif.Props.Design.DesignEnergy
import Mathlib.Topology.Algebra.Module.Cardinality

/-!
# C111: designs with a reflected frequency axis
-/

namespace SciRs.Props

open SciRs SciRs.Design SciRs.Spec Complex

/-! ### The designs -/

theorem tan_mirror (W : ℝ) : Real.tan (Real.pi * (1 - W) / 2) = (Real.tan (Real.pi * W / 2))⁻¹ := by
  rw [← Real.tan_pi_div_two_sub]
  congr 1
  ring

/-- The points at which the textbook substitutions say nothing. -/
def exceptional (c : ℝ) : Set ℂ := {x | x = 1 ∨ x = -1 ∨ 16 * (x - 1) ^ 2 + (c : ℂ) ^ 2 * (x + 1) ^ 2 = 0}

theorem exceptional_countable (c : ℝ) : (exceptional c).Countable := by
  have h1 : (4 : ℂ) - c * I ≠ 0 := fun h => by simpa using congrArg re h
  have h2 : (4 : ℂ) + c * I ≠ 0 := fun h => by simpa using congrArg re h
  refine Set.Countable.mono (s₂ := {1, -1, (4 + c * I) / (4 - c * I), (4 - c * I) / (4 + c * I)}) ?_
    (Set.Finite.countable (by simp))
  rintro x (h | h | h)
  · simp [h]
  · simp [h]
  · have h3 : ((4 - c * I) * x - (4 + c * I)) * ((4 + c * I) * x - (4 - c * I)) = 0 := by
      linear_combination h + (-(c : ℂ) ^ 2 * (x + 1) ^ 2) * I_sq
    rcases mul_eq_zero.mp h3 with h | h
    · have : x = (4 + c * I) / (4 - c * I) := by rw [eq_div_iff h1]; linear_combination h
      simp [this]
    · have : x = (4 - c * I) / (4 + c * I) := by rw [eq_div_iff h2]; linear_combination h
      simp [this]

theorem continuous_num (f : Zpk) : Continuous f.num := by
  unfold Zpk.num
  exact continuous_const.mul (continuous_list_prod f.z fun z _ => continuous_id.sub continuous_const)

theorem continuous_den (f : Zpk) : Continuous f.den := by
  unfold Zpk.den
  exact continuous_list_prod f.p fun z _ => continuous_id.sub continuous_const

/-- Two transfer functions that agree outside a countable set, one reflected, agree wherever both are defined. -/
theorem eval_eq_of_countable {d d' : Zpk} {S : Set ℂ} (hS : S.Countable)
    (h : ∀ x, x ∉ S → (d'.Regular (-x) ↔ d.Regular x) ∧ d'.eval (-x) = d.eval x) (x : ℂ) (hx : d.Regular x)
    (hx' : d'.Regular (-x)) : d'.eval (-x) = d.eval x := by
  have key : (fun x => d'.num (-x) * d.den x) = fun x => d.num x * d'.den (-x) := by
    refine Continuous.ext_on (hS.dense_compl ℂ)
      (((continuous_num d').comp continuous_neg).mul (continuous_den d))
      ((continuous_num d).mul ((continuous_den d').comp continuous_neg)) fun y hy => ?_
    obtain ⟨h1, h2⟩ := h y hy
    by_cases hr : d.Regular y
    · have hr' := h1.mpr hr
      unfold Zpk.Regular at hr hr'
      unfold Zpk.eval at h2
      rwa [div_eq_div_iff hr' hr] at h2
    · have hr' : ¬ d'.Regular (-y) := fun h => hr (h1.mp h)
      unfold Zpk.Regular at hr hr'
      rw [not_not] at hr hr'
      simp only [hr, hr', mul_zero]
  have := congrFun key x
  unfold Zpk.Regular at hx hx'
  unfold Zpk.eval
  rw [div_eq_div_iff hx' hx]
  exact this

/-- The substitutions of the two designs, at reflected points. -/
theorem bandMap_mirror {band : Band} {e : List ℝ} (he : EdgesOk band e) (h1 : ∀ W ∈ e, W < 1) :
    ∃ c : ℝ, ∀ x, x ∉ exceptional c →
      BandDefined band (e.map fun x => 4 * Real.tan (Real.pi * x / 2)) (4 * (x - 1) / (x + 1)) ∧
      BandDefined (mirrorBand band) ((mirrorEdges e).map fun x => 4 * Real.tan (Real.pi * x / 2))
        (4 * (-x - 1) / (-x + 1)) ∧
      bandMap (mirrorBand band) ((mirrorEdges e).map fun x => 4 * Real.tan (Real.pi * x / 2))
          (4 * (-x - 1) / (-x + 1)) =
        bandMap band (e.map fun x => 4 * Real.tan (Real.pi * x / 2)) (4 * (x - 1) / (x + 1)) := by
  have hne : ∀ {c : ℝ} {x : ℂ}, x ∉ exceptional c → x - 1 ≠ 0 ∧ x + 1 ≠ 0 ∧ -x + 1 ≠ 0 ∧ -x - 1 ≠ 0 ∧
      16 * (x - 1) ^ 2 + (c : ℂ) ^ 2 * (x + 1) ^ 2 ≠ 0 := by
    intro c x hx
    simp only [exceptional, Set.mem_setOf_eq, not_or] at hx
    refine ⟨sub_ne_zero.mpr hx.1, fun h => hx.2.1 (eq_neg_of_add_eq_zero_left h),
      fun h => hx.1 (by linear_combination -h), fun h => hx.2.1 (by linear_combination -h), hx.2.2⟩
  match band, e, he with
  | .lowpass, [W], he =>
    have hT := tan_pos_of he (h1 W (by simp))
    refine ⟨0, fun x hx => ?_⟩
    obtain ⟨a1, a2, a3, a4, -⟩ := hne hx
    simp only [mirrorEdges, mirrorBand, List.map_cons, List.map_nil, List.reverse_singleton, BandDefined, bandMap,
      tan_mirror]
    generalize Real.tan (Real.pi * W / 2) = T at *
    have hT' : (T : ℂ) ≠ 0 := by exact_mod_cast hT.ne'
    refine ⟨trivial, div_ne_zero (mul_ne_zero (by norm_num) a4) a3, ?_⟩
    push_cast
    field_simp
    ring
  | .highpass, [W], he =>
    have hT := tan_pos_of he (h1 W (by simp))
    refine ⟨0, fun x hx => ?_⟩
    obtain ⟨a1, a2, a3, a4, -⟩ := hne hx
    simp only [mirrorEdges, mirrorBand, List.map_cons, List.map_nil, List.reverse_singleton, BandDefined, bandMap,
      tan_mirror]
    generalize Real.tan (Real.pi * W / 2) = T at *
    have hT' : (T : ℂ) ≠ 0 := by exact_mod_cast hT.ne'
    refine ⟨div_ne_zero (mul_ne_zero (by norm_num) a1) a2, trivial, ?_⟩
    push_cast
    field_simp
    ring
  | .bandpass, [A, B], he =>
    obtain ⟨hA, hAB⟩ : (0 : ℝ) < A ∧ A < B := he
    have hB1 := h1 B (by simp)
    have hTA := tan_pos_of hA (by linarith)
    have hTB := tan_pos_of (hA.trans hAB) hB1
    have hlt := tan_lt_of hA hAB hB1
    refine ⟨0, fun x hx => ?_⟩
    obtain ⟨a1, a2, a3, a4, -⟩ := hne hx
    simp only [mirrorEdges, mirrorBand, List.map_cons, List.map_nil, List.reverse_cons, List.reverse_nil,
      List.nil_append, List.cons_append, BandDefined, bandMap, tan_mirror]
    generalize Real.tan (Real.pi * A / 2) = T at *
    generalize Real.tan (Real.pi * B / 2) = U at *
    have hT' : (T : ℂ) ≠ 0 := by exact_mod_cast hTA.ne'
    have hU' : (U : ℂ) ≠ 0 := by exact_mod_cast hTB.ne'
    have hd : (U : ℂ) - T ≠ 0 := sub_ne_zero.mpr (by exact_mod_cast hlt.ne')
    refine ⟨div_ne_zero (mul_ne_zero (by norm_num) a1) a2, div_ne_zero (mul_ne_zero (by norm_num) a4) a3, ?_⟩
    have b1 : (4 * (U : ℂ) - 4 * T) ≠ 0 := by rw [← mul_sub]; exact mul_ne_zero (by norm_num) hd
    have b2 : (4 * (T : ℂ)⁻¹ - 4 * (U : ℂ)⁻¹) ≠ 0 := by
      rw [← mul_sub, inv_sub_inv hT' hU']
      exact mul_ne_zero (by norm_num) (div_ne_zero hd (mul_ne_zero hT' hU'))
    push_cast
    rw [div_eq_div_iff (mul_ne_zero b2 (div_ne_zero (mul_ne_zero (by norm_num) a4) a3))
      (mul_ne_zero b1 (div_ne_zero (mul_ne_zero (by norm_num) a1) a2))]
    field_simp
    ring
  | .bandstop, [A, B], he =>
    obtain ⟨hA, hAB⟩ : (0 : ℝ) < A ∧ A < B := he
    have hB1 := h1 B (by simp)
    have hTA := tan_pos_of hA (by linarith)
    have hTB := tan_pos_of (hA.trans hAB) hB1
    refine ⟨4 * Real.sqrt (Real.tan (Real.pi * A / 2) * Real.tan (Real.pi * B / 2)), fun x hx => ?_⟩
    obtain ⟨a1, a2, a3, a4, a5⟩ := hne hx
    simp only [mirrorEdges, mirrorBand, List.map_cons, List.map_nil, List.reverse_cons, List.reverse_nil,
      List.nil_append, List.cons_append, BandDefined, bandMap, tan_mirror]
    generalize Real.tan (Real.pi * A / 2) = T at *
    generalize Real.tan (Real.pi * B / 2) = U at *
    have hT' : (T : ℂ) ≠ 0 := by exact_mod_cast hTA.ne'
    have hU' : (U : ℂ) ≠ 0 := by exact_mod_cast hTB.ne'
    have hsq : ((4 * Real.sqrt (T * U) : ℝ) : ℂ) ^ 2 = 16 * (T * U) := by
      have : (4 * Real.sqrt (T * U)) ^ 2 = 16 * (T * U) := by
        rw [mul_pow, Real.sq_sqrt (mul_pos hTA hTB).le]; norm_num
      exact_mod_cast this
    rw [hsq] at a5
    have c1 : (4 * (x - 1) / (x + 1)) ^ 2 + ((4 * T : ℝ) : ℂ) * ((4 * U : ℝ) : ℂ) ≠ 0 := by
      intro h
      apply a5
      push_cast at h
      field_simp at h
      linear_combination h
    have c2 : (4 * (-x - 1) / (-x + 1)) ^ 2 + ((4 * U⁻¹ : ℝ) : ℂ) * ((4 * T⁻¹ : ℝ) : ℂ) ≠ 0 := by
      intro h
      apply a5
      push_cast at h
      field_simp at h
      linear_combination h
    refine ⟨c1, c2, ?_⟩
    rw [div_eq_div_iff c2 c1]
    push_cast
    field_simp
    ring

theorem mirror_eval {f d d' : Zpk} {band : Band} {e : List ℝ} (he : EdgesOk band e) (h1 : ∀ W ∈ e, W < 1)
    (hD : Digital f band (e.map (fun x => 4 * Real.tan (Real.pi * x / 2))) d)
    (hD' : Digital f (mirrorBand band) ((mirrorEdges e).map (fun x => 4 * Real.tan (Real.pi * x / 2))) d') (x : ℂ)
    (hx : 1 ≤ ‖x‖) : d'.eval (-x) = d.eval x := by
  obtain ⟨c, hc⟩ := bandMap_mirror he h1
  refine eval_eq_of_countable (exceptional_countable c) (fun y hy => ?_) x (regular_of_disc hD.disc hx)
    (regular_of_disc hD'.disc (by rwa [norm_neg]))
  obtain ⟨b1, b2, b3⟩ := hc y hy
  simp only [exceptional, Set.mem_setOf_eq, not_or] at hy
  have s1 := hD.same y hy.2.1 b1
  have s2 := hD'.same (-y) (fun h => hy.1 (neg_injective h)) b2
  rw [b3] at s2
  exact ⟨s2.1.trans s1.1.symm, s2.2.trans s1.2.symm⟩

theorem valid_mirror {wn wn' : List ℝ} {rp rs : Option ℝ} {band : Band} {ftype : FType} {fs fs' : Option ℝ}
    (hv : ValidRequest wn rp rs band ftype false fs) (he : edges wn' fs' = mirrorEdges (edges wn fs)) :
    ValidRequest wn' rp rs (mirrorBand band) ftype false fs' := by
  have hl : wn'.length = wn.length := by
    rw [← edges_length wn' fs', he, mirrorEdges, List.length_reverse, List.length_map, edges_length]
  refine ⟨?_, ?_, ?_, ?_, fun _ => rfl, hv.ripple, hv.attenuation, hv.family⟩
  · rw [hl, hv.count]
    cases band <;> simp [mirrorBand]
  · rw [he]
    intro w hw
    simp only [mirrorEdges, List.mem_reverse, List.mem_map] at hw
    obtain ⟨v, h, rfl⟩ := hw
    linarith [hv.nyquist rfl v h]
  · rw [he, mirrorEdges, List.pairwise_reverse, List.pairwise_map]
    exact hv.increasing.imp fun h => by linarith
  · intro _ w hw
    rw [he] at hw
    simp only [mirrorEdges, List.mem_reverse, List.mem_map] at hw
    obtain ⟨v, h, rfl⟩ := hw
    linarith [hv.positive v h]

section
variable (eps : ℝ) (s : Sorts)

/-- **C111** Reflecting the request reflects the filter: the high-pass filter with the edge `1 - e` has at the
point `-x` the transfer function that the low-pass filter with the edge `e` has at `x`, and so for band-pass and
band-stop filters with the edges `(a, b)` and `(1 - b, 1 - a)`.  Frequencies are fractions of the Nyquist
frequency.  Every family whose responses C85 describes, and Chebyshev II band-pass filters. -/
theorem C111_response (N : ℕ) (wn wn' : List ℝ) (rp rs : Option ℝ)
    (band : Band) (ftype : FType) (fs fs' : Option ℝ) (hv : ValidRequest wn rp rs band ftype false fs)
    (he : edges wn' fs' = mirrorEdges (edges wn fs))
    (hr : PositiveRipple ftype rp rs) (hII : ftype = .chebyshevII → band = .bandpass) :
    ∃ d d', iirfilter eps s N wn rp rs (some band) (some ftype) none (some .zpk) fs = .ok (.zpk d) ∧
      iirfilter eps s N wn' rp rs (some (mirrorBand band)) (some ftype) none (some .zpk) fs' = .ok (.zpk d') ∧
      ∀ x : ℂ, 1 ≤ ‖x‖ → d.Regular x ∧ d'.Regular (-x) ∧ d'.eval (-x) = d.eval x := by
  have hv' := valid_mirror hv he
  obtain ⟨f, d, hf, hd, hD, -⟩ := design_sound (N := N) hv hr fun h => .inr (hII h)
  obtain ⟨f', d', hf', hd', hD', -⟩ := design_sound (N := N) hv' hr fun h => .inr (by rw [hII h]; rfl)
  rw [hf] at hf'
  cases hf'
  rw [he] at hD'
  refine ⟨d, d', ?_, ?_, fun x hx => ⟨regular_of_disc hD.disc hx, regular_of_disc hD'.disc (by rwa [norm_neg]),
    mirror_eval (edgesOk_of_valid hv) (hv.nyquist rfl) hD hD' x hx⟩⟩
  · rw [iirfilter_eq]
    change (design N wn rp rs band ftype false fs >>= _) = _
    rw [hd]; rfl
  · rw [iirfilter_eq]
    change (design N wn' rp rs (mirrorBand band) ftype false fs' >>= _) = _
    rw [hd']; rfl

end

/-! ### The filters -/

/-- The section with `z` replaced by `-z`. -/
def flipSection (c : Sos ℝ) : Sos ℝ := { c with b1 := -c.b1, a1 := -c.a1 }

theorem tdf2_alternate (b0 b1 b2 a1 a2 : ℝ) (c z0 z1 : ℝ) (x : List ℝ) :
    (tdf2 b0 (-b1) b2 (-a1) a2 (c * z0) (-c * z1) (x.mapIdx fun n v => c * ((-1) ^ n * v))).1 =
      (tdf2 b0 b1 b2 a1 a2 z0 z1 x).1.mapIdx fun n v => c * ((-1) ^ n * v) := by
  induction x generalizing c z0 z1 with
  | nil => rfl
  | cons v x ih =>
    have e : ∀ l : List ℝ, (l.mapIdx fun i v => c * ((-1) ^ (i + 1) * v)) =
        l.mapIdx fun i v => -c * ((-1) ^ i * v) := fun l => by
      congr 1
      funext i v
      rw [pow_succ]
      ring
    have := ih (-c) (b1 * v - a1 * (b0 * v + z0) + z1) (b2 * v - a2 * (b0 * v + z0))
    simp only [List.mapIdx_cons, tdf2, pow_zero, one_mul, e]
    rw [← this]
    congr 1
    · ring
    · congr 2 <;> ring

theorem cascade_alternate (l : List (Sos ℝ)) (h : AtRest l) (x : List ℝ) :
    (cascade (l.map flipSection) (alternate x)).1 = alternate (cascade l x).1 := by
  induction l generalizing x with
  | nil => rfl
  | cons c l ih =>
    have h1 := tdf2_alternate c.b0 c.b1 c.b2 c.a1 c.a2 1 0 0 x
    obtain ⟨r0, r1⟩ := h c (by simp)
    simp only [mul_zero, one_mul] at h1
    simp only [List.map_cons, cascade, flipSection, r0, r1]
    unfold alternate at *
    rw [h1]
    exact ih (fun t ht => h t (by simp [ht])) _

theorem casH_flip (l : List (Sos ℝ)) (z : ℂ) : casH (l.map flipSection) z = casH l (-z) := by
  unfold casH
  rw [List.map_map]
  congr 1
  refine List.map_congr_left fun c _ => ?_
  simp only [Function.comp_apply, secH, flipSection]
  push_cast
  congr 1 <;> ring

theorem energy_eq_zero {x : List ℝ} (h : energy x ≤ 0) : ∀ v ∈ x, v = 0 := by
  intro v hv
  have h1 : v ^ 2 ≤ energy x :=
    List.single_le_sum (by
      intro w hw
      obtain ⟨u, -, rfl⟩ := List.mem_map.mp hw
      exact sq_nonneg u) _ (List.mem_map.mpr ⟨v, hv, rfl⟩)
  have : v ^ 2 = 0 := le_antisymm (h1.trans h) (sq_nonneg v)
  exact pow_eq_zero_iff (n := 2) (by norm_num) |>.mp this

/-- Stable sections with the same frequency response have the same outputs. -/
theorem sosfilt_eq_of_response (l l' : List (Sos ℝ)) (hl : ∀ s ∈ l, s.a0 = 1 ∧ Stable s)
    (hl' : ∀ s ∈ l', s.a0 = 1 ∧ Stable s) (h : AtRest l) (h' : AtRest l')
    (hε : ∀ ω : ℝ, |ω| < Real.pi → freqResponse l ω = freqResponse l' ω) (x : List ℝ) :
    (sosfiltDyn x l).1 = (sosfiltDyn x l').1 := by
  have := C92_distance l l' hl hl' h h' 0 (fun ω hω => by rw [hε ω hω, sub_self, norm_zero]) x
  rw [zero_pow two_ne_zero, zero_mul] at this
  have h0 := energy_eq_zero this
  refine List.ext_getElem (by rw [(C24_length x l).1, (C24_length x l').1]) fun i h1 h2 => ?_
  have := h0 ((sosfiltDyn x l).1[i] - (sosfiltDyn x l').1[i]) (by
    rw [signalDiff, List.mem_iff_getElem]
    exact ⟨i, by simp [h1, h2], by simp⟩)
  linarith

section
variable (eps : ℝ) (s : Sorts)

/-- **C111** Filtering a signal whose every second sample has its sign changed with the reflected filter gives the
output of the original filter, every second sample with its sign changed: a high-pass filter does to the
reflected signal what the low-pass filter does to the signal. -/
theorem C111_output (heps : 0 ≤ eps) (hs : s.Correct) (N : ℕ) (hN : N ≠ 0) (wn wn' : List ℝ) (rp rs : Option ℝ)
    (band : Band) (ftype : FType) (fs fs' : Option ℝ) (hv : ValidRequest wn rp rs band ftype false fs)
    (he : edges wn' fs' = mirrorEdges (edges wn fs))
    (hr : PositiveRipple ftype rp rs) (hII : ftype = .chebyshevII → band = .bandpass) (l l' : List (Sos ℝ))
    (hl : iirfilter eps s N wn rp rs (some band) (some ftype) none (some .sos) fs = .ok (.sos l))
    (hl' : iirfilter eps s N wn' rp rs (some (mirrorBand band)) (some ftype) none (some .sos) fs' = .ok (.sos l'))
    (x : List ℝ) : (sosfiltDyn (alternate x) l').1 = alternate (sosfiltDyn x l).1 := by
  have hv' := valid_mirror hv he
  obtain ⟨d, d', hd, hd', H⟩ := C111_response eps s N wn wn' rp rs band ftype fs fs' hv he hr hII
  obtain ⟨a1, a2, -, d1, hd1, a3⟩ := design_sections eps s heps hs N hN wn rp rs (some band) (some ftype) none
    (.inl rfl) fs hv hr (fun h => .inr (hII h)) l hl
  obtain ⟨b1, b2, -, d2, hd2, b3⟩ := design_sections eps s heps hs N hN wn' rp rs (some (mirrorBand band))
    (some ftype) none (.inl rfl) fs' hv' hr (fun h => .inr (by
      rw [show band = .bandpass from hII h]; rfl)) l' hl'
  rw [hd] at hd1
  cases hd1
  rw [hd'] at hd2
  cases hd2
  obtain ⟨m, hm⟩ : ∃ m, m = l.map flipSection := ⟨_, rfl⟩
  have m1 : ∀ c ∈ m, c.a0 = 1 ∧ Stable c := by
    intro c hc
    rw [hm] at hc
    obtain ⟨t, ht, rfl⟩ := List.mem_map.mp hc
    refine ⟨(a1 t ht).1, fun z hz => ?_⟩
    rw [← norm_neg]
    refine (a1 t ht).2 (-z) ?_
    simp only [flipSection] at hz
    push_cast at hz
    linear_combination hz
  have m2 : AtRest m := by
    intro c hc
    rw [hm] at hc
    obtain ⟨t, ht, rfl⟩ := List.mem_map.mp hc
    exact a2 t ht
  have hneg : ∀ ω : ℝ, -exp (I * ω) = exp (I * ((ω + Real.pi : ℝ) : ℂ)) := fun ω => by
    push_cast
    rw [mul_add, exp_add, mul_comm I (Real.pi : ℂ), exp_pi_mul_I]
    ring
  have hresp : ∀ ω : ℝ, |ω| < Real.pi → freqResponse l' ω = freqResponse m ω := by
    intro ω _
    have e1 : d'.eval (exp (I * ω)) = d.eval (-exp (I * ω)) := by
      have := (H (-exp (I * ω)) (by rw [norm_neg, norm_exp_I])).2.2
      rwa [neg_neg] at this
    rw [b3, e1, freqResponse_eq m (fun s h => (m1 s h).1), hm, casH_flip, hneg, ← a3,
      ← freqResponse_eq l (fun s h => (a1 s h).1)]
  rw [sosfilt_eq_of_response l' m b1 m1 b2 m2 hresp, hm, C20_sosfilt_dyn_eq_cascade, C20_sosfilt_dyn_eq_cascade,
    cascade_alternate l a2]

/-- A concrete case: order 4, edges 1/10 and 9/10 of the Nyquist frequency. -/
example (heps : 0 ≤ eps) (hs : s.Correct) (l l' : List (Sos ℝ))
    (hl : iirfilter eps s 4 [1 / 10] none none (some .lowpass) (some .butterworth) none (some .sos) none =
      .ok (.sos l))
    (hl' : iirfilter eps s 4 [450] none none (some .highpass) (some .butterworth) none (some .sos) (some 1000) =
      .ok (.sos l')) (x : List ℝ) : (sosfiltDyn (alternate x) l').1 = alternate (sosfiltDyn x l).1 :=
  C111_output eps s heps hs 4 (by norm_num) [1 / 10] [450] none none .lowpass .butterworth none (some 1000)
    { count := rfl
      positive := by simp [Spec.edges]
      increasing := by simp [Spec.edges]
      nyquist := by simp [Spec.edges]; norm_num
      fs_digital := by simp
      ripple := by simp
      attenuation := by simp
      family := .inl rfl }
    (by simp [Spec.edges, mirrorEdges]; norm_num) ⟨by simp, by simp⟩ (by simp) l l' hl hl' x

/-! ### The unit of frequency -/

/-- **C111** The unit of frequency does not matter: multiplying the critical frequencies and the sampling rate by
the same number changes nothing, whatever else is requested and whether or not the request is accepted. -/
theorem C111_units (N : ℕ) (wn : List ℝ) (rp rs : Option ℝ) (btype : Option Band) (ftype : Option FType)
    (analog : Option Bool) (output : Option Output) (fs c : ℝ) (hc : c ≠ 0) :
    iirfilter eps s N (wn.map fun w => c * w) rp rs btype ftype analog output (some (c * fs)) =
      iirfilter eps s N wn rp rs btype ftype analog output (some fs) := by
  have e : (wn.map fun w => c * w).map (fun w => 2 * w / (c * fs)) = wn.map fun w => 2 * w / fs := by
    rw [List.map_map]
    refine List.map_congr_left fun w _ => ?_
    simp only [Function.comp_apply]
    rw [mul_left_comm, mul_div_mul_left _ _ hc]
  have : validate (wn.map fun w => c * w) rp rs (analog.getD false) (some (c * fs)) =
      validate wn rp rs (analog.getD false) (some fs) := by
    simp only [validate, scaleEdges, List.length_map, e]
  simp only [iirfilter, this]

/-- **C111** Without a sampling rate a digital request is read as with the sampling rate 2. -/
theorem C111_default_rate (N : ℕ) (wn : List ℝ) (rp rs : Option ℝ) (btype : Option Band) (ftype : Option FType)
    (analog : Option Bool) (ha : analog = none ∨ analog = some false) (output : Option Output) :
    iirfilter eps s N wn rp rs btype ftype analog output none =
      iirfilter eps s N wn rp rs btype ftype analog output (some 2) := by
  have e : (wn.map fun w => 2 * w / (2 : ℝ)) = wn := by
    conv_rhs => rw [← List.map_id wn]
    refine List.map_congr_left fun w _ => ?_
    rw [mul_div_cancel_left₀ w two_ne_zero, id]
  have ha' : analog.getD false = false := by rcases ha with rfl | rfl <;> rfl
  have : validate wn rp rs (analog.getD false) none = validate wn rp rs (analog.getD false) (some 2) := by
    simp only [validate, scaleEdges, ha', e]
    simp
  simp only [iirfilter, this]

end

end SciRs.Props

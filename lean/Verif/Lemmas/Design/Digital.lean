import Verif.Lemmas.Design.Iirfilter
import Verif.Spec.BandMap
import Mathlib.Analysis.SpecialFunctions.Trigonometric.Deriv

/-! # Lemmas about the frequency transformations and the digital designs -/

namespace SciRs.Design

open Complex SciRs.Spec SciRs.Props

/-- The two roots that a band transformation makes of `q` lie on the same side as `q`. -/
theorem split_re {q s : ℂ} {wo : ℝ} (hwo : wo ≠ 0) (h : s ^ 2 - 2 * q * s + (wo : ℂ) ^ 2 = 0) :
    ∃ c : ℝ, 0 < c ∧ c * s.re = 2 * q.re := by
  have hs : s ≠ 0 := by
    rintro rfl
    have : (wo : ℂ) ^ 2 = 0 := by linear_combination h
    exact hwo (by exact_mod_cast pow_eq_zero_iff (two_ne_zero) |>.mp this)
  have h2 : s + ((wo ^ 2 : ℝ) : ℂ) / s = 2 * q := by
    push_cast
    field_simp
    linear_combination h
  have h3 := congrArg Complex.re h2
  have e1 : (((wo ^ 2 : ℝ) : ℂ) / s).re = wo ^ 2 * s.re / normSq s := by
    rw [div_re, ofReal_re, ofReal_im]
    simp
  have e2 : ((2 : ℂ) * q).re = 2 * q.re := by simp
  rw [add_re, e1, e2] at h3
  have hn := normSq_pos.mpr hs
  exact ⟨1 + wo ^ 2 / normSq s, by positivity, by rw [← h3]; ring⟩

theorem split_left {q s : ℂ} {wo : ℝ} (hwo : wo ≠ 0) (h : s ^ 2 - 2 * q * s + (wo : ℂ) ^ 2 = 0)
    (hq : q.re < 0) : s.re < 0 := by
  obtain ⟨c, hc, he⟩ := split_re hwo h
  by_contra hn
  have : 0 ≤ c * s.re := mul_nonneg hc.le (not_lt.mp hn)
  linarith

theorem split_axis {q s : ℂ} {wo : ℝ} (hwo : wo ≠ 0) (h : s ^ 2 - 2 * q * s + (wo : ℂ) ^ 2 = 0)
    (hq : q.re = 0) : s.re = 0 := by
  obtain ⟨c, hc, he⟩ := split_re hwo h
  rw [hq, mul_zero] at he
  exact (mul_eq_zero.mp he).resolve_left hc.ne'

theorem inv_left {c : ℝ} (hc : 0 < c) {q : ℂ} (hq : q.re < 0) : ((c : ℂ) / q).re < 0 := by
  have hq0 : q ≠ 0 := fun h => by rw [h] at hq; simp at hq
  rw [div_re]
  simp only [ofReal_re, ofReal_im, zero_mul, zero_div, add_zero]
  exact div_neg_of_neg_of_pos (mul_neg_of_pos_of_neg hc hq) (normSq_pos.mpr hq0)

theorem mul_left_half {c : ℝ} (hc : 0 < c) {q : ℂ} (hq : q.re < 0) : (q * (c : ℂ)).re < 0 := by
  rw [re_mul_ofReal]; exact mul_neg_of_neg_of_pos hq hc

/-- Edges that fit a band. -/
def EdgesOk : Band → List ℝ → Prop
  | .lowpass, [a] => 0 < a
  | .highpass, [a] => 0 < a
  | .bandpass, [a, b] => 0 < a ∧ a < b
  | .bandstop, [a, b] => 0 < a ∧ a < b
  | _, _ => False

/-- A stable prototype stays stable. -/
theorem bandTransform_left {f : Zpk} (hzl : f.z.length ≤ f.p.length) (hleft : ∀ p ∈ f.p, p.re < 0)
    {band : Band} {e : List ℝ} (he : EdgesOk band e) :
    ∃ g, bandTransform band f e = .ok g ∧ (∀ p ∈ g.p, p.re < 0) ∧ g.z.length ≤ g.p.length ∧
      g.p.length = (if band = .lowpass ∨ band = .highpass then 1 else 2) * f.p.length := by
  have hdeg := fun g wo bw => C44_degrees f g wo bw 1
  have hr := relativeDegree_ok hzl
  match band, e, he with
  | .lowpass, [a], he =>
    have ha : (0 : ℝ) < a := he
    simp only [bandTransform, lp2lp, hr, ok_bind]
    refine ⟨_, rfl, ?_, by simpa using hzl, by simp⟩
    intro p hp
    obtain ⟨q, hq, rfl⟩ := List.mem_map.mp hp
    exact mul_left_half ha (hleft q hq)
  | .highpass, [a], he =>
    have ha : (0 : ℝ) < a := he
    simp only [bandTransform, lp2hp, hr, ok_bind]
    refine ⟨_, rfl, ?_, by simp; omega, by simp⟩
    intro p hp
    obtain ⟨q, hq, rfl⟩ := List.mem_map.mp hp
    exact inv_left ha (hleft q hq)
  | .bandpass, [a, b], he =>
    obtain ⟨ha, hab⟩ : (0 : ℝ) < a ∧ a < b := he
    have hwo : 0 < Real.sqrt (a * b) := Real.sqrt_pos.mpr (mul_pos ha (by linarith))
    simp only [bandTransform, lp2bp, hr, ok_bind]
    refine ⟨_, rfl, ?_, by simp [splitPm]; omega, by simp [splitPm]; omega⟩
    intro p hp
    obtain ⟨q, hq, h⟩ := mem_splitPm hp
    obtain ⟨r, hr', rfl⟩ := List.mem_map.mp hq
    exact split_left hwo.ne' h (mul_left_half (by simp; linarith) (hleft r hr'))
  | .bandstop, [a, b], he =>
    obtain ⟨ha, hab⟩ : (0 : ℝ) < a ∧ a < b := he
    have hwo : 0 < Real.sqrt (a * b) := Real.sqrt_pos.mpr (mul_pos ha (by linarith))
    simp only [bandTransform, lp2bs, hr, ok_bind]
    refine ⟨_, rfl, ?_, by simp [splitPm, bsZeros]; omega, by simp [splitPm]; omega⟩
    intro p hp
    obtain ⟨q, hq, h⟩ := mem_splitPm hp
    obtain ⟨r, hr', rfl⟩ := List.mem_map.mp hq
    have e : ((((b - a) / 2 : ℝ) : ℂ) * I) / r * (-I) = (((b - a) / 2 : ℝ) : ℂ) / r := by
      rw [show ((((b - a) / 2 : ℝ) : ℂ) * I) / r * (-I) = -(I * I) * ((((b - a) / 2 : ℝ) : ℂ) / r) by ring,
        I_mul_I]
      ring
    refine split_left hwo.ne' h ?_
    simp only [Option.getD_some]
    rw [e]
    exact inv_left (by linarith) (hleft r hr')

/-- The prototypes that the transformation to `band` treats correctly. -/
structure Proto (band : Band) (f : Zpk) : Prop where
  len : f.z.length ≤ f.p.length
  zconj : ConjClosed f.z
  pconj : ConjClosed f.p
  axis : ∀ z ∈ f.z, z.re = 0
  left : ∀ p ∈ f.p, p.re < 0
  allpole : band = .highpass ∨ band = .bandstop → f.z = []

/-- What the frequency transformation gives. -/
structure Transformed (f : Zpk) (band : Band) (e : List ℝ) (g : Zpk) : Prop where
  ok : bandTransform band f e = .ok g
  zconj : ConjClosed g.z
  pconj : ConjClosed g.p
  axis : ∀ z ∈ g.z, z.re = 0
  left : ∀ p ∈ g.p, p.re < 0
  len : g.z.length ≤ g.p.length
  plen : g.p.length = (if band = .lowpass ∨ band = .highpass then 1 else 2) * f.p.length
  same : ∀ s, BandDefined band e s → SameAt g s f (bandMap band e s)
  dc : (band = .highpass ∨ band = .bandpass) → f.z.length < f.p.length → (0 : ℂ) ∈ g.z
  inf : (band = .lowpass ∨ band = .bandpass) → f.z.length < f.p.length → g.z.length < g.p.length
  centre : ∀ a b, band = .bandstop → e = [a, b] → f.p ≠ [] →
    ∀ s : ℂ, s ^ 2 + (a : ℂ) * b = 0 → g.eval s = 0
  high : (band = .highpass ∨ band = .bandstop) → g.z.length = g.p.length ∧ (g.k : ℂ) = f.eval 0

theorem sqrt_sq_mul {a b : ℝ} (ha : 0 < a) (hb : 0 < b) : ((Real.sqrt (a * b) : ℝ) : ℂ) ^ 2 = a * b := by
  rw [← ofReal_pow, Real.sq_sqrt (mul_pos ha hb).le, ofReal_mul]

theorem transformed {f : Zpk} {band : Band} (hf : Proto band f) {e : List ℝ} (he : EdgesOk band e) :
    ∃ g, Transformed f band e g := by
  obtain ⟨g, hg, hleft, hlen, hplen⟩ := bandTransform_left hf.len hf.left he
  have hp0 : ∀ p ∈ f.p, p ≠ 0 := fun p hp h => by have := hf.left p hp; rw [h] at this; simp at this
  have hdeg := fun wo bw => C44_degrees f g wo bw 1
  have hreal := fun wo bw => C43_real_filters f g wo bw 1 hf.zconj hf.pconj
  have hr := relativeDegree_ok hf.len
  refine ⟨g, ?_⟩
  match band, e, he with
  | .lowpass, [a], he =>
    have ha : (0 : ℝ) < a := he
    have hg1 : lp2lp f (some a) = .ok g := hg
    obtain ⟨g', hg', hs⟩ := C39_lp2lp f a ha.ne' hf.len
    obtain rfl : g' = g := Except.ok.inj (hg'.symm.trans hg1)
    obtain ⟨h1, h2⟩ := (hreal (some a) none).1 hg1
    obtain ⟨d1, d2⟩ := (hdeg (some a) none).1 hg1
    refine ⟨hg, h1, h2, ?_, hleft, hlen, hplen, fun s _ => hs s, by simp, fun _ h => by omega, by simp, by simp⟩
    have h := hg1
    simp only [lp2lp, hr, ok_bind] at h
    cases h
    intro z hz
    obtain ⟨q, hq, rfl⟩ := List.mem_map.mp hz
    rw [re_mul_ofReal, hf.axis q hq, zero_mul]
  | .highpass, [a], he =>
    have ha : (0 : ℝ) < a := he
    have hz0 := hf.allpole (.inl rfl)
    have hg1 : lp2hp f (some a) = .ok g := hg
    obtain ⟨g', hg', hs⟩ := C40_lp2hp_partial f a hz0 hf.pconj hp0
    obtain rfl : g' = g := Except.ok.inj (hg'.symm.trans hg1)
    obtain ⟨h1, h2⟩ := (hreal (some a) none).2.1 hg1 hz0
    have hgz : g'.z = List.replicate f.p.length 0 := by
      have h := hg1
      simp only [lp2hp, hr, ok_bind] at h
      cases h
      simp [hz0]
    refine ⟨hg, h1, h2, ?_, hleft, hlen, hplen, fun s h => hs s h, ?_, by simp, by simp, fun _ => ⟨?_, ?_⟩⟩
    · intro z hz
      rw [hgz] at hz
      rw [(List.mem_replicate.mp hz).2]; rfl
    · intro _ hne
      rw [hgz]
      exact List.mem_replicate.mpr ⟨by omega, rfl⟩
    · rw [hgz, hplen]; simp
    · have h := hg1
      simp only [lp2hp, hr, ok_bind] at h
      cases h
      simp only [foldMul_eq, hz0, List.map_nil, List.prod_nil]
      rw [ofReal_mul, real_div (by simp) (conjClosed_prod_neg_real hf.pconj)]
      simp only [Zpk.eval, Zpk.num, Zpk.den, hz0, List.map_nil, List.prod_nil, zero_sub, neg_one_mul]
      ring
  | .bandpass, [a, b], he =>
    obtain ⟨ha, hab⟩ : (0 : ℝ) < a ∧ a < b := he
    have hb : 0 < b := by linarith
    have hwo : 0 < Real.sqrt (a * b) := Real.sqrt_pos.mpr (mul_pos ha hb)
    have hbw : b - a ≠ 0 := by intro h; linarith
    have hg1 : lp2bp f (some (Real.sqrt (a * b))) (some (b - a)) = .ok g := hg
    obtain ⟨g', hg', hs⟩ := C41_lp2bp f (Real.sqrt (a * b)) (b - a) hbw hf.len
    obtain rfl : g' = g := Except.ok.inj (hg'.symm.trans hg1)
    obtain ⟨h1, h2⟩ := (hreal _ _).2.2.1 hg1
    obtain ⟨d1, d2⟩ := (hdeg _ _).2.2.1 hg1
    have hgz : g'.z = splitPm (f.z.map (fun zi => zi * (((b - a) / 2 : ℝ) : ℂ))) (Real.sqrt (a * b)) ++
        List.replicate (f.p.length - f.z.length) 0 := by
      have h := hg1
      simp only [lp2bp, hr, ok_bind] at h
      cases h
      rfl
    refine ⟨hg, h1, h2, ?_, hleft, hlen, hplen, ?_, ?_, fun _ h => by omega, by simp, by simp⟩
    · intro z hz
      rw [hgz, List.mem_append] at hz
      rcases hz with hz | hz
      · obtain ⟨q, hq, h⟩ := mem_splitPm hz
        obtain ⟨r, hr', rfl⟩ := List.mem_map.mp hq
        refine split_axis hwo.ne' h ?_
        rw [re_mul_ofReal, hf.axis r hr', zero_mul]
      · rw [(List.mem_replicate.mp hz).2]; rfl
    · intro s h
      have := hs s h
      rw [sqrt_sq_mul ha hb, ofReal_sub] at this
      exact this
    · intro _ hne
      rw [hgz]
      exact List.mem_append_right _ (List.mem_replicate.mpr ⟨by omega, rfl⟩)
  | .bandstop, [a, b], he =>
    obtain ⟨ha, hab⟩ : (0 : ℝ) < a ∧ a < b := he
    have hb : 0 < b := by linarith
    have hwo : 0 < Real.sqrt (a * b) := Real.sqrt_pos.mpr (mul_pos ha hb)
    have hbw : b - a ≠ 0 := by intro h; linarith
    have hz0 := hf.allpole (.inr rfl)
    have hg1 : lp2bs f (some (Real.sqrt (a * b))) (some (b - a)) = .ok g := hg
    obtain ⟨g', hg', hs, hc⟩ := C42_lp2bs_partial f (Real.sqrt (a * b)) (b - a) hz0 hf.pconj hp0
    obtain rfl : g' = g := Except.ok.inj (hg'.symm.trans hg1)
    obtain ⟨h1, h2⟩ := (hreal _ _).2.2.2.1 hg1 hz0
    have hgz : g'.z = List.replicate f.p.length ((Real.sqrt (a * b) : ℂ) * I) ++
        List.replicate f.p.length (-(Real.sqrt (a * b) : ℂ) * I) := by
      have h := hg1
      simp only [lp2bs, hr, ok_bind] at h
      cases h
      simp [hz0, bsZeros]
    rw [sqrt_sq_mul ha hb] at hc hs
    refine ⟨hg, h1, h2, ?_, hleft, hlen, hplen, ?_, by simp, by simp, ?_, fun _ => ⟨?_, ?_⟩⟩
    · intro z hz
      rw [hgz, List.mem_append] at hz
      rcases hz with hz | hz <;> rw [(List.mem_replicate.mp hz).2] <;> simp
    · intro s h
      have := hs s h
      rw [ofReal_sub] at this
      exact this
    · intro a' b' _ hab' hne s h
      cases hab'
      exact (hc s h hwo.ne' hbw hne).2
    · rw [hgz, hplen]; simp; omega
    · have h := hg1
      simp only [lp2bs, hr, ok_bind] at h
      cases h
      simp only [foldMul_eq, hz0, List.foldl_nil]
      rw [ofReal_mul, ofReal_div, conjClosed_prod_neg_real hf.pconj]
      simp only [Zpk.eval, Zpk.num, Zpk.den, hz0, List.map_nil, List.prod_nil, zero_sub, neg_one_mul]
      push_cast
      ring

/-! ### The discrete equivalent -/

theorem bilinear_nyquist {g f : Zpk} {fs : ℝ} (hfs : fs ≠ 0) (h : bilinear g fs = .ok f) (hz : ConjClosed g.z)
    (hp : ConjClosed g.p) (hzp : g.z.length = g.p.length) (hz0 : ∀ z ∈ g.z, z ≠ 2 * fs)
    (hp0 : ∀ p ∈ g.p, p ≠ 2 * fs) : f.Regular (-1) ∧ f.eval (-1) = g.k := by
  have hs : ∀ l : List ℂ, (∀ z ∈ l, z ≠ 2 * fs) → ∀ z ∈ l, ((2 * fs : ℝ) : ℂ) - z ≠ 0 := by
    intro l hl z hzl h0
    apply hl z hzl
    push_cast at h0
    linear_combination -h0
  have key : ∀ l : List ℂ, (∀ z ∈ l, z ≠ 2 * fs) →
      ((l.map (fun zi => (((2 * fs : ℝ) : ℂ) + zi) / (((2 * fs : ℝ) : ℂ) - zi))).map (fun z => -1 - z)).prod *
        (l.map (fun zi => ((2 * fs : ℝ) : ℂ) - zi)).prod = (-4 * (fs : ℂ)) ^ l.length := by
    intro l hl
    rw [List.map_map, ← prod_map_const l, ← prod_map_mul]
    congr 1
    refine List.map_congr_left (fun z hzl => ?_)
    have := hs l hl z hzl
    simp only [Function.comp_apply]
    push_cast at this ⊢
    field_simp
    ring
  have hf : (fs : ℂ) ≠ 0 := by exact_mod_cast hfs
  have hD : (g.p.map (fun zi => ((2 * fs : ℝ) : ℂ) - zi)).prod ≠ 0 := prod_map_ne_zero (hs _ hp0)
  have hN : (g.z.map (fun zi => ((2 * fs : ℝ) : ℂ) - zi)).prod ≠ 0 := prod_map_ne_zero (hs _ hz0)
  simp only [bilinear, relativeDegree_ok hzp.le, ok_bind] at h
  cases h
  have k1 := key g.z hz0
  have k2 := key g.p hp0
  have h4 : (-4 * (fs : ℂ)) ^ g.p.length ≠ 0 := pow_ne_zero _ (mul_ne_zero (by norm_num) hf)
  have hd : ((g.p.map (fun zi => (((2 * fs : ℝ) : ℂ) + zi) / (((2 * fs : ℝ) : ℂ) - zi))).map
      (fun z => -1 - z)).prod ≠ 0 := fun h0 => by
    rw [h0, zero_mul] at k2
    exact h4 k2.symm
  refine ⟨hd, ?_⟩
  simp only [Zpk.eval, Zpk.num, Zpk.den, foldMul_eq, List.map_append, List.prod_append, prod_replicate_sub]
  rw [hzp, Nat.sub_self, pow_zero, mul_one, ofReal_mul,
    real_div (conjClosed_prod_sub_real hz _) (conjClosed_prod_sub_real hp _), div_eq_iff hd]
  rw [hzp, ← k2] at k1
  field_simp
  linear_combination (g.k : ℂ) * k1

/-- What a digital design gives; `e` lists the pre-warped edges. -/
structure Digital (f : Zpk) (band : Band) (e : List ℝ) (g : Zpk) : Prop where
  zconj : ConjClosed g.z
  pconj : ConjClosed g.p
  disc : ∀ p ∈ g.p, ‖p‖ < 1
  circle : ∀ z ∈ g.z, ‖z‖ = 1
  len : g.z.length = g.p.length
  plen : g.p.length = (if band = .lowpass ∨ band = .highpass then 1 else 2) * f.p.length
  same : ∀ x : ℂ, x ≠ -1 → BandDefined band e (4 * (x - 1) / (x + 1)) →
    SameAt g x f (bandMap band e (4 * (x - 1) / (x + 1)))
  dc : (band = .highpass ∨ band = .bandpass) → f.z.length < f.p.length → g.eval 1 = 0
  nyquist : (band = .lowpass ∨ band = .bandpass) → f.z.length < f.p.length → g.eval (-1) = 0
  centre : ∀ a b, band = .bandstop → e = [a, b] → f.p ≠ [] → ∀ x : ℂ, x ≠ -1 →
    (4 * (x - 1) / (x + 1)) ^ 2 + (a : ℂ) * b = 0 → g.eval x = 0
  high : (band = .highpass ∨ band = .bandstop) → g.eval (-1) = f.eval 0

theorem eval_zero_of_mem {f : Zpk} {x : ℂ} (h : x ∈ f.z) : f.eval x = 0 := by
  have : (f.z.map (fun z => x - z)).prod = 0 := by
    rw [List.prod_eq_zero_iff]
    exact List.mem_map.mpr ⟨x, h, sub_self x⟩
  simp [Zpk.eval, Zpk.num, this]

theorem regular_of_disc {f : Zpk} (h : ∀ p ∈ f.p, ‖p‖ < 1) {x : ℂ} (hx : 1 ≤ ‖x‖) : f.Regular x := by
  unfold Zpk.Regular Zpk.den
  refine prod_map_ne_zero (fun p hp h0 => ?_)
  have := h p hp
  rw [sub_eq_zero] at h0
  rw [h0] at hx
  linarith

theorem cayley_axis {c : ℝ} {z : ℂ} (hz : z.re = 0) (h0 : (c : ℂ) - z ≠ 0) :
    ‖((c : ℂ) + z) / ((c : ℂ) - z)‖ = 1 := by
  rw [norm_div, div_eq_one_iff_eq (norm_ne_zero_iff.mpr h0)]
  rw [← abs_norm ((c : ℂ) + z), ← abs_norm ((c : ℂ) - z), ← sq_eq_sq_iff_abs_eq_abs, ← normSq_eq_norm_sq,
    ← normSq_eq_norm_sq, normSq_apply, normSq_apply]
  simp [hz]

theorem digital {f g : Zpk} {band : Band} {e : List ℝ} (ht : Transformed f band e g) :
    ∃ d, discretise false g = .ok d ∧ Digital f band e d := by
  have h4 : ∀ {z : ℂ}, z.re ≤ 0 → z ≠ 2 * ((2 : ℝ) : ℂ) := by
    intro z hz h
    rw [h] at hz
    norm_num at hz
  have hz0 : ∀ z ∈ g.z, z ≠ 2 * ((2 : ℝ) : ℂ) := fun z hz => h4 (ht.axis z hz).le
  have hp0 : ∀ p ∈ g.p, p ≠ 2 * ((2 : ℝ) : ℂ) := fun p hp => h4 (ht.left p hp).le
  obtain ⟨d, hd, hs⟩ := C43_bilinear g 2 ht.len ht.zconj ht.pconj hz0 hp0
  obtain ⟨d', hd', hst, hdrop, hl1, hl2⟩ := C43_stability g 2 two_pos ht.len hp0
  obtain rfl : d' = d := Except.ok.inj (hd'.symm.trans hd)
  obtain ⟨c1, c2⟩ := (C43_real_filters g d' none none 2 ht.zconj ht.pconj).2.2.2.2 hd
  have hdz : d'.z = g.z.map (fun zi => (((2 * 2 : ℝ) : ℂ) + zi) / (((2 * 2 : ℝ) : ℂ) - zi)) ++
      List.replicate (g.p.length - g.z.length) (-1) := by
    have h := hd
    simp only [bilinear, relativeDegree_ok ht.len, ok_bind] at h
    cases h
    rfl
  have e4 : ∀ x : ℂ, 2 * ((2 : ℝ) : ℂ) * (x - 1) / (x + 1) = 4 * (x - 1) / (x + 1) := fun x => by
    push_cast; norm_num
  refine ⟨d', by simpa [discretise] using hd, c1, c2, hst.mpr ht.left, ?_, by omega, by rw [hl2, ht.plen], ?_, ?_,
    ?_, ?_, ?_⟩
  · intro z hz
    rw [hdz, List.mem_append] at hz
    rcases hz with hz | hz
    · obtain ⟨q, hq, rfl⟩ := List.mem_map.mp hz
      refine cayley_axis (ht.axis q hq) (fun h0 => hz0 q hq ?_)
      push_cast at h0 ⊢
      linear_combination -h0
    · rw [(List.mem_replicate.mp hz).2]; simp
  · intro x hx hdef
    have h1 := hs x hx
    rw [e4] at h1
    have h2 := ht.same _ hdef
    exact ⟨h1.1.trans h2.1, h1.2.trans h2.2⟩
  · intro hb hl
    apply eval_zero_of_mem
    rw [hdz]
    refine List.mem_append_left _ (List.mem_map.mpr ⟨0, ht.dc hb hl, ?_⟩)
    norm_num
  · intro hb hl
    apply eval_zero_of_mem
    rw [hdz]
    have := ht.inf hb hl
    exact List.mem_append_right _ (List.mem_replicate.mpr ⟨by omega, rfl⟩)
  · intro a b hb he hne x hx h
    have h1 := hs x hx
    rw [e4] at h1
    rw [h1.2]
    exact ht.centre a b hb he hne _ h
  · intro hb
    obtain ⟨hl, hk⟩ := ht.high hb
    rw [(bilinear_nyquist two_ne_zero hd ht.zconj ht.pconj hl hz0 hp0).2, hk]

end SciRs.Design

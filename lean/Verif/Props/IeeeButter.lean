import Verif.Lemmas.IeeeGain
import Verif.Lemmas.Rounded.Response
import Verif.Props.IeeeDesign
import Verif.Props.Rounded.ButterResponse

/-!
# C102: overflow in Butterworth low-pass and high-pass designs

The code multiplies the numbers `4 - p` over all poles `p` and divides by the product.  That is accurate as long as
nothing overflows (C91), and nothing overflows for moderate orders; but the division squares the product, and from
order 33 in `f32` (order 257 in `f64`) on, that square is too large for every request.
-/

namespace SciRs.Props

open SciRs SciRs.Spec SciRs.Spec.Ieee SciRs.IeeeDesign SciRs.Rounded

variable {f : Format} {L : Lib f} {m : Libm} {h : ℝ}

/-- The computed edge on IEEE numbers. -/
theorem ieee_edge {w : ℝ} {fs : Option ℝ} {e : ℝ} (S : Small f.r h e) (hr : f.r.Nearest) (hW : f.r.rnd w = w)
    (hfs : ∀ x ∈ fs, |x| ≤ f.top) (he : Spec.edges [w] fs = [e]) (h1 : e < 1) (hh : h ≤ 1 / 1024)
    (hT : 2000 ≤ f.top) :
    ∃ a e', scaled [ofReal f w] (fs.map (ofReal f)) = [a] ∧ Is a e' ∧
      Rounded.edges (.ofRounding f.r m) [w] fs = [e'] ∧ |e' - e| ≤ h * e := by
  obtain ⟨e', he', hee⟩ := edge_err (m := m) S hr (wn := [w]) (by simpa using hW) he
  cases fs with
  | none =>
    refine ⟨ofReal f w, e', rfl, ?_, he', hee⟩
    obtain rfl : w = e' := by simpa [Rounded.edges] using he'
    exact ⟨_, rfl⟩
  | some fs =>
    refine ⟨lit f 2 * ofReal f w / ofReal f fs, e', rfl, ?_, he', hee⟩
    have h2 : 2 * w / fs = e := by simpa [Spec.edges] using he
    have hr2 : f.r.rnd (2 * w) = 2 * w := by rw [two_mul]; exact hr.double _ hW
    have hfs0 : fs ≠ 0 := by
      rintro rfl
      rw [div_zero] at h2
      exact S.pos.ne h2
    have h3 : |2 * w| ≤ f.top := by
      have : |2 * w| = e * |fs| := by
        rw [← abs_of_pos S.pos, ← abs_mul, ← h2, div_mul_cancel₀ _ hfs0]
      rw [this]
      have := hfs fs rfl
      nlinarith [abs_nonneg fs, S.pos]
    obtain rfl : f.r.rnd (f.r.rnd (2 * w) / fs) = e' := by simpa [Rounded.edges, Arith.ofRounding] using he'
    refine Is.div (Is.mul (is_lit 2) ⟨_, rfl⟩ (by rw [hr2]; exact h3)) ⟨_, rfl⟩ hfs0 ?_
    have k := abs_sub_abs_le_abs_sub (f.r.rnd (f.r.rnd (2 * w) / fs)) e
    rw [abs_of_pos S.pos] at k
    have : h * e ≤ 1 / 1024 * e := mul_le_mul_of_nonneg_right hh S.pos.le
    linarith

/-- The digital filter before any statement about sizes. -/
theorem staged_butter {a : Ieee f} {wn : List (Ieee f)} {fs : Option (Ieee f)} (n : ℕ) (hs : scaled wn fs = [a])
    {band : Design.Band} (hb : band = .lowpass ∨ band = .highpass) :
    staged L n wn none none band .butterworth fs = .ok
      { z := if band = .lowpass then List.replicate n (Cx.ofRe (lit f (-1)))
             else List.replicate n (((Cx.ofRe (lit f 2 * lit f 2)).add (Cx.ofRe 0)).div
              ((Cx.ofRe (lit f 2 * lit f 2)).sub (Cx.ofRe 0)))
        p := (Design.stepRange (-(n : ℤ) + 1) n).map (fun j =>
          ((Cx.ofRe (lit f 2 * lit f 2)).add (Setting.analogPole L n band a j)).div
            ((Cx.ofRe (lit f 2 * lit f 2)).sub (Setting.analogPole L n band a j)))
        k := if band = .lowpass then
            1 * L.powi (lit f 2 * lit f 2 * L.tan (L.pi * a / lit f 2)) n *
              ((foldMul []).div (foldMul ((Design.stepRange (-(n : ℤ) + 1) n).map (fun j =>
                (Cx.ofRe (lit f 2 * lit f 2)).sub (Setting.analogPole L n band a j))))).re
          else
            1 * ((foldMul []).div (foldMul ((Design.stepRange (-(n : ℤ) + 1) n).map (fun j =>
              (Cx.ofRe (lit f (-1))).mul (L.cexp ⟨0, L.pi * L.ofInt j / L.ofInt (2 * n)⟩).neg)))).re *
              ((foldMul ((Design.stepRange (-(n : ℤ) + 1) n).map (fun _ =>
                (Cx.ofRe (lit f 2 * lit f 2)).sub (Cx.ofRe 0)))).div
              (foldMul ((Design.stepRange (-(n : ℤ) + 1) n).map (fun j =>
                (Cx.ofRe (lit f 2 * lit f 2)).sub (Setting.analogPole L n band a j))))).re } := by
  unfold staged
  rw [hs]
  rcases hb with rfl | rfl
  · simp [IeeeDesign.prototype, ok_bind, IeeeDesign.buttap, IeeeDesign.bandTransform, IeeeDesign.lp2lp, relativeDegree_ok, IeeeDesign.bilinear, pure, Except.pure,
      Function.comp_def, Setting.analogPole, Design.stepRange_sym_length]
  · simp [IeeeDesign.prototype, ok_bind, IeeeDesign.buttap, IeeeDesign.bandTransform, IeeeDesign.lp2hp, relativeDegree_ok, IeeeDesign.bilinear, pure, Except.pure,
      Function.comp_def, Setting.analogPole, Design.stepRange_sym_length, List.map_const']

/-- The setting of the lemmas, from the hypotheses of the theorems. -/
theorem ieee_setting (hr : f.r.Nearest) (hm : m.Accurate f.r h) (hL : Lib.Agrees L m) {n : ℕ} (hn : n ≠ 0) {w : ℝ}
    (hW : f.r.rnd w = w) {fs : Option ℝ} (hfs : ∀ x ∈ fs, |x| ≤ f.top) {e : ℝ} (he : Spec.edges [w] fs = [e])
    (h1 : e < 1) (S : Small f.r h (e / 4)) (hh : 1024 * (n * h) ≤ 1 - e)
    (hT : 2000 * (n + (1 / (1 - e)) ^ 2) ≤ f.top) {band : Design.Band}
    (hb : band = .lowpass ∨ band = .highpass) :
    ∃ a e', scaled [ofReal f w] (fs.map (ofReal f)) = [a] ∧ Is a e' ∧ Setting f L m h e e' n ∧
      Rounded.edges (.ofRounding f.r m) [w] fs = [e'] ∧
      Rounded.Valid (.ofRounding f.r m) [w] none none band .butterworth false fs ∧
      Checked [ofReal f w] none none (fs.map (ofReal f)) := by
  have h0 := S.pos
  have hn1 : (1 : ℝ) ≤ n := by exact_mod_cast Nat.one_le_iff_ne_zero.mpr hn
  have hh0 := S.h_nonneg
  have hh1 : h ≤ (1 - e) / 1024 := by nlinarith
  have S1 : Small f.r h e := S.mono (by linarith)
  have c0 := sq_nonneg (1 / (1 - e))
  obtain ⟨a, e', hs, ha, he', hee⟩ := ieee_edge (m := m) S1 hr hW hfs he h1 (by linarith) (by linarith)
  obtain ⟨a1, a2⟩ := abs_le.mp hee
  have b1 : h * e ≤ (1 - e) / 1024 * e := mul_le_mul_of_nonneg_right hh1 (by linarith)
  refine ⟨a, e', hs, ha, ⟨hr, hm, hL, hn, h1, S, hh1, hee, hT⟩, he', ?_, ?_⟩
  · refine ⟨⟨?_, ?_, ?_, ?_, by simp, by simp, by simp, .inl rfl⟩, by simp⟩
    · rw [he', if_pos hb]; rfl
    · rw [he']; simp [Spec.edges]; nlinarith
    · rw [he']; simp [Spec.edges]
    · rw [he']; simp [Spec.edges]; nlinarith
  · obtain ⟨s, rfl⟩ := ha
    have hin : Inside (fin e' s : Ieee f) := ⟨e', s, rfl, by nlinarith, by nlinarith⟩
    simp [Checked, hs, hin]

/-- **C102** No overflow: if `64 (8 / (1 - e))^(2n)` is within the range of the type (and, as in C91, the order is
small compared with the precision), the Butterworth design of order `n` with edge `e` computed on IEEE numbers
returns finite zeros, poles and gain, namely those of the model without infinities.  So the accuracy, stability and
response theorems for that model (C90, C91) hold with overflow taken into account. -/
theorem C102_no_overflow (hr : f.r.Nearest) (hm : m.Accurate f.r h) (hL : Lib.Agrees L m) (s : Design.Sorts) (n : ℕ)
    (hn : n ≠ 0) (w : ℝ) (hW : f.r.rnd w = w) (band : Design.Band) (hb : band = .lowpass ∨ band = .highpass)
    (fs : Option ℝ) (hfs : ∀ x ∈ fs, |x| ≤ f.top) (e : ℝ) (he : Spec.edges [w] fs = [e]) (h1 : e < 1)
    (S : Small f.r h (e / 4)) (hh : 1024 * (n * h) ≤ 1 - e)
    (hT : 64 * (8 / (1 - e)) ^ (2 * n) ≤ f.top) :
    ∃ q g, iirfilter L n [ofReal f w] none none (some band) (some .butterworth) none (fs.map (ofReal f)) = .ok q ∧
      Rounded.butter (.ofRounding f.r m) s n [w] (some band) none (some .zpk) fs = .ok (.zpk g) ∧ ZpkIs q g := by
  have h0 := S.pos
  have hn1 : (1 : ℝ) ≤ n := by exact_mod_cast Nat.one_le_iff_ne_zero.mpr hn
  have hQ : 64 * ((8 * (1 / (1 - e))) ^ n) ^ 2 ≤ f.top := by
    rw [← pow_mul, mul_comm n 2, mul_one_div]
    exact hT
  have hc : 1 ≤ 1 / (1 - e) := by
    rw [le_div_iff₀ (by linarith)]
    linarith
  have hT' : 2000 * (n + (1 / (1 - e)) ^ 2) ≤ f.top := by
    refine le_trans ?_ hQ
    obtain ⟨c, hcd⟩ : ∃ c, c = 1 / (1 - e) := ⟨_, rfl⟩
    rw [← hcd] at hc ⊢
    have k1 : ((8 * c) ^ n) ^ 2 = 64 ^ n * (c ^ n) ^ 2 := by rw [mul_pow, mul_pow, ← pow_mul, mul_comm n 2, pow_mul]; norm_num
    have k2 : c ≤ c ^ n := le_self_pow₀ hc hn
    have k3 : c ^ 2 ≤ (c ^ n) ^ 2 := pow_le_pow_left₀ (by linarith) k2 2
    have k4 : 64 * (n : ℝ) ≤ 64 ^ n := by
      have : 64 * n ≤ 64 ^ n := by
        obtain ⟨k, rfl⟩ := Nat.exists_eq_succ_of_ne_zero hn
        rw [pow_succ, mul_comm (64 ^ k)]
        exact Nat.mul_le_mul_left _ (Nat.lt_pow_self (by norm_num)).succ_le
      exact_mod_cast this
    have k5 : 1 ≤ c ^ 2 := by nlinarith
    rw [k1]
    have k6 : 64 * (n : ℝ) * c ^ 2 ≤ 64 ^ n * (c ^ n) ^ 2 := mul_le_mul k4 k3 (by positivity) (by positivity)
    have k7 : (n : ℝ) ≤ n * c ^ 2 := by nlinarith
    have k8 : c ^ 2 ≤ n * c ^ 2 := by nlinarith
    linarith
  obtain ⟨a, e', hs, ha, A, he', hv, hck⟩ := ieee_setting (band := band) hr hm hL hn hW hfs he h1 S hh hT' hb
  obtain ⟨g, hg⟩ := (Rounded.design_returns_iff (order := n)).mpr hv
  refine ⟨_, g, (iirfilter_checked hck).trans (staged_butter n hs hb), ?_, ?_, ?_, ?_⟩
  · rw [Rounded.butter, Rounded.iirfilter_eq]
    change (Rounded.design (.ofRounding f.r m) n [w] none none band .butterworth false fs >>= _) = _
    rw [hg]
    rfl
  · rw [butter_zeros he' hb hg]
    rcases hb with rfl | rfl
    · rw [if_pos rfl, if_pos rfl]
      have hm1 : CIs (Cx.ofRe (lit f (-1))) (-1 : ℂ) := by
        have := cis_ofRe (is_lit (f := f) (-1))
        rwa [Complex.ofReal_neg, Complex.ofReal_one] at this
      rw [List.forall₂_iff_get]
      simp [hm1]
    · rw [if_neg (by simp), if_neg (by simp)]
      have n4 : ‖((f.r.rnd (2 * 2) : ℝ) : ℂ)‖ = 4 := by
        rw [show (2 : ℝ) * 2 = 4 by norm_num, rnd_four hr]; simp
      have z1 := CIs.add A.hu1 A.ht1 (cis_ofRe (Setting.is_four hr A.top_1)) (cis_ofRe (is_zero (f := f))) (B := 4)
        (by rw [n4]; simp) (by linarith [A.top_1])
      have z2 := CIs.sub A.hu1 A.ht1 (cis_ofRe (Setting.is_four hr A.top_1)) (cis_ofRe (is_zero (f := f))) (B := 4)
        (by rw [n4]; simp) (by linarith [A.top_1])
      have e1 : (⟨f.r.rnd (((f.r.rnd (2 * 2) : ℝ) : ℂ).re + ((0 : ℝ) : ℂ).re),
          f.r.rnd (((f.r.rnd (2 * 2) : ℝ) : ℂ).im + ((0 : ℝ) : ℂ).im)⟩ : ℂ) = 4 := by
        rw [show (2 : ℝ) * 2 = 4 by norm_num, rnd_four hr]
        simp [rnd_four hr, f.r.zero]
        apply Complex.ext <;> simp
      have e2 : (⟨f.r.rnd (((f.r.rnd (2 * 2) : ℝ) : ℂ).re - ((0 : ℝ) : ℂ).re),
          f.r.rnd (((f.r.rnd (2 * 2) : ℝ) : ℂ).im - ((0 : ℝ) : ℂ).im)⟩ : ℂ) = 4 := by
        rw [show (2 : ℝ) * 2 = 4 by norm_num, rnd_four hr]
        simp [rnd_four hr, f.r.zero]
        apply Complex.ext <;> simp
      have hq := (is_quot A.S' (by linarith [A.he]) hr A.h_le z1 z2 (P := 4) (by norm_num)
        (by rw [e1]; simp; norm_num) (by rw [e1]; simp; norm_num) (by rw [e2]; simp; norm_num)
        (by rw [e2]; simp; norm_num) (by linarith [A.top_1])).1
      rw [List.forall₂_iff_get]
      refine ⟨by simp, fun i h1 h2 => ?_⟩
      simp only [List.get_eq_getElem, List.getElem_replicate]
      exact hq
  · rw [butter_poles_fl he' hb hg]
    exact forall₂_map _ (fun j hj => A.is_pole ha hj)
  · rw [butter_gain_fl he' hb hg]
    exact A.is_gain hh hQ ha hb

/-- A finite result of an operation is within the range. -/
theorem pack_range {x v : ℝ} {s t : Bool} (hv : pack f x s = fin v t) : |f.r.rnd x| ≤ f.top := by
  unfold pack at hv
  split at hv
  · cases hv
  · exact not_lt.mp ‹_›

/-- **C102** Overflow: from the order on at which `0.6 · 16ⁿ` exceeds the range of the type, every Butterworth
low-pass and high-pass request is answered with a filter whose gain is zero or NaN. -/
theorem C102_high_order_wrong (hr : f.r.Nearest) (hm : m.Accurate f.r h) (hL : Lib.Agrees L m) (n : ℕ)
    (hn : n ≠ 0) (w : ℝ) (hW : f.r.rnd w = w) (band : Design.Band) (hb : band = .lowpass ∨ band = .highpass)
    (fs : Option ℝ) (hfs : ∀ x ∈ fs, |x| ≤ f.top) (e : ℝ) (he : Spec.edges [w] fs = [e]) (h1 : e < 1)
    (S : Small f.r h (e / 4)) (hh : 1024 * (n * h) ≤ 1 - e)
    (hT : 2000 * (n + (1 / (1 - e)) ^ 2) ≤ f.top) (hbig : f.top < 0.6 * 16 ^ n) :
    ∃ q, iirfilter L n [ofReal f w] none none (some band) (some .butterworth) none (fs.map (ofReal f)) = .ok q ∧
      (q.k = nan ∨ Is q.k 0) := by
  obtain ⟨a, e', hs, ha, A, he', hv, hck⟩ := ieee_setting (band := band) hr hm hL hn hW hfs he h1 S hh hT hb
  refine ⟨_, (iirfilter_checked hck).trans (staged_butter n hs hb), ?_⟩
  obtain ⟨D, hD⟩ : ∃ D, D = foldMul ((Design.stepRange (-(n : ℤ) + 1) n).map (fun j =>
    (Cx.ofRe (lit f 2 * lit f 2)).sub (Setting.analogPole L n band a j))) := ⟨_, rfl⟩
  have key : ¬ (D.re * D.re + D.im * D.im).Finite := by
    intro hfin
    obtain ⟨f1, f2⟩ := finite_add hfin
    have hc := is_fold_of_finite (m := m) (fun j => (Cx.ofRe (lit f 2 * lit f 2)).sub (Setting.analogPole L n band a j))
      _ (Design.stepRange (-(n : ℤ) + 1) n) (fun j hj => A.is_factor ha hj)
      (by rw [← hD]; exact ⟨(finite_mul f1).1, (finite_mul f2).1⟩)
    rw [← hD] at hc
    have i1 := Is.mul_of_finite hc.1 hc.1 f1
    have i2 := Is.mul_of_finite hc.2 hc.2 f2
    obtain ⟨s1, k1⟩ := i1
    obtain ⟨s2, k2⟩ := i2
    rw [k1, k2] at hfin
    obtain ⟨v, t, hv⟩ := hfin
    have k := pack_range (f := f) (show pack f _ _ = fin v t from hv)
    have d := (A.den_size hh band).1
    have h4 : (1 : ℝ) ≤ 4 ^ n := one_le_pow₀ (by norm_num)
    have e16 : (16 : ℝ) ^ n = (4 ^ n) ^ 2 := by rw [← pow_mul, mul_comm n 2, pow_mul]; norm_num
    have low := flNormSq_lower (r := f.r) (b := flDen f.r m n band e') (B := 0.9 * (4 ^ n) ^ 2)
      (A.u_le.trans (by norm_num)) (A.t_le.trans (by norm_num)) (by nlinarith) (by
        have := pow_le_pow_left₀ (by positivity) d 2
        refine le_trans ?_ this
        nlinarith)
    have : flNormSq f.r (flDen f.r m n band e') ≤ f.top := (le_abs_self _).trans k
    rw [e16] at hbig
    nlinarith
  have top0 : 0 ≤ f.top := by linarith [A.top_1]
  rcases hb with rfl | rfl
  · rw [hD] at key
    exact mul_zero_or_nan top0 (div_of_overflow key)
  · rw [hD] at key
    exact mul_zero_or_nan top0 (div_of_overflow key)


/-! ## `f64` and `f32` -/

theorem f64_top : (2 : ℝ) ^ 1023 ≤ f64.top ∧ f64.top < 2 ^ 1024 := by
  have h1 : (2 : ℝ) ^ 1023 = 2 ^ 52 * 2 ^ 971 := by rw [← pow_add]
  have h2 : (2 : ℝ) ^ 1024 = 2 ^ 53 * 2 ^ 971 := by rw [← pow_add]
  have h3 : (0 : ℝ) < 2 ^ 971 := by positivity
  rw [h1, h2]
  exact ⟨mul_le_mul_of_nonneg_right (by norm_num) h3.le, mul_lt_mul_of_pos_right (by norm_num) h3⟩

theorem f64_top_large : (2 : ℝ) ^ 100 ≤ f64.top :=
  (pow_le_pow_right₀ (by norm_num) (by norm_num)).trans f64_top.1

theorem f32_top : (2 : ℝ) ^ 127 ≤ f32.top ∧ f32.top < 2 ^ 128 := by
  constructor <;> norm_num [f32]

/-- **C102** in `f64`, with a library accurate to `2⁻⁵⁰`: up to order 46, for edges not closer than `1/256` to the
Nyquist frequency, nothing overflows. -/
theorem C102_f64 {L : Lib f64} (hm : m.Accurate binary64 (1 / 2 ^ 50)) (hL : Lib.Agrees L m) (s : Design.Sorts) (n : ℕ)
    (hn : n ≠ 0) (hn46 : n ≤ 46) (w : ℝ) (hW : binary64.rnd w = w) (band : Design.Band)
    (hb : band = .lowpass ∨ band = .highpass) (fs : Option ℝ) (hfs : ∀ x ∈ fs, |x| ≤ f64.top) (e : ℝ)
    (he : Spec.edges [w] fs = [e]) (h0 : 1 / 2 ^ 18 ≤ e) (h1 : e ≤ 1 - 1 / 256) :
    ∃ q g, iirfilter L n [ofReal f64 w] none none (some band) (some .butterworth) none (fs.map (ofReal f64)) = .ok q ∧
      Rounded.butter (.ofRounding binary64 m) s n [w] (some band) none (some .zpk) fs = .ok (.zpk g) ∧ ZpkIs q g := by
  have hn' : (n : ℝ) ≤ 46 := by exact_mod_cast hn46
  refine C102_no_overflow binary64_nearest hm hL s n hn w hW band hb fs hfs e he (by norm_num at h1; linarith)
    (binary64_small (by norm_num at h0 ⊢; linarith)) ?_ ?_
  · norm_num at h1 ⊢
    linarith
  · have a1 : 8 / (1 - e) ≤ 2 ^ 11 := by
      rw [div_le_iff₀ (by norm_num at h1; linarith)]
      norm_num at h1 ⊢
      linarith
    have a2 : (8 / (1 - e)) ^ (2 * n) ≤ (2 ^ 11) ^ (2 * n) :=
      pow_le_pow_left₀ (div_nonneg (by norm_num) (by norm_num at h1; linarith)) a1 _
    have a3 : ((2 : ℝ) ^ 11) ^ (2 * n) ≤ (2 ^ 11) ^ 92 := pow_le_pow_right₀ (by norm_num) (by omega)
    have a4 : (64 : ℝ) * (2 ^ 11) ^ 92 ≤ 2 ^ 1023 := by
      rw [← pow_mul, show (64 : ℝ) = 2 ^ 6 by norm_num, ← pow_add]
      exact pow_le_pow_right₀ (by norm_num) (by norm_num)
    exact (mul_le_mul_of_nonneg_left (a2.trans a3) (by norm_num)).trans (a4.trans f64_top.1)

/-- **C102** in `f32`, with a library accurate to `2⁻²²`: up to order 8, for edges not closer than `1/16` to the
Nyquist frequency, nothing overflows. -/
theorem C102_f32 {L : Lib f32} (hm : m.Accurate binary32 (1 / 2 ^ 22)) (hL : Lib.Agrees L m) (s : Design.Sorts) (n : ℕ)
    (hn : n ≠ 0) (hn8 : n ≤ 8) (w : ℝ) (hW : binary32.rnd w = w) (band : Design.Band)
    (hb : band = .lowpass ∨ band = .highpass) (fs : Option ℝ) (hfs : ∀ x ∈ fs, |x| ≤ f32.top) (e : ℝ)
    (he : Spec.edges [w] fs = [e]) (h0 : 1 / 2 ^ 18 ≤ e) (h1 : e ≤ 1 - 1 / 16) :
    ∃ q g, iirfilter L n [ofReal f32 w] none none (some band) (some .butterworth) none (fs.map (ofReal f32)) = .ok q ∧
      Rounded.butter (.ofRounding binary32 m) s n [w] (some band) none (some .zpk) fs = .ok (.zpk g) ∧ ZpkIs q g := by
  have hn' : (n : ℝ) ≤ 8 := by exact_mod_cast hn8
  refine C102_no_overflow binary32_nearest hm hL s n hn w hW band hb fs hfs e he (by norm_num at h1; linarith)
    (binary32_small (by norm_num at h0 ⊢; linarith)) ?_ ?_
  · norm_num at h1 ⊢
    linarith
  · have a1 : 8 / (1 - e) ≤ 2 ^ 7 := by
      rw [div_le_iff₀ (by norm_num at h1; linarith)]
      norm_num at h1 ⊢
      linarith
    have a2 : (8 / (1 - e)) ^ (2 * n) ≤ (2 ^ 7) ^ (2 * n) :=
      pow_le_pow_left₀ (div_nonneg (by norm_num) (by norm_num at h1; linarith)) a1 _
    have a3 : ((2 : ℝ) ^ 7) ^ (2 * n) ≤ (2 ^ 7) ^ 16 := pow_le_pow_right₀ (by norm_num) (by omega)
    have a4 : (64 : ℝ) * (2 ^ 7) ^ 16 ≤ 2 ^ 127 := by norm_num
    exact (mul_le_mul_of_nonneg_left (a2.trans a3) (by norm_num)).trans (a4.trans f32_top.1)

/-- **C102** in `f32`: every Butterworth low-pass or high-pass filter of an order between 33 and 2048, with its edge
in the lower half of the frequencies, has gain zero or NaN. -/
theorem C102_f32_order_33_wrong {L : Lib f32} (hm : m.Accurate binary32 (1 / 2 ^ 22)) (hL : Lib.Agrees L m) (n : ℕ)
    (hn : 33 ≤ n) (hn2 : n ≤ 2048) (w : ℝ) (hW : binary32.rnd w = w) (band : Design.Band)
    (hb : band = .lowpass ∨ band = .highpass) (fs : Option ℝ) (hfs : ∀ x ∈ fs, |x| ≤ f32.top) (e : ℝ)
    (he : Spec.edges [w] fs = [e]) (h0 : 1 / 2 ^ 18 ≤ e) (h1 : e ≤ 1 / 2) :
    ∃ q, iirfilter L n [ofReal f32 w] none none (some band) (some .butterworth) none (fs.map (ofReal f32)) = .ok q ∧
      (q.k = nan ∨ Is q.k 0) := by
  have hn' : (n : ℝ) ≤ 2048 := by exact_mod_cast hn2
  refine C102_high_order_wrong binary32_nearest hm hL n (by omega) w hW band hb fs hfs e he (by linarith)
    (binary32_small (by norm_num at h0 ⊢; linarith)) ?_ ?_ ?_
  · norm_num
    linarith
  · have a1 : 1 / (1 - e) ≤ 2 := by
      rw [div_le_iff₀ (by linarith)]
      linarith
    have a2 : (1 / (1 - e)) ^ 2 ≤ 2 ^ 2 := pow_le_pow_left₀ (div_nonneg (by norm_num) (by linarith)) a1 _
    have a4 : (2000 : ℝ) * (2048 + 2 ^ 2) ≤ 2 ^ 127 := by norm_num
    have := f32_top.1
    linarith
  · have a3 : (16 : ℝ) ^ 33 ≤ 16 ^ n := pow_le_pow_right₀ (by norm_num) hn
    have a4 : (2 : ℝ) ^ 128 ≤ 0.6 * 16 ^ 33 := by norm_num
    have := f32_top.2
    linarith

/-- **C102** in `f64`: the same from order 257 on. -/
theorem C102_f64_order_257_wrong {L : Lib f64} (hm : m.Accurate binary64 (1 / 2 ^ 50)) (hL : Lib.Agrees L m) (n : ℕ)
    (hn : 257 ≤ n) (hn2 : n ≤ 2 ^ 32) (w : ℝ) (hW : binary64.rnd w = w) (band : Design.Band)
    (hb : band = .lowpass ∨ band = .highpass) (fs : Option ℝ) (hfs : ∀ x ∈ fs, |x| ≤ f64.top) (e : ℝ)
    (he : Spec.edges [w] fs = [e]) (h0 : 1 / 2 ^ 18 ≤ e) (h1 : e ≤ 1 / 2) :
    ∃ q, iirfilter L n [ofReal f64 w] none none (some band) (some .butterworth) none (fs.map (ofReal f64)) = .ok q ∧
      (q.k = nan ∨ Is q.k 0) := by
  have hn' : (n : ℝ) ≤ 2 ^ 32 := by exact_mod_cast hn2
  refine C102_high_order_wrong binary64_nearest hm hL n (by omega) w hW band hb fs hfs e he (by linarith)
    (binary64_small (by norm_num at h0 ⊢; linarith)) ?_ ?_ ?_
  · norm_num [-Nat.cast_le_ofNat] at hn' ⊢
    linarith
  · have a1 : 1 / (1 - e) ≤ 2 := by
      rw [div_le_iff₀ (by linarith)]
      linarith
    have a2 : (1 / (1 - e)) ^ 2 ≤ 2 ^ 2 := pow_le_pow_left₀ (div_nonneg (by norm_num) (by linarith)) a1 _
    have a4 : (2000 : ℝ) * (2 ^ 32 + 2 ^ 2) ≤ 2 ^ 100 := by norm_num
    exact (mul_le_mul_of_nonneg_left (add_le_add hn' a2) (by norm_num)).trans (a4.trans f64_top_large)
  · have a3 : (16 : ℝ) ^ 257 ≤ 16 ^ n := pow_le_pow_right₀ (by norm_num) hn
    have a4 : (2 : ℝ) ^ 1024 ≤ 0.6 * 16 ^ 257 := by
      have a5 : (16 : ℝ) ^ 257 = 16 * 2 ^ 1024 := by
        rw [show (16 : ℝ) = 2 ^ 4 by norm_num, ← pow_mul, ← pow_add]
      have a6 : (0 : ℝ) < 2 ^ 1024 := by positivity
      rw [a5, ← mul_assoc]
      exact le_mul_of_one_le_left a6.le (by norm_num)
    exact f64_top.2.trans_le (a4.trans (mul_le_mul_of_nonneg_left a3 (by norm_num)))

/-! ## The hypotheses can be met -/

open Classical in
/-- A finite number, or an infinity if it is too large. -/
noncomputable def capped (f : Format) (v : ℝ) : Ieee f := if |v| ≤ f.top then ofReal f v else inf (decide (v < 0))

theorem capped_is {v : ℝ} (hv : |v| ≤ f.top) : Is (capped f v) v := ⟨_, if_pos hv⟩

/-- A function on finite numbers, as a function on IEEE numbers. -/
noncomputable def onFinite (g : ℝ → ℝ) : Ieee f → Ieee f
  | fin x _ => capped f (g x)
  | _ => nan

/-- An IEEE library made from a library without overflow. -/
noncomputable def libOf (f : Format) (m : Libm) : Lib f where
  eps := ofReal f m.eps
  pi := ofReal f m.pi
  ofInt z := capped f (f.r.rnd z)
  powi a n := onFinite (fun x => m.powi x n) a
  powf _ b := onFinite (fun y => m.powf 10 y) b
  sin := onFinite m.sin
  cos := onFinite m.cos
  tan := onFinite m.tan
  sinh := onFinite m.sinh
  cosh := onFinite m.cosh
  asinh := onFinite m.asinh
  cexp a := match a with
    | ⟨fin x _, fin y _⟩ => ⟨capped f (f.r.rnd (m.exp x * m.cos y)), capped f (f.r.rnd (m.exp x * m.sin y))⟩
    | _ => ⟨nan, nan⟩
  csqrt a := match a with
    | ⟨fin x _, fin y _⟩ => ⟨capped f (flSqrt f.r m ⟨x, y⟩).re, capped f (flSqrt f.r m ⟨x, y⟩).im⟩
    | _ => ⟨nan, nan⟩
  cabs a := match a with
    | ⟨fin x _, fin y _⟩ => capped f (m.hypot x y)
    | _ => nan
  cpowi2 a := a.mul a

theorem libOf_agrees : Lib.Agrees (libOf f m) m where
  pi := ⟨_, rfl⟩
  ofInt z hz := capped_is hz
  tan x s hx := capped_is hx
  powi x s n hx := capped_is hx
  cexp a z ha h1 h2 := by
    obtain ⟨are, aim⟩ := a
    obtain ⟨⟨s, hs⟩, ⟨t, ht⟩⟩ := ha
    simp only at hs ht
    subst hs ht
    exact ⟨capped_is h1, capped_is h2⟩

/-- A library for `f32` that rounds the exact values. -/
noncomputable def libm32 : Libm := .rounded binary32 binary32_nearest ((2 : ℝ) ^ (-23 : ℤ)) (by positivity)

theorem libm32_accurate : libm32.Accurate binary32 (1 / 2 ^ 22) := by
  have h1 : binary32.u = 2 ^ (-24 : ℤ) := rfl
  have h2 : binary32.t = 2 ^ (-150 : ℤ) := rfl
  have h5 : (2 : ℝ) ^ (-150 : ℤ) ≤ 2 ^ (-100 : ℤ) := zpow_le_zpow_right₀ (by norm_num) (by norm_num)
  have e1 : (2 : ℝ) ^ (-24 : ℤ) = 1 / 2 ^ 24 := by rw [zpow_neg]; norm_num
  have e2 : (2 : ℝ) ^ (-23 : ℤ) = 1 / 2 ^ 23 := by rw [zpow_neg]; norm_num
  have e3 : (2 : ℝ) ^ (-100 : ℤ) = 1 / 2 ^ 100 := by rw [zpow_neg]; norm_num
  rw [e3] at h5
  refine C90_library binary32_nearest ?_ ?_ _ _ ?_
  · rw [h1, h2, e1]
    refine (add_le_add_right h5 _).trans ?_
    norm_num
  · rw [h1, e1]; norm_num
  · rw [e2]; norm_num

/-- A fourth-order low-pass filter with its edge at 10 Hz for signals sampled at 1 kHz, in `f64`. -/
example (s : Design.Sorts) : ∃ q g,
    iirfilter (libOf f64 libm64) 4 [ofReal f64 10] none none (some .lowpass) (some .butterworth) none
      (some (ofReal f64 1000)) = .ok q ∧
    Rounded.butter (.ofRounding binary64 libm64) s 4 [10] (some .lowpass) none (some .zpk) (some 1000) = .ok (.zpk g) ∧
    ZpkIs q g := by
  refine C102_f64 libm64_accurate libOf_agrees s 4 (by norm_num) (by norm_num) 10 ?_ .lowpass (.inl rfl) (some 1000) ?_
    (1 / 50) (by simp [Spec.edges]; norm_num) (by norm_num) (by norm_num)
  · have := Binary.rnd_int 53 (-1074) (by norm_num) 10 (by norm_num)
    exact_mod_cast this
  · intro x hx
    obtain rfl : 1000 = x := by simpa using hx
    rw [abs_of_pos (by norm_num)]
    exact le_trans (by norm_num) f64_top_large

/-- A high-pass filter of order 40 with its edge at 100 Hz for signals sampled at 1 kHz, in `f32`. -/
example : ∃ q,
    iirfilter (libOf f32 libm32) 40 [ofReal f32 100] none none (some .highpass) (some .butterworth) none
      (some (ofReal f32 1000)) = .ok q ∧ (q.k = nan ∨ Is q.k 0) := by
  refine C102_f32_order_33_wrong libm32_accurate libOf_agrees 40 (by norm_num) (by norm_num) 100 ?_ .highpass (.inr rfl)
    (some 1000) ?_ (1 / 5) (by simp [Spec.edges]; norm_num) (by norm_num) (by norm_num)
  · have := Binary.rnd_int 24 (-149) (by norm_num) 100 (by norm_num)
    exact_mod_cast this
  · intro x hx
    obtain rfl : 1000 = x := by simpa using hx
    have := f32_top.1
    have : (1000 : ℝ) ≤ 2 ^ 127 := by norm_num
    rw [abs_of_pos (by norm_num)]
    linarith

end SciRs.Props

import Verif.Model.IeeeDesign
import Verif.Lemmas.Ieee
import Verif.Lemmas.Design.Prototype
import Verif.Lemmas.Design.Response

/-!
# C100: infinities and NaN in filter design

The checks of `iirfilter_dyn` reject bad arguments by comparisons, and every comparison with NaN is false.
-/

namespace SciRs.Props

open SciRs SciRs.Spec SciRs.Spec.Ieee SciRs.IeeeDesign

variable {f : Format}

/-- What is assumed of the mathematical library at zero, infinity and NaN. -/
structure Special (L : Lib f) : Prop where
  powf_nan : L.powf (lit f 10) nan = nan
  powf_zero : ∀ s, L.powf (lit f 10) (fin 0 s) = 1
  asinh_nan : L.asinh nan = nan
  asinh_inf : L.asinh (inf false) = inf false
  sinh_nan : L.sinh nan = nan
  cosh_nan : L.cosh nan = nan
  sinh_inf : L.sinh (inf false) = inf false
  cosh_inf : L.cosh (inf false) = inf false

/-- The critical frequencies in units of the Nyquist frequency. -/
noncomputable def scaled (wn : List (Ieee f)) : Option (Ieee f) → List (Ieee f)
  | none => wn
  | some fs => wn.map (fun w => lit f 2 * w / fs)

/-- A frequency strictly between zero and the Nyquist frequency. -/
def Inside (w : Ieee f) : Prop := ∃ v s, w = fin v s ∧ 0 < v ∧ v < 1

theorem not_le_zero_or_ge_one (w : Ieee f) : ¬ (w ≤ 0 ∨ w ≥ 1) ↔ w = nan ∨ Inside w := by
  cases w with
  | nan => simp [LE.le, GE.ge, toE, Inside]
  | inf s =>
    have h0 : (inf true : Ieee f) ≤ 0 := ⟨⊥, ((0 : ℝ) : EReal), rfl, rfl, bot_le⟩
    have h1 : (1 : Ieee f) ≤ inf false := ⟨((1 : ℝ) : EReal), ⊤, rfl, rfl, le_top⟩
    cases s <;> simp [Inside, h0, h1]
  | fin v s =>
    have h0 : (fin v s : Ieee f) ≤ 0 ↔ v ≤ 0 := by
      constructor
      · rintro ⟨x, y, hx, hy, h⟩
        obtain rfl : (v : EReal) = x := by simpa [toE] using hx
        obtain rfl : ((0 : ℝ) : EReal) = y := Option.some.inj hy
        exact EReal.coe_le_coe_iff.mp h
      · exact fun h => ⟨v, ((0 : ℝ) : EReal), rfl, rfl, EReal.coe_le_coe_iff.mpr h⟩
    have h1 : (fin v s : Ieee f) ≥ 1 ↔ 1 ≤ v := by
      constructor
      · rintro ⟨x, y, hx, hy, h⟩
        obtain rfl : (v : EReal) = y := by simpa [toE] using hy
        obtain rfl : ((1 : ℝ) : EReal) = x := Option.some.inj hx
        exact EReal.coe_le_coe_iff.mp h
      · exact fun h => ⟨((1 : ℝ) : EReal), v, rfl, rfl, EReal.coe_le_coe_iff.mpr h⟩
    rw [h0, h1]
    simp [Inside, not_or]

/-- How many poles the digital filter has. -/
def poleCount (order : ℕ) : Design.Band → ℕ
  | .lowpass | .highpass => order
  | .bandpass | .bandstop => 2 * order

/-- What the checks let through. -/
def Checked (wn : List (Ieee f)) (rp rs fs : Option (Ieee f)) : Prop :=
  (scaled wn fs).length ≤ 2 ∧ (∀ w ∈ scaled wn fs, w = nan ∨ Inside w) ∧
    ¬ ((scaled wn fs).length > 1 ∧ (scaled wn fs).getD 0 0 ≥ (scaled wn fs).getD 1 0) ∧
    (¬ ∃ r, rp = some r ∧ r < 0) ∧ (¬ ∃ r, rs = some r ∧ r < 0)

/-- A digital design after the checks. -/
noncomputable def staged (L : Lib f) (order : ℕ) (wn : List (Ieee f)) (rp rs : Option (Ieee f)) (b : Design.Band)
    (ft : Design.FType) (fs : Option (Ieee f)) : Res (ZpkI f) := do
  let q ← prototype L order ft rp rs
  let q ← bandTransform L b q ((scaled wn fs).map (fun w => lit f 2 * lit f 2 * L.tan (L.pi * w / lit f 2)))
  bilinear q (lit f 2)

theorem scaled_length (wn : List (Ieee f)) (fs : Option (Ieee f)) : (scaled wn fs).length = wn.length := by
  cases fs <;> simp [scaled]

theorem scaleEdges_digital (wn : List (Ieee f)) (fs : Option (Ieee f)) :
    scaleEdges wn false fs = .ok (scaled wn fs) := by
  cases fs <;> simp [scaleEdges, scaled]

theorem iirfilter_checked {L : Lib f} {order : ℕ} {wn : List (Ieee f)} {rp rs : Option (Ieee f)} {b : Design.Band}
    {ft : Design.FType} {fs : Option (Ieee f)} (h : Checked wn rp rs fs) :
    iirfilter L order wn rp rs (some b) (some ft) none fs = staged L order wn rp rs b ft fs := by
  obtain ⟨h1, h2, h3, h4, h5⟩ := h
  have h2' : ∀ w ∈ scaled wn fs, ¬ (w ≤ 0 ∨ w ≥ 1) := fun w hw => (not_le_zero_or_ge_one w).mpr (h2 w hw)
  have h6 : ¬ ∃ wi ∈ scaled wn fs, wi ≤ 0 := fun ⟨w, hw, h⟩ => h2' w hw (.inl h)
  have h7 : ¬ ∃ wi ∈ scaled wn fs, wi ≤ 0 ∨ wi ≥ 1 := fun ⟨w, hw, h⟩ => h2' w hw h
  rw [scaled_length] at h1
  unfold iirfilter validate warp staged
  simp only [Option.getD_none, Option.getD_some, scaleEdges_digital, ok_bind, check, if_pos h6, if_pos h3, if_pos h4,
    if_pos h5, if_pos h7, if_pos (show ¬ wn.length > 2 by omega), pure, Except.pure, if_true]

theorem iirfilter_inv {L : Lib f} {order : ℕ} {wn : List (Ieee f)} {rp rs : Option (Ieee f)} {b : Design.Band}
    {ft : Design.FType} {fs : Option (Ieee f)} {q : ZpkI f}
    (h : iirfilter L order wn rp rs (some b) (some ft) none fs = .ok q) : Checked wn rp rs fs := by
  have hck : ∀ {α : Type} {c : Prop} [Decidable c] {g : Unit → Res α} {a : α},
      (check c Err.panic >>= g) = .ok a → c ∧ g () = .ok a := by
    intro α c _ g a h
    unfold check at h
    split at h
    · exact ⟨‹_›, h⟩
    · cases h
  have hbd : ∀ {α β : Type} {m : Res α} {g : α → Res β} {a : β}, (m >>= g) = .ok a →
      ∃ x, m = .ok x ∧ g x = .ok a := by
    intro α β m g a h
    cases m with
    | error e => cases h
    | ok x => exact ⟨x, rfl, h⟩
  unfold iirfilter at h
  obtain ⟨e, he, h⟩ := hbd h
  unfold validate at he
  obtain ⟨h1, he⟩ := hck he
  rw [Option.getD_none, scaleEdges_digital, ok_bind] at he
  obtain ⟨h2, he⟩ := hck he
  obtain ⟨h3, he⟩ := hck he
  obtain ⟨h4, he⟩ := hck he
  obtain ⟨h5, he⟩ := hck he
  obtain rfl : scaled wn fs = e := by simpa [pure, Except.pure] using he
  obtain ⟨q0, hq, h⟩ := hbd h
  obtain ⟨w, hw, h⟩ := hbd h
  unfold warp at hw
  rw [Option.getD_none, if_pos rfl] at hw
  obtain ⟨h6, hw⟩ := hck hw
  refine ⟨by rw [scaled_length]; omega, fun w hw => (not_le_zero_or_ge_one w).mp fun h => h6 ⟨w, hw, h⟩, h3, h4, h5⟩

/-- Every prototype that is returned has as many poles as its order, and not more zeros. -/
theorem prototype_length {L : Lib f} {order : ℕ} {ft : Design.FType} {rp rs : Option (Ieee f)} {q : ZpkI f}
    (h : prototype L order ft rp rs = .ok q) : q.p.length = order ∧ q.z.length ≤ order := by
  have hms : (Design.cheb2Ms order).length ≤ order := by
    unfold Design.cheb2Ms
    split <;> simp [Design.stepRange] <;> omega
  have h1 := Design.stepRange_sym_length order
  cases ft with
  | butterworth =>
    obtain rfl : buttap L order = q := by simpa [prototype] using h
    simp [buttap, h1]
  | chebyshevI =>
    cases rp with
    | none => simp [prototype] at h
    | some r =>
      obtain rfl : cheb1ap L order r = q := by simpa [prototype] using h
      unfold cheb1ap
      split
      · simp_all
      · simp [h1]
  | chebyshevII =>
    cases rp with
    | none => simp [prototype] at h
    | some r =>
      cases rs with
      | none => simp [prototype] at h
      | some r =>
        obtain rfl : cheb2ap L order r = q := by simpa [prototype] using h
        unfold cheb2ap
        split
        · simp_all
        · simp [h1, hms]
  | cauerElliptic => simp [prototype] at h
  | besselThomson => simp [prototype] at h

theorem relativeDegree_ok {z p : List (Cx f)} (h : z.length ≤ p.length) :
    IeeeDesign.relativeDegree z p = .ok (p.length - z.length) := by
  unfold IeeeDesign.relativeDegree
  dsimp only
  rw [if_neg (by omega)]
  congr 1
  omega

/-- Which requests the frequency transformations serve. -/
theorem bandTransform_returns (L : Lib f) (b : Design.Band) (q : ZpkI f) (hq : q.z.length ≤ q.p.length)
    (w : List (Ieee f)) : (∃ q', bandTransform L b q w = .ok q' ∧ q'.z.length ≤ q'.p.length) ↔
      w.length = match b with | .lowpass | .highpass => 1 | .bandpass | .bandstop => 2 := by
  constructor
  · rintro ⟨q', h, -⟩
    unfold bandTransform at h
    split at h <;> first | rfl | cases h
  · intro h
    cases b with
    | lowpass =>
      obtain ⟨w0, rfl⟩ := List.length_eq_one_iff.mp h
      simp [bandTransform, lp2lp, relativeDegree_ok hq, ok_bind, pure, Except.pure, hq]
    | highpass =>
      obtain ⟨w0, rfl⟩ := List.length_eq_one_iff.mp h
      simp [bandTransform, lp2hp, relativeDegree_ok hq, ok_bind, pure, Except.pure]
      omega
    | bandpass =>
      obtain ⟨w0, w1, rfl⟩ := List.length_eq_two.mp h
      simp [bandTransform, lp2bp, relativeDegree_ok hq, ok_bind, pure, Except.pure, splitPm]
      omega
    | bandstop =>
      obtain ⟨w0, w1, rfl⟩ := List.length_eq_two.mp h
      simp [bandTransform, lp2bs, relativeDegree_ok hq, ok_bind, pure, Except.pure, splitPm, bsZeros]
      omega

theorem bilinear_returns (q : ZpkI f) (hq : q.z.length ≤ q.p.length) (fs : Ieee f) :
    ∃ q', bilinear q fs = .ok q' := by
  simp [bilinear, relativeDegree_ok hq, ok_bind, pure, Except.pure]

theorem returns_iff {L : Lib f} {order : ℕ} {wn : List (Ieee f)} {rp rs : Option (Ieee f)} {b : Design.Band}
    {ft : Design.FType} {fs : Option (Ieee f)} {q0 : ZpkI f} (h0 : prototype L order ft rp rs = .ok q0) :
    Returns (iirfilter L order wn rp rs (some b) (some ft) none fs) ↔ Checked wn rp rs fs ∧
      (scaled wn fs).length = match b with | .lowpass | .highpass => 1 | .bandpass | .bandstop => 2 := by
  obtain ⟨hp, hz⟩ := prototype_length h0
  have hq : q0.z.length ≤ q0.p.length := by omega
  constructor
  · rintro ⟨q, h⟩
    have hc := iirfilter_inv h
    refine ⟨hc, ?_⟩
    rw [iirfilter_checked hc, staged, h0] at h
    simp only [ok_bind] at h
    cases hb : bandTransform L b q0
      ((scaled wn fs).map (fun w => lit f 2 * lit f 2 * L.tan (L.pi * w / lit f 2))) with
    | error e => rw [hb] at h; cases h
    | ok q' =>
      unfold bandTransform at hb
      split at hb
      · rename_i h1; simpa using congrArg List.length h1
      · rename_i h1; simpa using congrArg List.length h1
      · rename_i h1; simpa using congrArg List.length h1
      · rename_i h1; simpa using congrArg List.length h1
      · cases hb
  · rintro ⟨hc, hl⟩
    rw [iirfilter_checked hc, staged, h0]
    simp only [ok_bind]
    obtain ⟨q1, h1, h1'⟩ := (bandTransform_returns L b _ hq
      ((scaled wn fs).map (fun w => lit f 2 * lit f 2 * L.tan (L.pi * w / lit f 2)))).mpr (by simpa using hl)
    obtain ⟨q2, h2⟩ := bilinear_returns q1 h1' (lit f 2)
    exact ⟨q2, by rw [h1, ok_bind, h2]⟩

/-- **C100** Which critical frequencies a digital Butterworth design accepts, on numbers with infinities and NaN: the
comparisons reject everything outside the band and every infinity, and let every NaN through. -/
theorem C100_accepts (L : Lib f) (order : ℕ) (wn : List (Ieee f)) (b : Design.Band) (fs : Option (Ieee f)) :
    Returns (iirfilter L order wn none none (some b) (some .butterworth) none fs) ↔
      match b with
      | .lowpass | .highpass => ∃ W, scaled wn fs = [W] ∧ (W = nan ∨ Inside W)
      | .bandpass | .bandstop => ∃ A B, scaled wn fs = [A, B] ∧ (A = nan ∨ Inside A) ∧ (B = nan ∨ Inside B) ∧
          ¬ B ≤ A := by
  rw [returns_iff (q0 := buttap L order) rfl]
  cases b with
  | lowpass =>
    constructor
    · rintro ⟨⟨-, h2, -⟩, hl⟩
      obtain ⟨W, hW⟩ := List.length_eq_one_iff.mp hl
      exact ⟨W, hW, h2 W (by simp [hW])⟩
    · rintro ⟨W, hW, h⟩
      simp [Checked, hW, h]
  | highpass =>
    constructor
    · rintro ⟨⟨-, h2, -⟩, hl⟩
      obtain ⟨W, hW⟩ := List.length_eq_one_iff.mp hl
      exact ⟨W, hW, h2 W (by simp [hW])⟩
    · rintro ⟨W, hW, h⟩
      simp [Checked, hW, h]
  | bandpass =>
    constructor
    · rintro ⟨⟨-, h2, h3, -⟩, hl⟩
      obtain ⟨A, B, hW⟩ := List.length_eq_two.mp hl
      rw [hW] at h3
      exact ⟨A, B, hW, h2 A (by simp [hW]), h2 B (by simp [hW]), by simpa using h3⟩
    · rintro ⟨A, B, hW, hA, hB, h⟩
      simp [Checked, hW, hA, hB, h]
  | bandstop =>
    constructor
    · rintro ⟨⟨-, h2, h3, -⟩, hl⟩
      obtain ⟨A, B, hW⟩ := List.length_eq_two.mp hl
      rw [hW] at h3
      exact ⟨A, B, hW, h2 A (by simp [hW]), h2 B (by simp [hW]), by simpa using h3⟩
    · rintro ⟨A, B, hW, hA, hB, h⟩
      simp [Checked, hW, hA, hB, h]

/-- A complex number with no finite part. -/
def Bad (a : Cx f) : Prop := ¬ a.re.Finite ∧ ¬ a.im.Finite

theorem mul_zero_bad {a : Ieee f} (h : ¬ a.Finite) : a * 0 = nan := by
  cases a with
  | nan => simp
  | inf s =>
    change Ieee.mul (inf s) (fin 0 false) = nan
    simp [Ieee.mul]
  | fin v s => simp at h

theorem zero_mul_bad {a : Ieee f} (h : ¬ a.Finite) : 0 * a = nan := by
  cases a with
  | nan => simp
  | inf s =>
    change Ieee.mul (fin 0 false) (inf s) = nan
    simp [Ieee.mul]
  | fin v s => simp at h

theorem sqrt_nan : (nan : Ieee f).sqrt = nan := rfl
theorem neg_nan : -(nan : Ieee f) = nan := rfl

theorem mul_ofRe {a : Cx f} {w : Ieee f} (h : w = nan ∨ Bad a) : a.mul (Cx.ofRe w) = ⟨nan, nan⟩ := by
  rcases h with rfl | ⟨h1, h2⟩
  · simp [Cx.mul, Cx.ofRe]
  · simp [Cx.mul, Cx.ofRe, mul_zero_bad h1, mul_zero_bad h2]

theorem ofRe_div {a : Cx f} {w : Ieee f} (h : w = nan ∨ Bad a) : (Cx.ofRe w).div a = ⟨nan, nan⟩ := by
  rcases h with rfl | ⟨h1, h2⟩
  · simp [Cx.div, Cx.ofRe]
  · simp [Cx.div, Cx.ofRe, zero_mul_bad h1, zero_mul_bad h2]

theorem im_div {a : Cx f} {w : Ieee f} (h : w = nan ∨ Bad a) : (Cx.mk 0 w).div a = ⟨nan, nan⟩ := by
  rcases h with rfl | ⟨h1, h2⟩
  · simp [Cx.div]
  · simp [Cx.div, zero_mul_bad h1, zero_mul_bad h2]

theorem foldMul_nan (l : List (Cx f)) (hne : l ≠ []) (h : ∀ a ∈ l, a = ⟨nan, nan⟩) : foldMul l = ⟨nan, nan⟩ := by
  have : ∀ (l : List (Cx f)) (a : Cx f), (a = ⟨nan, nan⟩ ∨ l ≠ []) → (∀ a ∈ l, a = ⟨nan, nan⟩) →
      l.foldl (fun acc x => acc.mul x) a = ⟨nan, nan⟩ := by
    intro l
    induction l with
    | nil => intro a h _; simpa using h
    | cons b l ih =>
      intro a _ h
      refine ih _ (.inl ?_) fun c hc => h c (List.mem_cons_of_mem _ hc)
      rw [h b List.mem_cons_self]
      simp [Cx.mul]
  exact this l _ (.inr hne) h

theorem splitPm_nan (L : Lib f) (l : List (Cx f)) (h : ∀ a ∈ l, a = ⟨nan, nan⟩) (wo : Ieee f) :
    ∀ a ∈ splitPm L l wo, a = ⟨nan, nan⟩ := by
  intro a ha
  simp only [splitPm, List.map_map, List.mem_append, List.mem_map, Function.comp] at ha
  rcases ha with ⟨b, hb, rfl⟩ | ⟨b, hb, rfl⟩ <;> rw [h b hb] <;> simp [Cx.add, Cx.sub]

/-- A NaN edge, or a prototype without finite poles, leaves no pole that is a number. -/
theorem bandTransform_nan {L : Lib f} {b : Design.Band} {q q' : ZpkI f} {w : List (Ieee f)}
    (h : bandTransform L b q w = .ok q') (hbad : nan ∈ w ∨ ∀ a ∈ q.p, Bad a) : ∀ a ∈ q'.p, a = ⟨nan, nan⟩ := by
  have hrd : ∀ {g : ℕ → Res (ZpkI f)}, (IeeeDesign.relativeDegree q.z q.p >>= g) = .ok q' → ∃ d, g d = .ok q' := by
    intro g h
    cases hd : IeeeDesign.relativeDegree q.z q.p with
    | error e => rw [hd] at h; cases h
    | ok d => rw [hd] at h; exact ⟨d, h⟩
  have hw : ∀ w0 w1 : Ieee f, (nan ∈ [w0, w1] ∨ ∀ a ∈ q.p, Bad a) → ∀ a ∈ q.p,
      (w1 - w0) / lit f 2 = nan ∨ Bad a := by
    rintro w0 w1 (h | h) a ha
    · left
      simp only [List.mem_cons, List.not_mem_nil, or_false] at h
      rcases h with rfl | rfl <;> simp
    · exact .inr (h a ha)
  unfold bandTransform at h
  split at h
  · rename_i w
    obtain ⟨d, h⟩ := hrd h
    obtain rfl := (by simpa [pure, Except.pure] using h : _ = q')
    intro a ha
    obtain ⟨c, hc, rfl⟩ := List.mem_map.mp ha
    exact mul_ofRe (hbad.imp (fun h => by simpa using (List.mem_singleton.mp h).symm) fun h => h c hc)
  · rename_i w
    obtain ⟨d, h⟩ := hrd h
    obtain rfl := (by simpa [pure, Except.pure] using h : _ = q')
    intro a ha
    obtain ⟨c, hc, rfl⟩ := List.mem_map.mp ha
    exact ofRe_div (hbad.imp (fun h => by simpa using (List.mem_singleton.mp h).symm) fun h => h c hc)
  · rename_i w0 w1
    obtain ⟨d, h⟩ := hrd h
    obtain rfl := (by simpa [pure, Except.pure] using h : _ = q')
    refine splitPm_nan L _ ?_ _
    intro a ha
    obtain ⟨c, hc, rfl⟩ := List.mem_map.mp ha
    exact mul_ofRe (hw w0 w1 hbad c hc)
  · rename_i w0 w1
    obtain ⟨d, h⟩ := hrd h
    obtain rfl := (by simpa [pure, Except.pure] using h : _ = q')
    refine splitPm_nan L _ ?_ _
    intro a ha
    obtain ⟨c, hc, rfl⟩ := List.mem_map.mp ha
    rw [im_div (hw w0 w1 hbad c hc)]
    simp [Cx.mul]
  · cases h

theorem bandTransform_length {L : Lib f} {b : Design.Band} {q q' : ZpkI f} {w : List (Ieee f)}
    (h : bandTransform L b q w = .ok q') :
    q'.p.length = poleCount q.p.length b := by
  have hrd : ∀ {g : ℕ → Res (ZpkI f)}, (IeeeDesign.relativeDegree q.z q.p >>= g) = .ok q' → ∃ d, g d = .ok q' := by
    intro g h
    cases hd : IeeeDesign.relativeDegree q.z q.p with
    | error e => rw [hd] at h; cases h
    | ok d => rw [hd] at h; exact ⟨d, h⟩
  unfold bandTransform at h
  split at h
  all_goals first | cases h | skip
  all_goals
    obtain ⟨d, h⟩ := hrd h
    obtain rfl := (by simpa [pure, Except.pure] using h : _ = q')
    simp [splitPm, poleCount] <;> omega

theorem staged_nan {L : Lib f} {order : ℕ} (ho : order ≠ 0) {wn : List (Ieee f)}
    {rp rs : Option (Ieee f)} {b : Design.Band} {ft : Design.FType} {fs : Option (Ieee f)} {q : ZpkI f}
    (h : iirfilter L order wn rp rs (some b) (some ft) none fs = .ok q)
    (hbad : (L.tan nan = nan ∧ nan ∈ scaled wn fs) ∨ ∀ q0, prototype L order ft rp rs = .ok q0 → ∀ a ∈ q0.p, Bad a) :
    q.p = List.replicate (poleCount order b) ⟨nan, nan⟩ ∧ q.k = nan := by
  rw [iirfilter_checked (iirfilter_inv h), staged] at h
  cases h0 : prototype L order ft rp rs with
  | error e => rw [h0] at h; cases h
  | ok q0 =>
    rw [h0, ok_bind] at h
    cases h1 : bandTransform L b q0
      ((scaled wn fs).map (fun w => lit f 2 * lit f 2 * L.tan (L.pi * w / lit f 2))) with
    | error e => rw [h1] at h; cases h
    | ok q1 =>
      rw [h1, ok_bind] at h
      have hn := bandTransform_nan h1 (by
        refine hbad.imp (fun h => ?_) fun h => h q0 h0
        exact List.mem_map.mpr ⟨nan, h.2, by simp [h.1]⟩)
      have hl := bandTransform_length h1
      rw [(prototype_length h0).1] at hl
      have hne : q1.p ≠ [] := by
        intro h
        rw [h] at hl
        cases b <;> simp [poleCount] at hl <;> omega
      unfold bilinear at h
      cases hd : IeeeDesign.relativeDegree q1.z q1.p with
      | error e => rw [hd] at h; cases h
      | ok d =>
        rw [hd] at h
        obtain rfl := (by simpa [pure, Except.pure, ok_bind] using h : _ = q)
        refine ⟨?_, ?_⟩
        · refine List.eq_replicate_iff.mpr ⟨by simpa using hl, fun a ha => ?_⟩
          obtain ⟨c, hc, rfl⟩ := List.mem_map.mp ha
          rw [hn c hc]
          simp [Cx.div, Cx.add, Cx.sub]
        · have : foldMul (q1.p.map (fun pi => (Cx.ofRe (lit f 2 * lit f 2)).sub pi)) = ⟨nan, nan⟩ := by
            refine foldMul_nan _ (by simpa using hne) fun a ha => ?_
            obtain ⟨c, hc, rfl⟩ := List.mem_map.mp ha
            rw [hn c hc]
            simp [Cx.sub]
          dsimp only
          rw [this]
          simp [Cx.div]

/-- **C100** A design request with a NaN among its critical frequencies (or whose sampling rate is NaN) is not
rejected, and no pole and not the gain of the answer is a number.  Any family, any band. -/
theorem C100_nan_edge {L : Lib f} (hL : L.tan nan = nan) (order : ℕ) (ho : order ≠ 0) (wn : List (Ieee f))
    (rp rs : Option (Ieee f)) (b : Design.Band) (ft : Design.FType) (fs : Option (Ieee f)) (q : ZpkI f)
    (h : iirfilter L order wn rp rs (some b) (some ft) none fs = .ok q) (hn : nan ∈ scaled wn fs) :
    q.p = List.replicate (poleCount order b) ⟨nan, nan⟩ ∧ q.k = nan :=
  staged_nan ho h (.inl ⟨hL, hn⟩)

/-- **C100** The request is indeed accepted: NaN as the edge of a low-pass filter. -/
theorem C100_nan_accepted (L : Lib f) (hL : L.tan nan = nan) (order : ℕ) (ho : order ≠ 0) (b : Design.Band)
    (hb : b = .lowpass ∨ b = .highpass) :
    ∃ q, iirfilter L order [nan] none none (some b) (some .butterworth) none none = .ok q ∧
      q.p = List.replicate order ⟨nan, nan⟩ ∧ q.k = nan := by
  obtain ⟨q, h⟩ := (C100_accepts L order [nan] b none).mpr (by
    rcases hb with rfl | rfl <;> exact ⟨nan, rfl, .inl rfl⟩)
  refine ⟨q, h, ?_⟩
  have := C100_nan_edge hL order ho [nan] none none b .butterworth none q h (by simp [scaled])
  rcases hb with rfl | rfl <;> exact this

/-- **C100** An infinite edge is rejected. -/
theorem C100_infinite_edge (L : Lib f) (order : ℕ) (wn : List (Ieee f)) (b : Design.Band) (s : Bool)
    (h : inf s ∈ wn) : ¬ Returns (iirfilter L order wn none none (some b) (some .butterworth) none none) := by
  rw [C100_accepts]
  have hi : ¬ ((inf s : Ieee f) = nan ∨ Inside (inf s : Ieee f)) := by simp [Inside]
  cases b <;> simp only [scaled, not_exists]
  · rintro W ⟨rfl, h1⟩
    rw [List.mem_singleton] at h
    exact hi (h ▸ h1)
  · rintro W ⟨rfl, h1⟩
    rw [List.mem_singleton] at h
    exact hi (h ▸ h1)
  · rintro A B ⟨rfl, h1, h2, -⟩
    simp only [List.mem_cons, List.not_mem_nil, or_false] at h
    rcases h with rfl | rfl
    · exact hi h1
    · exact hi h2
  · rintro A B ⟨rfl, h1, h2, -⟩
    simp only [List.mem_cons, List.not_mem_nil, or_false] at h
    rcases h with rfl | rfl
    · exact hi h1
    · exact hi h2

/-- **C100** Zero is rejected as an edge, but not together with the sampling rate zero: their quotient is NaN. -/
theorem C100_zero_rate (L : Lib f) (hL : L.tan nan = nan) (htop : 0 ≤ f.top) (order : ℕ) (ho : order ≠ 0) :
    ¬ Returns (iirfilter L order [0] none none (some .lowpass) (some .butterworth) none none) ∧
    ∃ q, iirfilter L order [0] none none (some .lowpass) (some .butterworth) none (some 0) = .ok q ∧
      q.p = List.replicate order ⟨nan, nan⟩ ∧ q.k = nan := by
  have hs : scaled [(0 : Ieee f)] (some 0) = [nan] := by
    have h1 : lit f 2 * 0 = fin 0 false := by
      change Ieee.mul (ofReal f 2) (fin 0 false) = fin 0 false
      have h2 : ¬ ((2 : ℝ) < 0) := by norm_num
      simp [Ieee.mul, ofReal, Ieee.sign, pack, f.r.zero, htop.not_gt, h2]
    simp only [scaled, List.map_cons, List.map_nil, h1]
    change [Ieee.div (fin 0 false) (fin 0 false)] = [nan]
    simp [Ieee.div]
  constructor
  · rw [C100_accepts]
    rintro ⟨W, hW, h | ⟨v, s, h, h0, -⟩⟩
    · obtain rfl : (0 : Ieee f) = W := by simpa [scaled] using hW
      change (fin 0 false : Ieee f) = _ at h
      cases h
    · obtain rfl : (0 : Ieee f) = W := by simpa [scaled] using hW
      change (fin 0 false : Ieee f) = _ at h
      injection h with h1
      exact absurd h1 h0.ne
  · obtain ⟨q, h⟩ := (C100_accepts L order [0] .lowpass (some 0)).mpr ⟨nan, hs, .inl rfl⟩
    exact ⟨q, h, C100_nan_edge hL order ho [0] none none .lowpass .butterworth (some 0) q h (by simp [hs])⟩

theorem inf_mul_bad (s : Bool) (a : Ieee f) : ¬ (inf s * a).Finite := fun h => not_finite_inf s (finite_mul h).1

/-- Ripples for which the prototype has no finite pole: NaN, and zero. -/
theorem cheb1_bad {L : Lib f} (hS : Special L) (htop : 0 ≤ f.top) (order : ℕ) (hcast : ∃ v, 0 < v ∧ L.ofInt order = fin v false)
    (ho : order ≠ 0) (rp : Ieee f) (hrp : rp = nan ∨ ∃ s, rp = fin 0 s) :
    ∀ a ∈ (cheb1ap L order rp).p, Bad a := by
  obtain ⟨v, hv, hcast⟩ := hcast
  have hneg : ∀ a : Ieee f, ¬ a.Finite → ¬ (-a).Finite := fun a h => by
    change ¬ (negate a).Finite
    simpa using h
  have key : ∀ mu : Ieee f, (mu = nan ∨ mu = inf false) → ∀ θ, Bad (csinh L ⟨mu, θ⟩).neg := by
    rintro mu (rfl | rfl) θ
    · simp only [Bad, Cx.neg, csinh, hS.sinh_nan, hS.cosh_nan, nan_mul]
      exact ⟨hneg _ not_finite_nan, hneg _ not_finite_nan⟩
    · simp only [Bad, Cx.neg, csinh, hS.sinh_inf, hS.cosh_inf]
      exact ⟨hneg _ (inf_mul_bad _ _), hneg _ (inf_mul_bad _ _)⟩
  have hmu : ∀ eps : Ieee f, eps = nan ∨ eps = fin 0 false →
      (L.asinh (1 / eps) / L.ofInt order = nan ∨ L.asinh (1 / eps) / L.ofInt order = inf false) := by
    rintro eps (rfl | rfl)
    · left
      rw [div_nan, hS.asinh_nan, nan_div]
    · right
      have : (1 : Ieee f) / fin 0 false = inf false := by
        change Ieee.div (fin 1 false) (fin 0 false) = inf false
        simp [Ieee.div, Ieee.sign]
      rw [this, hS.asinh_inf, hcast]
      change Ieee.div (inf false) (fin v false) = inf false
      simp [Ieee.div, Ieee.sign, hv.ne', hv.le]
  intro a ha
  simp only [cheb1ap, if_neg ho] at ha
  obtain ⟨m, hm, rfl⟩ := List.mem_map.mp ha
  refine key _ (hmu _ ?_) _
  rcases hrp with rfl | ⟨s, rfl⟩
  · left
    rw [nan_div, hS.powf_nan, nan_sub]
    rfl
  · right
    have hp0 : ∀ t, pack f 0 t = fin 0 t := fun t => by
      simp [pack, f.r.zero, htop.not_gt]
    have e1 : (fin 0 s : Ieee f) / lit f 10 = fin 0 s := by
      change Ieee.div (fin 0 s) (ofReal f 10) = fin 0 s
      have h10 : ¬ ((10 : ℝ) < 0) := by norm_num
      simp [Ieee.div, ofReal, Ieee.sign, hp0, h10]
    rw [e1, hS.powf_zero]
    have e2 : (1 : Ieee f) - 1 = fin 0 false := by
      change Ieee.add (fin 1 false) (negate (fin 1 false)) = fin 0 false
      simp [Ieee.add, negate, hp0]
    rw [e2]
    simp [Ieee.sqrt]

/-- **C100** A Chebyshev I design whose ripple is NaN, or zero, is not rejected either (the message of the check
says that the ripple must be positive), and the answer has no pole that is a number. -/
theorem C100_ripple {L : Lib f} (hS : Special L) (htop : 0 ≤ f.top) (order : ℕ) (ho : order ≠ 0)
    (hcast : ∃ v, 0 < v ∧ L.ofInt order = fin v false) (wn : List (Ieee f)) (b : Design.Band) (fs : Option (Ieee f))
    (rp : Ieee f) (hrp : rp = nan ∨ ∃ s, rp = fin 0 s) :
    (Returns (iirfilter L order wn (some rp) none (some b) (some .chebyshevI) none fs) ↔
      Returns (iirfilter L order wn none none (some b) (some .butterworth) none fs)) ∧
    ∀ q, iirfilter L order wn (some rp) none (some b) (some .chebyshevI) none fs = .ok q →
      q.p = List.replicate (poleCount order b) ⟨nan, nan⟩ ∧ q.k = nan := by
  have hlt : ¬ rp < 0 := by
    rintro ⟨x, y, hx, hy, h⟩
    rcases hrp with rfl | ⟨s, rfl⟩
    · cases hx
    · obtain rfl : ((0 : ℝ) : EReal) = x := Option.some.inj hx
      obtain rfl : ((0 : ℝ) : EReal) = y := Option.some.inj hy
      exact lt_irrefl _ h
  have hck : Checked wn (some rp) none fs ↔ Checked wn none none fs := by
    simp [Checked, hlt]
  refine ⟨?_, fun q h => staged_nan ho h (.inr fun q0 h0 => ?_)⟩
  · rw [returns_iff (q0 := cheb1ap L order rp) rfl, returns_iff (q0 := buttap L order) rfl, hck]
  · obtain rfl : cheb1ap L order rp = q0 := by simpa [prototype] using h0
    exact cheb1_bad hS htop order hcast ho rp hrp

/-- A library with these properties: the real functions, correctly rounded, and the limits at infinity. -/
noncomputable def sampleLib (f : Format) : Lib f where
  eps := ofReal f f.r.u
  pi := pack f Real.pi false
  ofInt m := ofReal f m
  powi a _ := a
  powf _ b := match b with | nan => nan | inf s => if s then 0 else inf false | fin v _ => pack f (10 ^ v) false
  sin a := match a with | nan => nan | inf _ => nan | fin v s => pack f (Real.sin v) s
  cos a := match a with | nan => nan | inf _ => nan | fin v s => pack f (Real.cos v) s
  tan a := match a with | nan => nan | inf _ => nan | fin v s => pack f (Real.tan v) s
  sinh a := match a with | nan => nan | inf s => inf s | fin v s => pack f (Real.sinh v) s
  cosh a := match a with | nan => nan | inf _ => inf false | fin v _ => pack f (Real.cosh v) false
  asinh a := match a with | nan => nan | inf s => inf s | fin v s => pack f (Real.arsinh v) s
  cexp a := a
  csqrt a := a
  cabs a := a.re
  cpowi2 a := a

/-- The hypotheses can be met: a fourth-order request at a NaN frequency, and one with no ripple. -/
example (hf : 1 ≤ f.top) (h1 : f.r.rnd 1 = 1) :
    (∃ q, iirfilter (sampleLib f) 4 [nan] none none (some .lowpass) (some .butterworth) none none = .ok q ∧
      q.p = List.replicate 4 ⟨nan, nan⟩ ∧ q.k = nan) ∧
    (∃ q, iirfilter (sampleLib f) 4 [ofReal f (1 / 2)] (some 0) none (some .lowpass) (some .chebyshevI) none none =
      .ok q ∧ q.p = List.replicate 4 ⟨nan, nan⟩ ∧ q.k = nan) := by
  refine ⟨C100_nan_accepted (sampleLib f) rfl 4 (by simp) .lowpass (.inl rfl), ?_⟩
  have hS : Special (sampleLib f) := by
    refine ⟨rfl, fun s => ?_, rfl, rfl, rfl, rfl, rfl, rfl⟩
    change pack f (10 ^ (0 : ℝ)) false = fin 1 false
    simp [pack, h1, hf.not_gt]
  obtain ⟨hr, hq⟩ := C100_ripple hS (by linarith) 4 (by simp)
    ⟨4, by norm_num, by simp [sampleLib, ofReal]⟩ [ofReal f (1 / 2)] .lowpass none 0 (.inr ⟨false, rfl⟩)
  obtain ⟨q, h⟩ := hr.mpr ((C100_accepts _ _ _ _ _).mpr
    ⟨_, rfl, .inr ⟨_, _, rfl, by norm_num, by norm_num⟩⟩)
  exact ⟨q, h, hq q h⟩

end SciRs.Props

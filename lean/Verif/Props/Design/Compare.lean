import Verif.Spec.PassBand
import Verif.Props.Design.EndToEnd
import Mathlib.Analysis.SpecialFunctions.Trigonometric.Chebyshev.RootsExtrema

/-!
# C116: comparing designs

What a user relies on when choosing order, ripple, edges and family.
-/

namespace SciRs.Props

open SciRs SciRs.Design SciRs.Spec Complex Polynomial

/-! ### Powers of the prototypes -/

theorem cheb_step (n : ℕ) (x : ℝ) :
    (Chebyshev.T ℝ ((n + 2 : ℕ) : ℤ)).eval x =
      2 * x * (Chebyshev.T ℝ ((n + 1 : ℕ) : ℤ)).eval x - (Chebyshev.T ℝ (n : ℤ)).eval x := by
  have := Chebyshev.T_add_two ℝ (n : ℤ)
  push_cast
  rw [this]
  simp

theorem cheb_ge_one (n : ℕ) {x : ℝ} (hx : 1 ≤ x) : 1 ≤ (Chebyshev.T ℝ (n : ℤ)).eval x :=
  Chebyshev.one_le_eval_T_real n hx

theorem cheb_growth (n : ℕ) {x : ℝ} (hx : 1 ≤ x) :
    x * (Chebyshev.T ℝ (n : ℤ)).eval x ≤ (Chebyshev.T ℝ ((n + 1 : ℕ) : ℤ)).eval x := by
  induction n with
  | zero => simp
  | succ n ih =>
    rw [show n + 1 + 1 = n + 2 from rfl, cheb_step]
    have h0 := cheb_ge_one n hx
    have h1 := cheb_ge_one (n + 1) hx
    nlinarith

theorem cheb_mono_order {N M : ℕ} (h : N ≤ M) {x : ℝ} (hx : 1 ≤ x) :
    (Chebyshev.T ℝ (N : ℤ)).eval x ≤ (Chebyshev.T ℝ (M : ℤ)).eval x := by
  induction M, h using Nat.le_induction with
  | base => exact le_rfl
  | succ M _ ih =>
    have h1 := cheb_growth M hx
    have h2 := cheb_ge_one M hx
    nlinarith

theorem cheb_ge_pow (N : ℕ) {x : ℝ} (hx : 1 ≤ x) : x ^ N ≤ (Chebyshev.T ℝ (N : ℤ)).eval x := by
  induction N with
  | zero => simp
  | succ N ih =>
    rw [pow_succ, mul_comm]
    exact (mul_le_mul_of_nonneg_left ih (by linarith)).trans (cheb_growth N hx)

theorem cheb_mono (N : ℕ) {x y : ℝ} (hx : 1 ≤ x) (hxy : x ≤ y) :
    (Chebyshev.T ℝ (N : ℤ)).eval x ≤ (Chebyshev.T ℝ (N : ℤ)).eval y := by
  have hy : 1 ≤ y := hx.trans hxy
  have key : (Chebyshev.T ℝ (N : ℤ)).eval x ≤ (Chebyshev.T ℝ (N : ℤ)).eval y ∧
      (Chebyshev.T ℝ ((N + 1 : ℕ) : ℤ)).eval x * (Chebyshev.T ℝ (N : ℤ)).eval y ≤
        (Chebyshev.T ℝ ((N + 1 : ℕ) : ℤ)).eval y * (Chebyshev.T ℝ (N : ℤ)).eval x := by
    induction N with
    | zero => simpa using hxy
    | succ N ih =>
      obtain ⟨i1, i2⟩ := ih
      have a := cheb_ge_one N hx
      have b := cheb_ge_one N hy
      have c := cheb_ge_one (N + 1) hx
      have d := cheb_ge_one (N + 1) hy
      constructor
      · have : (Chebyshev.T ℝ ((N + 1 : ℕ) : ℤ)).eval x * (Chebyshev.T ℝ (N : ℤ)).eval y ≤
            (Chebyshev.T ℝ ((N + 1 : ℕ) : ℤ)).eval y * (Chebyshev.T ℝ (N : ℤ)).eval y :=
          i2.trans (mul_le_mul_of_nonneg_left i1 (by linarith))
        exact le_of_mul_le_mul_right this (by linarith)
      · rw [show N + 1 + 1 = N + 2 from rfl, cheb_step, cheb_step]
        have : (0 : ℝ) ≤ (y - x) * ((Chebyshev.T ℝ ((N + 1 : ℕ) : ℤ)).eval x * (Chebyshev.T ℝ ((N + 1 : ℕ) : ℤ)).eval y) :=
          mul_nonneg (by linarith) (mul_nonneg (by linarith) (by linarith))
        nlinarith
  exact key.1

theorem cheb_abs_sq (N : ℕ) (v : ℝ) :
    ((Chebyshev.T ℝ (N : ℤ)).eval v) ^ 2 = ((Chebyshev.T ℝ (N : ℤ)).eval |v|) ^ 2 := by
  rcases abs_choice v with h | h <;> rw [h]
  exact (T_neg_sq N v).symm

theorem ripple_nonneg {rp : ℝ} (h : 0 ≤ rp) : 0 ≤ (10 : ℝ) ^ (rp / 10) - 1 :=
  sub_nonneg.mpr (Real.one_le_rpow (by norm_num) (by positivity))

theorem power_le {a b : ℝ} (ha : 0 ≤ a) (hab : a ≤ b) : 1 / (1 + b) ≤ 1 / (1 + a) :=
  one_div_le_one_div_of_le (by linarith) (by linarith)

/-- Butterworth or Chebyshev I with a positive ripple. -/
def Usual (ftype : FType) (rp : Option ℝ) : Prop :=
  ftype = .butterworth ∨ (ftype = .chebyshevI ∧ ∃ r, rp = some r ∧ 0 < r)

variable {ftype : FType} {rp : Option ℝ}

theorem familyPower_nonneg (h : Usual ftype rp) (N : ℕ) (v : ℝ) : 0 ≤ familyPower ftype N rp v := by
  rcases h with rfl | ⟨rfl, r, rfl, hr⟩
  · have := Even.pow_nonneg (even_two_mul N) v
    simp only [familyPower]
    positivity
  · have := ripple_nonneg hr.le
    simp only [familyPower, cheb1Power, Option.getD_some]
    positivity

theorem familyPower_pass (h : Usual ftype rp) {N : ℕ} (hN : N ≠ 0) (v : ℝ) :
    bandFloor ftype rp ≤ familyPower ftype N rp v ↔ |v| ≤ 1 := by
  rcases h with rfl | ⟨rfl, r, rfl, hr⟩
  · simp only [familyPower, bandFloor]
    have h0 := Even.pow_nonneg (even_two_mul N) v
    rw [one_div_le_one_div (by norm_num) (by linarith)]
    rw [← (even_two_mul N).pow_abs, show (1 : ℝ) + |v| ^ (2 * N) ≤ 2 ↔ |v| ^ (2 * N) ≤ 1 by constructor <;> intro h <;> linarith]
    exact pow_le_one_iff_of_nonneg (abs_nonneg v) (by omega)
  · simp only [familyPower, bandFloor, cheb1Power, Option.getD_some]
    have h0 := ripple_nonneg hr.le
    have h1 : 0 < (10 : ℝ) ^ (r / 10) - 1 := sub_pos.mpr (Real.one_lt_rpow (by norm_num) (by positivity))
    rw [one_div_le_one_div (by linarith) (by positivity), Chebyshev.abs_eval_T_real_le_one_iff
      (n := (N : ℤ)) (by exact_mod_cast hN) v, ← sq_le_one_iff_abs_le_one]
    constructor
    · intro h
      by_contra hcon
      rw [not_le] at hcon
      nlinarith
    · intro h
      nlinarith

theorem familyPower_stop (h : Usual ftype rp) (N : ℕ) {v w : ℝ} (hv : 1 ≤ |v|) (hvw : |v| ≤ |w|) :
    familyPower ftype N rp w ≤ familyPower ftype N rp v := by
  rcases h with rfl | ⟨rfl, r, rfl, hr⟩
  · simp only [familyPower]
    refine power_le (Even.pow_nonneg (even_two_mul N) v) ?_
    rw [← (even_two_mul N).pow_abs, ← (even_two_mul N).pow_abs w]
    exact pow_le_pow_left₀ (abs_nonneg v) hvw _
  · simp only [familyPower, cheb1Power, Option.getD_some]
    have h0 := ripple_nonneg hr.le
    refine power_le (by positivity) (mul_le_mul_of_nonneg_left ?_ h0)
    rw [cheb_abs_sq, cheb_abs_sq N w]
    have := cheb_mono N hv hvw
    have := cheb_ge_one N hv
    exact pow_le_pow_left₀ (by linarith) (by linarith) 2

theorem familyPower_order (h : Usual ftype rp) {N M : ℕ} (hNM : N ≤ M) {v : ℝ} (hv : 1 ≤ |v|) :
    familyPower ftype M rp v ≤ familyPower ftype N rp v := by
  rcases h with rfl | ⟨rfl, r, rfl, hr⟩
  · simp only [familyPower]
    refine power_le (Even.pow_nonneg (even_two_mul N) v) ?_
    rw [← (even_two_mul N).pow_abs, ← (even_two_mul M).pow_abs]
    exact pow_le_pow_right₀ hv (by omega)
  · simp only [familyPower, cheb1Power, Option.getD_some]
    have h0 := ripple_nonneg hr.le
    refine power_le (by positivity) (mul_le_mul_of_nonneg_left ?_ h0)
    rw [cheb_abs_sq, cheb_abs_sq M]
    have := cheb_mono_order hNM hv
    have := cheb_ge_one N hv
    exact pow_le_pow_left₀ (by linarith) (by linarith) 2

/-! ### The frequency of the prototype -/

theorem tan_half_abs (ω : ℝ) : |Real.tan (ω / 2)| = Real.tan (|ω| / 2) ∨ Real.pi ≤ |ω| := by
  by_cases h : Real.pi ≤ |ω|
  · exact .inr h
  · left
    have hpi := Real.pi_pos
    have h0 : 0 ≤ Real.tan (|ω| / 2) := Real.tan_nonneg_of_nonneg_of_le_pi_div_two (by positivity) (by linarith)
    rcases abs_choice ω with h' | h'
    · rw [h'] at h0 ⊢
      rw [abs_of_nonneg h0]
    · rw [h', neg_div, Real.tan_neg] at h0 ⊢
      rw [abs_of_nonpos (by linarith)]

/-- The pre-warped frequency, without its sign. -/
noncomputable def warpedAbs (ω : ℝ) : ℝ := Real.tan (|ω| / 2)

theorem warpedAbs_le_iff {ω W : ℝ} (hω : |ω| < Real.pi) (h0 : 0 < W) (h1 : W < 1) :
    (warpedAbs ω ≤ Real.tan (Real.pi * W / 2) ↔ |ω| ≤ Real.pi * W) ∧
    (Real.tan (Real.pi * W / 2) ≤ warpedAbs ω ↔ Real.pi * W ≤ |ω|) := by
  have hpi := Real.pi_pos
  have m := Real.strictMonoOn_tan
  have a1 : |ω| / 2 ∈ Set.Ioo (-(Real.pi / 2)) (Real.pi / 2) := ⟨by have := abs_nonneg ω; linarith, by linarith⟩
  have a3 : 0 < Real.pi * W := by positivity
  have a2 : Real.pi * W / 2 ∈ Set.Ioo (-(Real.pi / 2)) (Real.pi / 2) := ⟨by linarith, by nlinarith⟩
  unfold warpedAbs
  rw [m.le_iff_le a1 a2, m.le_iff_le a2 a1]
  constructor <;> constructor <;> intro h <;> linarith

theorem tan_sq_eq {ω : ℝ} (hω : |ω| < Real.pi) : Real.tan (ω / 2) ^ 2 = warpedAbs ω ^ 2 := by
  rcases tan_half_abs ω with h | h
  · rw [warpedAbs, ← h, sq_abs]
  · linarith

theorem warpedAbs_nonneg {ω : ℝ} (hω : |ω| < Real.pi) : 0 ≤ warpedAbs ω :=
  Real.tan_nonneg_of_nonneg_of_le_pi_div_two (by positivity) (by linarith)

theorem abs_tan {ω : ℝ} (hω : |ω| < Real.pi) : |Real.tan (ω / 2)| = warpedAbs ω := by
  rcases tan_half_abs ω with h | h
  · exact h
  · linarith

theorem warpedAbs_pos {ω : ℝ} (hω : |ω| < Real.pi) (h0 : ω ≠ 0) : 0 < warpedAbs ω :=
  Real.tan_pos_of_pos_of_lt_pi_div_two (by have := abs_pos.mpr h0; linarith) (by linarith)

theorem warpedAbs_eq_zero {ω : ℝ} (hω : |ω| < Real.pi) : warpedAbs ω = 0 ↔ ω = 0 := by
  constructor
  · intro h
    by_contra hne
    exact (warpedAbs_pos hω hne).ne' h
  · rintro rfl
    simp [warpedAbs]

/-- Every frequency is that of a frequency of the prototype, in the pass band exactly if that is at most 1; or nothing
passes. -/
theorem designPower_cases {band : Band} {e : List ℝ} (he : EdgesOk band e) (h1 : ∀ W ∈ e, W < 1) {ω : ℝ}
    (hω : |ω| < Real.pi) :
    (∃ v, (∀ P, designPower P band e ω = P v) ∧ (InBand band e ω ↔ |v| ≤ 1)) ∨
      ((∀ P, designPower P band e ω = 0) ∧ ¬ InBand band e ω) := by
  have ht := warpedAbs_nonneg hω
  have hta := abs_tan hω
  match band, e, he with
  | .lowpass, [W], he =>
    have hW : W < 1 := h1 W (by simp)
    have hT := tan_pos_of he hW
    refine .inl ⟨_, fun P => rfl, ?_⟩
    rw [abs_div, hta, abs_of_pos hT, div_le_one hT, (warpedAbs_le_iff hω he hW).1]
    rfl
  | .highpass, [W], he =>
    have hW : W < 1 := h1 W (by simp)
    have hT := tan_pos_of he hW
    by_cases h0 : ω = 0
    · refine .inr ⟨fun P => if_pos h0, ?_⟩
      subst h0
      simp only [InBand, abs_zero, not_le]
      exact mul_pos Real.pi_pos he
    · refine .inl ⟨_, fun P => if_neg h0, ?_⟩
      rw [abs_div, hta, abs_of_pos hT, div_le_one (warpedAbs_pos hω h0), (warpedAbs_le_iff hω he hW).2]
      rfl
  | .bandpass, [A, B], he =>
    have hA : A < 1 := h1 A (by simp)
    have hB : B < 1 := h1 B (by simp)
    have hTA := tan_pos_of he.1 hA
    have hTT := tan_lt_of he.1 he.2 hB
    by_cases h0 : ω = 0
    · refine .inr ⟨fun P => if_pos h0, ?_⟩
      subst h0
      simp only [InBand, abs_zero, not_and_or, not_le]
      exact .inl (mul_pos Real.pi_pos he.1)
    · refine .inl ⟨_, fun P => if_neg h0, ?_⟩
      have hp := warpedAbs_pos hω h0
      rw [abs_div, abs_mul, hta, tan_sq_eq hω, abs_of_pos (sub_pos.mpr hTT),
        div_le_one (mul_pos hp (sub_pos.mpr hTT))]
      show _ ∧ _ ↔ |warpedAbs ω ^ 2 - Real.tan (Real.pi * A / 2) * Real.tan (Real.pi * B / 2)| ≤ _
      rw [← (warpedAbs_le_iff hω he.1 hA).2, ← (warpedAbs_le_iff hω (he.1.trans he.2) hB).1, abs_le]
      generalize warpedAbs ω = t at *
      generalize Real.tan (Real.pi * A / 2) = a at *
      generalize Real.tan (Real.pi * B / 2) = b at *
      constructor
      · rintro ⟨ha, hb⟩
        constructor <;> nlinarith
      · rintro ⟨ha, hb⟩
        constructor
        · by_contra hcon
          nlinarith
        · by_contra hcon
          nlinarith
  | .bandstop, [A, B], he =>
    have hA : A < 1 := h1 A (by simp)
    have hB : B < 1 := h1 B (by simp)
    have hTA := tan_pos_of he.1 hA
    have hTT := tan_lt_of he.1 he.2 hB
    have hin : InBand .bandstop [A, B] ω ↔ warpedAbs ω ≤ Real.tan (Real.pi * A / 2) ∨
        Real.tan (Real.pi * B / 2) ≤ warpedAbs ω := by
      rw [(warpedAbs_le_iff hω he.1 hA).1, (warpedAbs_le_iff hω (he.1.trans he.2) hB).2]
      rfl
    by_cases h0 : Real.tan (ω / 2) ^ 2 = Real.tan (Real.pi * A / 2) * Real.tan (Real.pi * B / 2)
    · refine .inr ⟨fun P => if_pos h0, ?_⟩
      rw [hin]
      rw [tan_sq_eq hω] at h0
      generalize warpedAbs ω = t at *
      generalize Real.tan (Real.pi * A / 2) = a at *
      generalize Real.tan (Real.pi * B / 2) = b at *
      rintro (h | h) <;> nlinarith
    · refine .inl ⟨_, fun P => if_neg h0, ?_⟩
      rw [tan_sq_eq hω] at h0
      have hne : Real.tan (Real.pi * A / 2) * Real.tan (Real.pi * B / 2) - warpedAbs ω ^ 2 ≠ 0 :=
        sub_ne_zero.mpr (Ne.symm h0)
      rw [hin, abs_div, abs_mul, hta, tan_sq_eq hω, abs_of_pos (sub_pos.mpr hTT), div_le_one (abs_pos.mpr hne),
        le_abs]
      generalize warpedAbs ω = t at *
      generalize Real.tan (Real.pi * A / 2) = a at *
      generalize Real.tan (Real.pi * B / 2) = b at *
      constructor
      · rintro (h | h)
        · left; nlinarith
        · right; nlinarith
      · rintro (h | h)
        · left
          by_contra hcon
          nlinarith
        · right
          by_contra hcon
          nlinarith

/-! ### Designs -/

section designs

variable (eps : ℝ) (s : Sorts)

theorem usual_of_valid {wn : List ℝ} {rs fs : Option ℝ} {band : Band}
    (hv : ValidRequest wn rp rs band ftype false fs) (hr : PositiveRipple ftype rp rs)
    (hft : ftype = .butterworth ∨ ftype = .chebyshevI) : Usual ftype rp := by
  rcases hft with rfl | rfl
  · exact .inl rfl
  · rcases hv.family with h | ⟨-, h⟩ | ⟨h, -⟩
    · cases h
    · obtain ⟨r, rfl⟩ := Option.isSome_iff_exists.mp h
      exact .inr ⟨rfl, r, rfl, hr.1 rfl r rfl⟩
    · cases h

/-- The power of a design, as C85 says. -/
theorem design_power {N : ℕ} (hN : N ≠ 0) {wn : List ℝ} {rs fs : Option ℝ} {band : Band}
    (hv : ValidRequest wn rp rs band ftype false fs) (hr : PositiveRipple ftype rp rs)
    (hft : ftype = .butterworth ∨ ftype = .chebyshevI) {d : Zpk}
    (hd : iirfilter eps s N wn rp rs (some band) (some ftype) none (some .zpk) fs = .ok (.zpk d)) {ω : ℝ}
    (hω : |ω| < Real.pi) :
    ‖d.eval (exp (I * ω))‖ ^ 2 = designPower (familyPower ftype N rp) band (edges wn fs) ω := by
  obtain ⟨d', hd', -, -, h⟩ := C85_response eps s N hN wn rp rs (some band) (some ftype) none (.inl rfl) fs hv hr hft
  rw [hd] at hd'
  cases hd'
  exact h ω hω

/-- **C116** A Butterworth filter passes at least half the power exactly inside its pass band, a Chebyshev I filter
with ripple `rp` at least `10^(-rp/10)` exactly inside its pass band: for all four bands. -/
theorem C116_pass_band (N : ℕ) (hN : N ≠ 0) (wn : List ℝ) (rs fs : Option ℝ) (band : Band)
    (hv : ValidRequest wn rp rs band ftype false fs) (hr : PositiveRipple ftype rp rs)
    (hft : ftype = .butterworth ∨ ftype = .chebyshevI) (d : Zpk)
    (hd : iirfilter eps s N wn rp rs (some band) (some ftype) none (some .zpk) fs = .ok (.zpk d)) (ω : ℝ)
    (hω : |ω| < Real.pi) :
    bandFloor ftype rp ≤ ‖d.eval (exp (I * ω))‖ ^ 2 ↔ InBand band (edges wn fs) ω := by
  have hu := usual_of_valid hv hr hft
  rw [design_power eps s hN hv hr hft hd hω]
  rcases designPower_cases (edgesOk_of_valid hv) (hv.nyquist rfl) hω with ⟨v, hP, hin⟩ | ⟨hP, hin⟩
  · rw [hP, hin, familyPower_pass hu hN]
  · rw [hP]
    refine ⟨fun h => ?_, fun h => absurd h hin⟩
    exfalso
    have : 0 < bandFloor ftype rp := by
      rcases hu with rfl | ⟨rfl, r, rfl, -⟩ <;> simp only [bandFloor] <;> positivity
    linarith

theorem le_of_sq {a b : ℂ} (h : ‖a‖ ^ 2 ≤ ‖b‖ ^ 2) : ‖a‖ ≤ ‖b‖ :=
  (sq_le_sq₀ (norm_nonneg a) (norm_nonneg b)).mp h

/-- **C116** A higher order attenuates more outside the pass band, in both families; inside the pass band the
Butterworth filter of higher order attenuates less. -/
theorem C116_order (N M : ℕ) (hN : N ≠ 0) (hNM : N ≤ M) (wn : List ℝ) (rs fs : Option ℝ) (band : Band)
    (hv : ValidRequest wn rp rs band ftype false fs) (hr : PositiveRipple ftype rp rs)
    (hft : ftype = .butterworth ∨ ftype = .chebyshevI) (d d' : Zpk)
    (hd : iirfilter eps s N wn rp rs (some band) (some ftype) none (some .zpk) fs = .ok (.zpk d))
    (hd' : iirfilter eps s M wn rp rs (some band) (some ftype) none (some .zpk) fs = .ok (.zpk d')) (ω : ℝ)
    (hω : |ω| < Real.pi) :
    (¬ InBand band (edges wn fs) ω → ‖d'.eval (exp (I * ω))‖ ≤ ‖d.eval (exp (I * ω))‖) ∧
    (InBand band (edges wn fs) ω → ftype = .butterworth → ‖d.eval (exp (I * ω))‖ ≤ ‖d'.eval (exp (I * ω))‖) := by
  have hu := usual_of_valid hv hr hft
  have e := design_power eps s hN hv hr hft hd hω
  have e' := design_power eps s (by omega) hv hr hft hd' hω
  rcases designPower_cases (edgesOk_of_valid hv) (hv.nyquist rfl) hω with ⟨v, hP, hin⟩ | ⟨hP, hin⟩
  · rw [hP] at e e'
    rw [hin]
    refine ⟨fun h => le_of_sq ?_, fun h hb => le_of_sq ?_⟩
    · rw [e, e']
      exact familyPower_order hu hNM (not_le.mp h).le
    · rw [e, e']
      subst hb
      simp only [familyPower]
      refine power_le (Even.pow_nonneg (even_two_mul M) v) ?_
      rw [← (even_two_mul N).pow_abs, ← (even_two_mul M).pow_abs]
      exact pow_le_pow_of_le_one (abs_nonneg v) h (by omega)
  · rw [hP] at e e'
    exact ⟨fun _ => le_of_sq (by rw [e, e']), fun h => absurd h hin⟩

/-- **C116** A larger ripple attenuates more, at every frequency. -/
theorem C116_ripple (N : ℕ) (hN : N ≠ 0) (r r' : ℝ) (hr : 0 < r) (hrr : r ≤ r') (wn : List ℝ) (fs : Option ℝ) (band : Band)
    (hv : ValidRequest wn (some r) none band .chebyshevI false fs) (d d' : Zpk)
    (hd : iirfilter eps s N wn (some r) none (some band) (some .chebyshevI) none (some .zpk) fs = .ok (.zpk d))
    (hd' : iirfilter eps s N wn (some r') none (some band) (some .chebyshevI) none (some .zpk) fs = .ok (.zpk d'))
    (ω : ℝ) (hω : |ω| < Real.pi) : ‖d'.eval (exp (I * ω))‖ ≤ ‖d.eval (exp (I * ω))‖ := by
  have hv' : ValidRequest wn (some r') none band .chebyshevI false fs :=
    ⟨hv.count, hv.positive, hv.increasing, hv.nyquist, hv.fs_digital, fun x hx => by cases hx; linarith, by simp,
      .inr (.inl ⟨rfl, rfl⟩)⟩
  have e := design_power eps s hN hv ⟨fun _ x hx => by cases hx; exact hr, by simp⟩ (.inr rfl) hd hω
  have e' := design_power eps s hN hv' ⟨fun _ x hx => by cases hx; linarith, by simp⟩ (.inr rfl) hd' hω
  refine le_of_sq ?_
  rw [e, e']
  rcases designPower_cases (edgesOk_of_valid hv) (hv.nyquist rfl) hω with ⟨v, hP, -⟩ | ⟨hP, -⟩
  · rw [hP, hP]
    simp only [familyPower, cheb1Power, Option.getD_some]
    have h0 := ripple_nonneg hr.le
    refine power_le (by positivity) (mul_le_mul_of_nonneg_right ?_ (sq_nonneg _))
    have : (10 : ℝ) ^ (r / 10) ≤ (10 : ℝ) ^ (r' / 10) := Real.rpow_le_rpow_of_exponent_le (by norm_num) (by linarith)
    linarith
  · rw [hP, hP]

/-- **C116** Outside the pass band a Chebyshev I filter with a ripple of at least `10 log₁₀ 2 ≈ 3.01` decibels
attenuates at least as much as the Butterworth filter of the same order and edges. -/
theorem C116_chebyshev_steeper (N : ℕ) (hN : N ≠ 0) (r : ℝ) (hr : 2 ≤ (10 : ℝ) ^ (r / 10)) (wn : List ℝ) (fs : Option ℝ)
    (band : Band) (hv : ValidRequest wn (some r) none band .chebyshevI false fs) (d d' : Zpk)
    (hd : iirfilter eps s N wn none none (some band) (some .butterworth) none (some .zpk) fs = .ok (.zpk d))
    (hd' : iirfilter eps s N wn (some r) none (some band) (some .chebyshevI) none (some .zpk) fs = .ok (.zpk d'))
    (ω : ℝ) (hω : |ω| < Real.pi) (hout : ¬ InBand band (edges wn fs) ω) :
    ‖d'.eval (exp (I * ω))‖ ≤ ‖d.eval (exp (I * ω))‖ := by
  have hr0 : 0 < r := by
    by_contra h
    have : (10 : ℝ) ^ (r / 10) ≤ 1 := Real.rpow_le_one_of_one_le_of_nonpos (by norm_num) (by linarith)
    linarith
  have hvb : ValidRequest wn none none band .butterworth false fs :=
    ⟨hv.count, hv.positive, hv.increasing, hv.nyquist, hv.fs_digital, by simp, by simp, .inl rfl⟩
  have e := design_power eps s hN hvb ⟨by simp, by simp⟩ (.inl rfl) hd hω
  have e' := design_power eps s hN hv ⟨fun _ x hx => by cases hx; exact hr0, by simp⟩ (.inr rfl) hd' hω
  refine le_of_sq ?_
  rw [e, e']
  rcases designPower_cases (edgesOk_of_valid hv) (hv.nyquist rfl) hω with ⟨v, hP, hin⟩ | ⟨hP, -⟩
  · rw [hP, hP]
    simp only [familyPower, cheb1Power, Option.getD_some]
    have hv1 : 1 ≤ |v| := (not_le.mp (mt hin.mpr hout)).le
    refine power_le (Even.pow_nonneg (even_two_mul N) v) ?_
    rw [cheb_abs_sq, ← (even_two_mul N).pow_abs, mul_comm 2 N, pow_mul]
    have h1 := cheb_ge_pow N hv1
    have h2 : (|v| ^ N) ^ 2 ≤ ((Chebyshev.T ℝ (N : ℤ)).eval |v|) ^ 2 := pow_le_pow_left₀ (by positivity) h1 2
    nlinarith [sq_nonneg ((Chebyshev.T ℝ (N : ℤ)).eval |v|)]
  · rw [hP, hP]

/-- **C116** Moving the edge of a Butterworth low-pass filter up passes more at every frequency, moving that of a
high-pass filter down too. -/
theorem C116_cutoff (N : ℕ) (hN : N ≠ 0) (w w' W W' : ℝ) (fs : Option ℝ) (hW : edges [w] fs = [W])
    (hW' : edges [w'] fs = [W']) (h0 : 0 < W) (hle : W ≤ W') (h1 : W' < 1) (ω : ℝ) (hω : |ω| < Real.pi) :
    (∀ d d', butter eps s N [w] (some .lowpass) none (some .zpk) fs = .ok (.zpk d) →
      butter eps s N [w'] (some .lowpass) none (some .zpk) fs = .ok (.zpk d') →
      ‖d.eval (exp (I * ω))‖ ≤ ‖d'.eval (exp (I * ω))‖) ∧
    (∀ d d', butter eps s N [w] (some .highpass) none (some .zpk) fs = .ok (.zpk d) →
      butter eps s N [w'] (some .highpass) none (some .zpk) fs = .ok (.zpk d') →
      ‖d'.eval (exp (I * ω))‖ ≤ ‖d.eval (exp (I * ω))‖) := by
  have hT := tan_pos_of h0 (by linarith)
  have hTT : Real.tan (Real.pi * W / 2) ≤ Real.tan (Real.pi * W' / 2) := by
    rcases hle.eq_or_lt with h | h
    · rw [h]
    · exact (tan_lt_of h0 h h1).le
  refine ⟨fun d d' hd hd' => le_of_sq ?_, fun d d' hd hd' => ?_⟩
  · obtain ⟨x, hx, -, e, -⟩ := C56_response eps s N hN w W fs (some .lowpass) (.inr rfl) none (.inl rfl) hW h0 (by linarith)
    obtain ⟨x', hx', -, e', -⟩ := C56_response eps s N hN w' W' fs (some .lowpass) (.inr rfl) none (.inl rfl) hW'
      (by linarith) h1
    rw [hd] at hx
    rw [hd'] at hx'
    cases hx
    cases hx'
    rw [e ω hω, e' ω hω]
    refine power_le (Even.pow_nonneg (even_two_mul N) _) ?_
    rw [← (even_two_mul N).pow_abs, ← (even_two_mul N).pow_abs (_ / Real.tan (Real.pi * W / 2)), abs_div, abs_div,
      abs_of_pos hT, abs_of_pos (hT.trans_le hTT)]
    exact pow_le_pow_left₀ (div_nonneg (abs_nonneg _) (hT.le.trans hTT)) (div_le_div_of_nonneg_left (abs_nonneg _) hT hTT) _
  · obtain ⟨x, hx, -, e, z, -⟩ := C57_response eps s N hN w W fs none (.inl rfl) hW h0 (by linarith)
    obtain ⟨x', hx', -, e', z', -⟩ := C57_response eps s N hN w' W' fs none (.inl rfl) hW' (by linarith) h1
    rw [hd] at hx
    rw [hd'] at hx'
    cases hx
    cases hx'
    by_cases hz : ω = 0
    · subst hz
      simp [z, z']
    · refine le_of_sq ?_
      have hp := abs_pos.mpr hz
      rw [e ω hp hω, e' ω hp hω]
      refine power_le (Even.pow_nonneg (even_two_mul N) _) ?_
      rw [← (even_two_mul N).pow_abs, ← (even_two_mul N).pow_abs (Real.tan (Real.pi * W' / 2) / _), abs_div, abs_div,
        abs_of_pos hT, abs_of_pos (hT.trans_le hTT)]
      exact pow_le_pow_left₀ (div_nonneg hT.le (abs_nonneg _)) (div_le_div_of_nonneg_right hTT (abs_nonneg _)) _

theorem detune_mono {t a b a' b' : ℝ} (ha' : 0 < a') (haa : a' ≤ a) (hab : a < b) (hbb : b ≤ b') (ht : 0 < t)
    (hout : ¬ (a' ≤ t ∧ t ≤ b')) :
    |(t ^ 2 - a' * b') / (t * (b' - a'))| ≤ |(t ^ 2 - a * b) / (t * (b - a))| := by
  have h1 : 0 < b - a := by linarith
  have h2 : 0 < b' - a' := by linarith
  have h3 : 0 < b' - a := by linarith
  rw [mul_comm t, mul_comm t, ← div_div, ← div_div, abs_div, abs_div _ t]
  refine div_le_div_of_nonneg_right ?_ (abs_nonneg t)
  rw [abs_div, abs_div, abs_of_pos h1, abs_of_pos h2]
  rcases not_and_or.mp hout with h | h <;> rw [not_le] at h
  · have e1 : t ^ 2 - a' * b' < 0 := by nlinarith
    have e2 : t ^ 2 - a * b < 0 := by nlinarith
    have i1 : 0 ≤ (b' - b) * (a ^ 2 - t ^ 2) := mul_nonneg (by linarith) (by nlinarith)
    have i2 : 0 ≤ (a - a') * (b' ^ 2 - t ^ 2) := mul_nonneg (by linarith) (by nlinarith)
    rw [abs_of_neg e1, abs_of_neg e2]
    calc -(t ^ 2 - a' * b') / (b' - a') ≤ -(t ^ 2 - a * b') / (b' - a) := by
          rw [div_le_div_iff₀ h2 h3]; nlinarith
      _ ≤ -(t ^ 2 - a * b) / (b - a) := by
          rw [div_le_div_iff₀ h3 h1]; nlinarith
  · have e1 : 0 < t ^ 2 - a' * b' := by nlinarith
    have e2 : 0 < t ^ 2 - a * b := by nlinarith
    have i1 : 0 ≤ (b' - b) * (t ^ 2 - a ^ 2) := mul_nonneg (by linarith) (by nlinarith)
    have i2 : 0 ≤ (a - a') * (t ^ 2 - b' ^ 2) := mul_nonneg (by linarith) (by nlinarith)
    rw [abs_of_pos e1, abs_of_pos e2]
    calc (t ^ 2 - a' * b') / (b' - a') ≤ (t ^ 2 - a * b') / (b' - a) := by
          rw [div_le_div_iff₀ h2 h3]; nlinarith
      _ ≤ (t ^ 2 - a * b) / (b - a) := by
          rw [div_le_div_iff₀ h3 h1]; nlinarith

/-- **C116** Widening a band-pass filter passes more outside the wider band, in both families. -/
theorem C116_wider (N : ℕ) (hN : N ≠ 0) (wn wn' : List ℝ) (A B A' B' : ℝ) (rs fs : Option ℝ) (hW : edges wn fs = [A, B])
    (hW' : edges wn' fs = [A', B']) (hA : A' ≤ A) (hB : B ≤ B')
    (hv : ValidRequest wn rp rs .bandpass ftype false fs) (hv' : ValidRequest wn' rp rs .bandpass ftype false fs)
    (hr : PositiveRipple ftype rp rs) (hft : ftype = .butterworth ∨ ftype = .chebyshevI) (d d' : Zpk)
    (hd : iirfilter eps s N wn rp rs (some .bandpass) (some ftype) none (some .zpk) fs = .ok (.zpk d))
    (hd' : iirfilter eps s N wn' rp rs (some .bandpass) (some ftype) none (some .zpk) fs = .ok (.zpk d')) (ω : ℝ)
    (hω : |ω| < Real.pi) (hout : ¬ InBand .bandpass [A', B'] ω) :
    ‖d.eval (exp (I * ω))‖ ≤ ‖d'.eval (exp (I * ω))‖ := by
  have hu := usual_of_valid hv hr hft
  have ho := edgesOk_of_valid hv
  have ho' := edgesOk_of_valid hv'
  have hn := hv.nyquist rfl
  have hn' := hv'.nyquist rfl
  rw [hW] at ho hn
  rw [hW'] at ho' hn'
  have e := design_power eps s hN hv hr hft hd hω
  have e' := design_power eps s hN hv' hr hft hd' hω
  rw [hW] at e
  rw [hW'] at e'
  refine le_of_sq ?_
  rw [e, e']
  by_cases h0 : ω = 0
  · rw [show designPower (familyPower ftype N rp) .bandpass [A, B] ω = 0 from if_pos h0,
      show designPower (familyPower ftype N rp) .bandpass [A', B'] ω = 0 from if_pos h0]
  · have hA1 : A' < 1 := hn' A' (by simp)
    have hB1 : B' < 1 := hn' B' (by simp)
    have ta := tan_pos_of ho'.1 hA1
    have tt' := tan_lt_of ho'.1 ho'.2 hB1
    have tt := tan_lt_of ho.1 ho.2 (hn B (by simp))
    have taa : Real.tan (Real.pi * A' / 2) ≤ Real.tan (Real.pi * A / 2) := by
      rcases hA.eq_or_lt with h | h
      · rw [h]
      · exact (tan_lt_of ho'.1 h (hn A (by simp))).le
    have tbb : Real.tan (Real.pi * B / 2) ≤ Real.tan (Real.pi * B' / 2) := by
      rcases hB.eq_or_lt with h | h
      · rw [h]
      · exact (tan_lt_of (ho.1.trans ho.2) h hB1).le
    have hp := warpedAbs_pos hω h0
    have hout' : ¬ (Real.tan (Real.pi * A' / 2) ≤ warpedAbs ω ∧ warpedAbs ω ≤ Real.tan (Real.pi * B' / 2)) := by
      rw [(warpedAbs_le_iff hω ho'.1 hA1).2, (warpedAbs_le_iff hω (ho'.1.trans ho'.2) hB1).1]
      exact hout
    have key := detune_mono ta taa tt tbb hp hout'
    have hv1 : ∀ a b : ℝ, |(Real.tan (ω / 2) ^ 2 - a * b) / (Real.tan (ω / 2) * (b - a))| =
        |(warpedAbs ω ^ 2 - a * b) / (warpedAbs ω * (b - a))| := by
      intro a b
      rw [abs_div, abs_div, abs_mul, abs_mul, tan_sq_eq hω, abs_tan hω, abs_of_pos hp]
    rw [show designPower (familyPower ftype N rp) .bandpass [A, B] ω = _ from if_neg h0,
      show designPower (familyPower ftype N rp) .bandpass [A', B'] ω = _ from if_neg h0]
    refine familyPower_stop hu N ?_ ?_
    · show 1 ≤ |(Real.tan (ω / 2) ^ 2 - Real.tan (Real.pi * A' / 2) * Real.tan (Real.pi * B' / 2)) /
        (Real.tan (ω / 2) * (Real.tan (Real.pi * B' / 2) - Real.tan (Real.pi * A' / 2)))|
      rcases designPower_cases ho' hn' hω with ⟨v, hP, hin⟩ | ⟨hP, -⟩
      · have hid := hP (fun x => x)
        rw [show designPower (fun x => x) .bandpass [A', B'] ω = _ from if_neg h0] at hid
        have : 1 ≤ |v| := (not_le.mp (mt hin.mpr hout)).le
        rw [← hid] at this
        exact this
      · have h1 := hP (fun _ => 1)
        rw [show designPower (fun _ => 1) .bandpass [A', B'] ω = _ from if_neg h0] at h1
        norm_num at h1
    · show |(Real.tan (ω / 2) ^ 2 - Real.tan (Real.pi * A' / 2) * Real.tan (Real.pi * B' / 2)) /
        (Real.tan (ω / 2) * (Real.tan (Real.pi * B' / 2) - Real.tan (Real.pi * A' / 2)))| ≤
        |(Real.tan (ω / 2) ^ 2 - Real.tan (Real.pi * A / 2) * Real.tan (Real.pi * B / 2)) /
        (Real.tan (ω / 2) * (Real.tan (Real.pi * B / 2) - Real.tan (Real.pi * A / 2)))|
      rw [hv1, hv1]
      exact key


/-! ### The hypotheses are met -/

theorem request_16 : ValidRequest [(10 : ℝ), 50] (some 4) none .bandpass .chebyshevI false (some 1666) := by
  have hW : edges [(10 : ℝ), 50] (some 1666) = [20 / 1666, 100 / 1666] := by simp [edges]; norm_num
  exact valid_pair (.inl rfl) hW (by norm_num) (by norm_num) (by norm_num) (by simp) (by simp) (.inr (.inl ⟨rfl, rfl⟩))

/-- Chebyshev I band-pass designs of order 4 and 7 with a ripple of 4 dB: at one tenth of the Nyquist frequency the
second attenuates more, and both pass less than `10^(-0.4)` of the power. -/
example : ∃ d d' : Zpk,
    iirfilter eps s 4 [10, 50] (some 4) none (some .bandpass) (some .chebyshevI) none (some .zpk) (some 1666) = .ok (.zpk d) ∧
    iirfilter eps s 7 [10, 50] (some 4) none (some .bandpass) (some .chebyshevI) none (some .zpk) (some 1666) = .ok (.zpk d') ∧
    ‖d'.eval (exp (I * (Real.pi / 10 : ℝ)))‖ ≤ ‖d.eval (exp (I * (Real.pi / 10 : ℝ)))‖ ∧
    ‖d.eval (exp (I * (Real.pi / 10 : ℝ)))‖ ^ 2 < 1 / (10 : ℝ) ^ ((4 : ℝ) / 10) := by
  have hr : PositiveRipple .chebyshevI (some 4) none := ⟨fun _ r h => by cases h; norm_num, by simp⟩
  obtain ⟨d, hd, -⟩ := C85_response eps s 4 (by norm_num) [10, 50] (some 4) none (some .bandpass) (some .chebyshevI) none
    (.inl rfl) (some 1666) request_16 hr (.inr rfl)
  obtain ⟨d', hd', -⟩ := C85_response eps s 7 (by norm_num) [10, 50] (some 4) none (some .bandpass) (some .chebyshevI) none
    (.inl rfl) (some 1666) request_16 hr (.inr rfl)
  have hpi := Real.pi_pos
  have hω : |Real.pi / 10| < Real.pi := by rw [abs_of_pos (by positivity)]; linarith
  have hW : edges [(10 : ℝ), 50] (some 1666) = [20 / 1666, 100 / 1666] := by simp [edges]; norm_num
  have hout : ¬ InBand .bandpass (edges [(10 : ℝ), 50] (some 1666)) (Real.pi / 10) := by
    rw [hW]
    simp only [InBand, not_and_or, not_le]
    right
    rw [abs_of_pos (by positivity)]
    linarith
  refine ⟨d, d', hd, hd', (C116_order eps s 4 7 (by norm_num) (by norm_num) _ _ _ _ request_16 hr (.inr rfl) d d' hd hd' _ hω).1
    hout, ?_⟩
  have := mt (C116_pass_band eps s 4 (by norm_num) _ _ _ _ request_16 hr (.inr rfl) d hd _ hω).mp hout
  rw [not_le] at this
  simpa [bandFloor] using this

/-- A ripple of 4 dB is enough for `C116_chebyshev_steeper`. -/
example : 2 ≤ (10 : ℝ) ^ ((4 : ℝ) / 10) := by
  have h : ((2 : ℝ) ^ (10 : ℝ)) ^ ((1 : ℝ) / 10) ≤ ((10 : ℝ) ^ (4 : ℝ)) ^ ((1 : ℝ) / 10) := by
    refine Real.rpow_le_rpow (by positivity) ?_ (by norm_num)
    norm_num
  rw [← Real.rpow_mul (by norm_num), ← Real.rpow_mul (by norm_num)] at h
  norm_num at h ⊢
  exact h

/-- The edges of `C116_cutoff` and `C116_wider`. -/
example : edges [(10 : ℝ)] (some 100) = [1 / 5] ∧ edges [(20 : ℝ)] (some 100) = [2 / 5] ∧
    edges [(10 : ℝ), 20] (some 100) = [1 / 5, 2 / 5] ∧ edges [(5 : ℝ), 25] (some 100) = [1 / 10, 1 / 2] := by
  simp only [edges, List.map_cons, List.map_nil]
  norm_num

end designs

end SciRs.Props

import Verif.Lemmas.Bessel.Rounded
import Verif.Model.BesselRounded
import Verif.Props.BesselAccuracy
import Verif.Spec.BinaryRounding

/-!
# C80: `i0` and `i0e` in floating point
-/

namespace SciRs.Props

open SciRs SciRs.Spec SciRs.Bessel

/-! ### Relative errors -/

/-- `a'` approximates the positive number `a` with relative error `α`. -/
def Rel (α a' a : ℝ) : Prop := 0 < a ∧ |a' - a| ≤ α * a

theorem Rel.mul {α β a' a b' b : ℝ} (h : Rel α a' a) (k : Rel β b' b) :
    Rel (α + β + α * β) (a' * b') (a * b) := by
  obtain ⟨ha, h⟩ := h
  obtain ⟨hb, k⟩ := k
  refine ⟨mul_pos ha hb, ?_⟩
  have e : a' * b' - a * b = (a' - a) * b + a * (b' - b) + (a' - a) * (b' - b) := by ring
  rw [e]
  refine (abs_add_le _ _).trans ((add_le_add (abs_add_le _ _) le_rfl).trans ?_)
  rw [abs_mul, abs_mul, abs_mul, abs_of_pos ha, abs_of_pos hb]
  have h1 := mul_le_mul_of_nonneg_right h hb.le
  have h2 := mul_le_mul_of_nonneg_left k ha.le
  have h3 := mul_le_mul h k (abs_nonneg _) ((abs_nonneg _).trans h)
  linarith

theorem Rel.div {α β a' a b' b : ℝ} (h : Rel α a' a) (k : Rel β b' b) (hβ : β ≤ 1 / 100) :
    Rel (1.02 * (α + β)) (a' / b') (a / b) := by
  obtain ⟨ha, h⟩ := h
  obtain ⟨hb, k⟩ := k
  refine ⟨div_pos ha hb, ?_⟩
  have k' := abs_le.mp k
  have hb' : 0.99 * b ≤ b' := by nlinarith
  have hb0 : 0 < b' := lt_of_lt_of_le (by positivity) hb'
  have e : a' / b' - a / b = ((a' - a) * b - a * (b' - b)) / (b * b') := by
    field_simp
    ring
  rw [e, abs_div, abs_of_pos (mul_pos hb hb0), div_le_iff₀ (mul_pos hb hb0)]
  have hn : |(a' - a) * b - a * (b' - b)| ≤ (α + β) * (a * b) := by
    refine (abs_sub _ _).trans ?_
    rw [abs_mul, abs_mul, abs_of_pos ha, abs_of_pos hb]
    have h1 := mul_le_mul_of_nonneg_right h hb.le
    have h2 := mul_le_mul_of_nonneg_left k ha.le
    linarith
  refine hn.trans ?_
  have hab : 0 ≤ α + β := by
    have h1 : 0 ≤ α * a := (abs_nonneg _).trans h
    have h2 : 0 ≤ β * b := (abs_nonneg _).trans k
    have := nonneg_of_mul_nonneg_left h1 ha
    have := nonneg_of_mul_nonneg_left h2 hb
    linarith
  have e2 : 1.02 * (α + β) * (a / b) * (b * b') = (α + β) * a * (1.02 * b') := by
    field_simp
  rw [e2, ← mul_assoc, mul_assoc]
  calc (α + β) * (a * b) = (α + β) * a * b := by ring
    _ ≤ _ := mul_le_mul_of_nonneg_left (by norm_num at hb' ⊢; linarith) (mul_nonneg hab ha.le)

theorem Rel.rnd {r : Rounding} {α a' a τ : ℝ} (h : Rel α a' a) (hτ : r.t ≤ τ * a) :
    Rel (α + r.u * (1 + α) + τ) (r.rnd a') a := by
  obtain ⟨ha, h⟩ := h
  refine ⟨ha, ?_⟩
  have hu := r.u_nonneg
  have e := r.err a'
  have h1 : |a'| ≤ (1 + α) * a := by
    have := abs_sub_abs_le_abs_sub a' a
    rw [abs_of_pos ha] at this
    linarith
  have h2 := mul_le_mul_of_nonneg_left h1 hu
  have h3 : |r.rnd a' - a| ≤ |r.rnd a' - a'| + |a' - a| := by
    have : r.rnd a' - a = (r.rnd a' - a') + (a' - a) := by ring
    rw [this]; exact abs_add_le _ _
  nlinarith

theorem Rel.mono {α β a' a : ℝ} (h : Rel α a' a) (hab : α ≤ β) : Rel β a' a :=
  ⟨h.1, h.2.trans (mul_le_mul_of_nonneg_right hab h.1.le)⟩

section

variable {r : Rounding} (hr : Precise r)
include hr

/-- The argument of the first series. -/
theorem arg_small (y : ℝ) (h0 : 0 ≤ y) (h8 : y ≤ 8) :
    |r.rnd (r.rnd (y / 2) - 2) - (y / 2 - 2)| ≤ 7 * r.u ∧ |r.rnd (r.rnd (y / 2) - 2)| ≤ 2 ∧ |y / 2 - 2| ≤ 2 := by
  have hu := r.u_nonneg
  have htl := hr.t_le
  have z0 : 0 ≤ r.rnd (y / 2) := by
    have := r.mono 0 (y / 2) (by linarith)
    rwa [r.zero] at this
  have z4 : r.rnd (y / 2) ≤ 4 := by
    have := r.mono (y / 2) 4 (by linarith)
    have e := hr.int 4 (by norm_num)
    push_cast at e
    rwa [e] at this
  have e1 := r.err (y / 2)
  have e2 := r.err (r.rnd (y / 2) - 2)
  have a1 : |y / 2| ≤ 4 := abs_le.mpr ⟨by linarith, by linarith⟩
  have a2 : |r.rnd (y / 2) - 2| ≤ 2 := abs_le.mpr ⟨by linarith, by linarith⟩
  have m1 := mul_le_mul_of_nonneg_left a1 hu
  have m2 := mul_le_mul_of_nonneg_left a2 hu
  refine ⟨?_, ?_, abs_le.mpr ⟨by linarith, by linarith⟩⟩
  · rw [abs_le] at *
    constructor <;> linarith
  · have e3 := hr.int 2 (by norm_num)
    have e4 := hr.int (-2) (by norm_num)
    push_cast at e3 e4
    have l := r.mono (-2) _ (abs_le.mp a2).1
    have u := r.mono _ 2 (abs_le.mp a2).2
    rw [e4] at l
    rw [e3] at u
    exact abs_le.mpr ⟨l, u⟩

/-- The argument of the second series. -/
theorem arg_large (y : ℝ) (h8 : 8 < y) :
    |r.rnd (r.rnd (32 / y) - 2) - (32 / y - 2)| ≤ 7 * r.u ∧ |r.rnd (r.rnd (32 / y) - 2)| ≤ 2 ∧ |32 / y - 2| ≤ 2 := by
  have h1 : 0 < 32 / y := by positivity
  have h2 : 32 / y ≤ 4 := by rw [div_le_iff₀ (by linarith)]; linarith
  have := arg_small hr (2 * (32 / y)) (by linarith) (by linarith)
  rwa [mul_div_cancel_left₀ _ (by norm_num : (2 : ℝ) ≠ 0)] at this

theorem fl_two : ((2 : Fl r)).val = 2 := by
  have e := hr.int 2 (by norm_num)
  rw [Fl.val_ofNat]
  exact_mod_cast e

theorem fl_eight : ((8 : Fl r)).val = 8 := by
  have e := hr.int 8 (by norm_num)
  rw [Fl.val_ofNat]
  exact_mod_cast e

theorem fl_thirtytwo : ((32 : Fl r)).val = 32 := by
  have e := hr.int 32 (by norm_num)
  rw [Fl.val_ofNat]
  exact_mod_cast e

theorem map_table (l : List ℚ) :
    (l.map fun q : ℚ => (q : ℝ)).map (fun c => (⟨r.rnd c⟩ : Fl r)) = l.map fun q : ℚ => ⟨r.rnd q⟩ := by
  rw [List.map_map]; rfl

theorem boundA : (Bnd.table (1 / 2 ^ 20) tableAQ).d + 3 * (Bnd.table (1 / 2 ^ 20) tableAQ).v + 1 / 100 ≤ 52 := by
  decide +kernel

theorem boundB : (Bnd.table (1 / 2 ^ 20) tableBQ).d + 3 * (Bnd.table (1 / 2 ^ 20) tableBQ).v + 1 / 100 ≤ 6 := by
  decide +kernel

/-- The first series in rounded arithmetic. -/
theorem series_small (y : ℝ) (h0 : 0 ≤ y) (h8 : y ≤ 8) :
    Rel (367 * r.u + 5e-17)
      (chbevl ((⟨y⟩ : Fl r) / 2 - 2) (tableA.map fun c => (⟨r.rnd c⟩ : Fl r))).val (eFun y) := by
  obtain ⟨a, b, c⟩ := arg_small hr y h0 h8
  have hu := r.u_nonneg
  have harg : ((⟨y⟩ : Fl r) / 2 - 2) = ⟨r.rnd (r.rnd (y / 2) - 2)⟩ := by
    have : ((⟨y⟩ : Fl r) / 2 - 2) = ⟨r.rnd (r.rnd (y / (2 : Fl r).val) - (2 : Fl r).val)⟩ := rfl
    rw [this, fl_two hr]
  have hub : r.u ≤ ((1 / 2 ^ 20 : ℚ) : ℝ) := by
    have := hr.u_le
    push_cast
    exact this
  have h1 := chbevl_err hr (1 / 2 ^ 20) hub _ _ a b c tableAQ (by simp [tableAQ])
  have hK : ((((Bnd.table (1 / 2 ^ 20) tableAQ).d + 3 * (Bnd.table (1 / 2 ^ 20) tableAQ).v + 1 / 100 : ℚ)) : ℝ) ≤ 52 := by
    have := (Rat.cast_le (K := ℝ)).mpr (boundA hr)
    exact_mod_cast this
  have h2 := h1.trans (mul_le_mul_of_nonneg_left hK hu)
  have hA : (tableA.map fun c => (⟨r.rnd c⟩ : Fl r)) = tableAQ.map fun q : ℚ => ⟨r.rnd q⟩ := by
    rw [tableA_eq, map_table hr]
  rw [← tableA_eq] at h2
  have h3 := small_error h0 h8
  have h4 := eFun_lower h0 h8
  rw [harg, hA]
  refine ⟨by linarith, ?_⟩
  rw [abs_le] at *
  norm_num at *
  constructor <;> nlinarith

/-- The second series in rounded arithmetic. -/
theorem series_large (y : ℝ) (h8 : 8 < y) :
    Rel (16 * r.u)
      (chbevl ((32 : Fl r) / ⟨y⟩ - 2) (tableB.map fun c => (⟨r.rnd c⟩ : Fl r))).val (chbevl (32 / y - 2) tableB) ∧
      391 / 1000 ≤ chbevl (32 / y - 2) tableB := by
  obtain ⟨a, b, c⟩ := arg_large hr y h8
  have hu := r.u_nonneg
  have harg : ((32 : Fl r) / ⟨y⟩ - 2) = ⟨r.rnd (r.rnd (32 / y) - 2)⟩ := by
    have : ((32 : Fl r) / ⟨y⟩ - 2) = ⟨r.rnd (r.rnd ((32 : Fl r).val / y) - (2 : Fl r).val)⟩ := rfl
    rw [this, fl_two hr, fl_thirtytwo hr]
  have hub : r.u ≤ ((1 / 2 ^ 20 : ℚ) : ℝ) := by
    have := hr.u_le
    push_cast
    exact this
  have h1 := chbevl_err hr (1 / 2 ^ 20) hub _ _ a b c tableBQ (by simp [tableBQ])
  have hK : ((((Bnd.table (1 / 2 ^ 20) tableBQ).d + 3 * (Bnd.table (1 / 2 ^ 20) tableBQ).v + 1 / 100 : ℚ)) : ℝ) ≤ 6 := by
    have := (Rat.cast_le (K := ℝ)).mpr (boundB hr)
    exact_mod_cast this
  have h2 := h1.trans (mul_le_mul_of_nonneg_left hK hu)
  have hB : (tableB.map fun c => (⟨r.rnd c⟩ : Fl r)) = tableBQ.map fun q : ℚ => ⟨r.rnd q⟩ := by
    rw [tableB_eq, map_table hr]
  rw [← tableB_eq] at h2
  have hp : chbevl (32 / y - 2) tableB = pFun y := by
    obtain ⟨θ, hθ⟩ := exists_angle (w_range h8.le).1 (w_range h8.le).2
    rw [pFun, hθ, tableB_eq, chbevl_code, ev_pB]
  have h4 := pFun_lower h8.le
  rw [← hp] at h4
  rw [harg, hB]
  refine ⟨⟨by linarith, h2.trans ?_⟩, h4⟩
  nlinarith

theorem sqrt_rel (y : ℝ) (h8 : 8 < y) : Rel (1.001 * r.u) (r.rnd (Real.sqrt y)) (Real.sqrt y) := by
  have hs : 1 ≤ Real.sqrt y := by rw [Real.one_le_sqrt]; linarith
  have h : Rel 0 (Real.sqrt y) (Real.sqrt y) := ⟨by linarith, by simp⟩
  have hu := r.u_nonneg
  refine (h.rnd (τ := r.u / 1000) ?_).mono (by norm_num; linarith)
  have := hr.t_le
  nlinarith

/-- **C80** In every arithmetic with unit roundoff `u ≤ 2⁻²⁰` and negligible underflow unit `t`, without
overflow: `i0e` has a relative error of at most `367 u + 6·10⁻¹⁵`, plus `t`, for every argument, against the
series of the modified Bessel function. -/
theorem C80_i0e (fexp : ℝ → ℝ) (x : Fl r) :
    |(i0e (flEnv r fexp) x).val - Real.exp (-|x.val|) * besselI0 x.val| ≤
      (367 * r.u + 6e-15) * (Real.exp (-|x.val|) * besselI0 x.val) + r.t := by
  have hu := r.u_nonneg
  have hul := hr.u_le
  have ht := r.t_nonneg
  norm_num at hul
  obtain ⟨y, hy⟩ : ∃ y, y = |x.val| := ⟨_, rfl⟩
  have hy0 : 0 ≤ y := by rw [hy]; exact abs_nonneg _
  have hle : ((⟨y⟩ : Fl r) ≤ 8) ↔ y ≤ 8 := by rw [Fl.le_iff, fl_eight hr]
  have hacc := (C67_i0e_accuracy x.val).1
  have hE : Real.exp (-|x.val|) * besselI0 x.val = eFun y := by rw [← besselI0_abs, ← eFun_eq, hy]
  rw [hE] at hacc ⊢
  by_cases h8 : y ≤ 8
  · have e : i0e (flEnv r fexp) x = chbevl ((⟨y⟩ : Fl r) / 2 - 2) (tableA.map fun c => (⟨r.rnd c⟩ : Fl r)) := by
      unfold i0e
      have : (flEnv r fexp).abs x = ⟨y⟩ := by rw [hy]; rfl
      rw [this]
      exact if_pos (hle.mpr h8)
    rw [e]
    obtain ⟨hp, h⟩ := series_small hr y hy0 h8
    refine h.trans ?_
    norm_num
    nlinarith
  · have e : i0e (flEnv r fexp) x =
        chbevl ((32 : Fl r) / ⟨y⟩ - 2) (tableB.map fun c => (⟨r.rnd c⟩ : Fl r)) / Fl.sqrt ⟨y⟩ := by
      unfold i0e
      have : (flEnv r fexp).abs x = ⟨y⟩ := by rw [hy]; rfl
      rw [this]
      exact if_neg (fun hc => h8 (hle.mp hc))
    rw [e, Fl.val_div, Fl.val_sqrt]
    dsimp only
    push Not at h8
    obtain ⟨hs, hl⟩ := series_large hr y h8
    obtain ⟨P', hP'⟩ : ∃ P', P' = (chbevl ((32 : Fl r) / ⟨y⟩ - 2) (tableB.map fun c => (⟨r.rnd c⟩ : Fl r))).val :=
      ⟨_, rfl⟩
    rw [← hP'] at hs ⊢
    have hq := hs.div (sqrt_rel hr y h8) (by norm_num; linarith)
    obtain ⟨v, hv⟩ : ∃ v, v = P' / r.rnd (Real.sqrt y) := ⟨_, rfl⟩
    rw [← hv] at hq ⊢
    have hex : i0e realEnv x.val = chbevl (32 / y - 2) tableB / Real.sqrt y := by
      rw [i0e_large (by rw [← hy]; linarith), ← hy]
    rw [hex] at hacc
    obtain ⟨w, hw⟩ : ∃ w, w = chbevl (32 / y - 2) tableB / Real.sqrt y := ⟨_, rfl⟩
    rw [← hw] at hacc hq
    obtain ⟨hw0, hq⟩ := hq
    have hr1 := r.err v
    have hEp : 0 < eFun y := eFun_pos y
    have hvw : |v| ≤ 1.01 * w := by
      have := abs_sub_abs_le_abs_sub v w
      rw [abs_of_pos hw0] at this
      norm_num at hq ⊢
      nlinarith
    have m1 := mul_le_mul_of_nonneg_left hvw hu
    have hwE : w ≤ 1.01 * eFun y := by
      have := (abs_le.mp hacc).2
      norm_num at this ⊢
      linarith
    have muw : r.u * w ≤ r.u * (1.01 * eFun y) := mul_le_mul_of_nonneg_left hwE hu
    have hfin : |r.rnd v - eFun y| ≤ |r.rnd v - v| + |v - w| + |w - eFun y| := by
      have : r.rnd v - eFun y = (r.rnd v - v) + (v - w) + (w - eFun y) := by ring
      rw [this]
      exact (abs_add_le _ _).trans (add_le_add (abs_add_le _ _) le_rfl)
    refine hfin.trans ?_
    have muE : 0 ≤ r.u * eFun y := mul_nonneg hu hEp.le
    norm_num at *
    nlinarith

/-- **C80** The unscaled function, with an exponential of relative error `κ`: `i0` has a relative error of at
most `400 u + 2 κ + 6·10⁻¹⁵` for every argument. -/
theorem C80_i0 (fexp : ℝ → ℝ) (κ : ℝ) (hκ0 : 0 ≤ κ) (hκ : κ ≤ 1 / 1000)
    (hexp : ∀ y, 0 ≤ y → |fexp y - Real.exp y| ≤ κ * Real.exp y) (x : Fl r) :
    |(i0 (flEnv r fexp) x).val - besselI0 x.val| ≤ (400 * r.u + 2 * κ + 6.1e-15) * besselI0 x.val := by
  have hu := r.u_nonneg
  have hul := hr.u_le
  have ht := r.t_nonneg
  have htl := hr.t_le
  norm_num at hul
  obtain ⟨y, hy⟩ : ∃ y, y = |x.val| := ⟨_, rfl⟩
  have hy0 : 0 ≤ y := by rw [hy]; exact abs_nonneg _
  have hle : ((⟨y⟩ : Fl r) ≤ 8) ↔ y ≤ 8 := by rw [Fl.le_iff, fl_eight hr]
  have hI : besselI0 x.val = Real.exp y * eFun y := by
    rw [← besselI0_abs, ← hy, eFun_eq, ← mul_assoc, ← Real.exp_add]
    simp
  have he : Rel κ (fexp y) (Real.exp y) := ⟨Real.exp_pos y, hexp y hy0⟩
  have hκu : κ * r.u ≤ 1 / 1000 * r.u := mul_le_mul_of_nonneg_right hκ hu
  have huu : r.u * r.u ≤ 1 / 10 ^ 5 * r.u := mul_le_mul_of_nonneg_right (by norm_num; linarith) hu
  have hκuu : 0 ≤ κ * r.u := mul_nonneg hκ0 hu
  have huu0 : 0 ≤ r.u * r.u := mul_nonneg hu hu
  by_cases h8 : y ≤ 8
  · have e : i0 (flEnv r fexp) x =
        (⟨fexp y⟩ : Fl r) * chbevl ((⟨y⟩ : Fl r) / 2 - 2) (tableA.map fun c => (⟨r.rnd c⟩ : Fl r)) := by
      unfold i0
      have : (flEnv r fexp).abs x = ⟨y⟩ := by rw [hy]; rfl
      rw [this]
      exact if_pos (hle.mpr h8)
    rw [e, Fl.val_mul, hI]
    dsimp only
    have h := he.mul (series_small hr y hy0 h8)
    have hlow := eFun_lower hy0 h8
    have h1 : 1 ≤ Real.exp y := Real.one_le_exp hy0
    have h3 : 142 / 1000 ≤ Real.exp y * eFun y := by nlinarith
    have h2 := h.rnd (r := r) (τ := r.u / 100) (by
      have := mul_le_mul_of_nonneg_left h3 hu
      linarith)
    refine h2.2.trans (mul_le_mul_of_nonneg_right ?_ h2.1.le)
    norm_num
    nlinarith [mul_nonneg hκ0 huu0]
  · have e : i0 (flEnv r fexp) x =
        (⟨fexp y⟩ : Fl r) * chbevl ((32 : Fl r) / ⟨y⟩ - 2) (tableB.map fun c => (⟨r.rnd c⟩ : Fl r)) / Fl.sqrt ⟨y⟩ := by
      unfold i0
      have : (flEnv r fexp).abs x = ⟨y⟩ := by rw [hy]; rfl
      rw [this]
      exact if_neg (fun hc => h8 (hle.mp hc))
    rw [e, Fl.val_div, Fl.val_sqrt, Fl.val_mul, hI]
    dsimp only
    push Not at h8
    obtain ⟨hs, hl⟩ := series_large hr y h8
    have hsq : 1 ≤ Real.sqrt y := by rw [Real.one_le_sqrt]; linarith
    have hsq2 : Real.sqrt y * Real.sqrt y = y := Real.mul_self_sqrt hy0
    have hexpy : y + 1 ≤ Real.exp y := Real.add_one_le_exp y
    have hsq28 : 2.8 ≤ Real.sqrt y := by
      refine Real.le_sqrt_of_sq_le ?_
      norm_num
      linarith
    have h := he.mul hs
    have hprod : 1 ≤ Real.exp y * chbevl (32 / y - 2) tableB := by nlinarith
    have h1 := h.rnd (r := r) (τ := r.u / 1000) (by nlinarith)
    have h2 := h1.div (sqrt_rel hr y h8) (by norm_num; linarith)
    have hval : 1 ≤ Real.exp y * chbevl (32 / y - 2) tableB / Real.sqrt y := by
      rw [le_div_iff₀ (by linarith)]
      nlinarith
    have h3 := h2.rnd (r := r) (τ := r.u / 1000) (by nlinarith)
    obtain ⟨v, hv⟩ : ∃ v, v = r.rnd (r.rnd (fexp y * (chbevl ((32 : Fl r) / ⟨y⟩ - 2)
      (tableB.map fun c => (⟨r.rnd c⟩ : Fl r))).val) / r.rnd (Real.sqrt y)) := ⟨_, rfl⟩
    rw [← hv] at h3 ⊢
    have h4 : Rel (60 * r.u + 1.5 * κ) v (Real.exp y * chbevl (32 / y - 2) tableB / Real.sqrt y) := by
      refine h3.mono ?_
      norm_num
      nlinarith [mul_nonneg hκ0 huu0]
    have hacc := (C67_i0e_accuracy x.val).1
    have hE : Real.exp (-|x.val|) * besselI0 x.val = eFun y := by rw [← besselI0_abs, ← eFun_eq, hy]
    have hex : i0e realEnv x.val = chbevl (32 / y - 2) tableB / Real.sqrt y := by
      rw [i0e_large (by rw [← hy]; linarith), ← hy]
    rw [hE, hex] at hacc
    rw [mul_div_assoc] at h4
    obtain ⟨w, hw⟩ : ∃ w, w = chbevl (32 / y - 2) tableB / Real.sqrt y := ⟨_, rfl⟩
    rw [← hw] at hacc h4
    have hEp : 0 < eFun y := eFun_pos y
    have hey := Real.exp_pos y
    have hwE : w ≤ 1.01 * eFun y := by
      have := (abs_le.mp hacc).2
      norm_num at this ⊢
      linarith
    have h5 : |v - Real.exp y * eFun y| ≤ |v - Real.exp y * w| + Real.exp y * |w - eFun y| := by
      have : v - Real.exp y * eFun y = (v - Real.exp y * w) + Real.exp y * (w - eFun y) := by ring
      rw [this]
      refine (abs_add_le _ _).trans ?_
      rw [abs_mul, abs_of_pos hey]
    refine h5.trans ?_
    have h6 := mul_le_mul_of_nonneg_left hacc hey.le
    have h7 : (60 * r.u + 1.5 * κ) * (Real.exp y * w) ≤ (60 * r.u + 1.5 * κ) * (Real.exp y * (1.01 * eFun y)) :=
      mul_le_mul_of_nonneg_left (mul_le_mul_of_nonneg_left hwE hey.le) (by norm_num; positivity)
    have h8' := h4.2
    have hee : 0 ≤ Real.exp y * eFun y := by positivity
    have hk1 : 0 ≤ κ * (Real.exp y * eFun y) := mul_nonneg hκ0 hee
    have hk2 : 0 ≤ r.u * (Real.exp y * eFun y) := mul_nonneg hu hee
    norm_num at *
    nlinarith

end

/-- `f64` and `f32` are precise enough. -/
theorem C80_precise : Precise binary64 ∧ Precise binary32 := by
  have h64 : ∀ n : ℤ, |n| ≤ 32 → binary64.rnd n = n := fun n hn =>
    Binary.rnd_int 53 (-1074) (by norm_num) n (by
      have : (32 : ℤ) < 2 ^ 53 := by norm_num
      linarith)
  have h32 : ∀ n : ℤ, |n| ≤ 32 → binary32.rnd n = n := fun n hn =>
    Binary.rnd_int 24 (-149) (by norm_num) n (by
      have : (32 : ℤ) < 2 ^ 24 := by norm_num
      linarith)
  refine ⟨⟨?_, ?_, h64⟩, ⟨?_, ?_, h32⟩⟩
  · change (2 : ℝ) ^ (-((53 : ℕ) : ℤ)) ≤ _
    rw [zpow_neg, zpow_natCast]; norm_num
  · change (2 : ℝ) ^ (-1074 - 1 : ℤ) ≤ (2 : ℝ) ^ (-((53 : ℕ) : ℤ)) / 1000
    rw [le_div_iff₀ (by norm_num)]
    have h1 : (1000 : ℝ) ≤ (2 : ℝ) ^ (10 : ℤ) := by norm_num
    calc (2 : ℝ) ^ (-1074 - 1 : ℤ) * 1000 ≤ (2 : ℝ) ^ (-1074 - 1 : ℤ) * (2 : ℝ) ^ (10 : ℤ) :=
          mul_le_mul_of_nonneg_left h1 (by positivity)
      _ = (2 : ℝ) ^ (-1074 - 1 + 10 : ℤ) := by rw [← zpow_add₀ (by norm_num)]
      _ ≤ _ := zpow_le_zpow_right₀ (by norm_num) (by norm_num)
  · change (2 : ℝ) ^ (-((24 : ℕ) : ℤ)) ≤ _
    rw [zpow_neg, zpow_natCast]; norm_num
  · change (2 : ℝ) ^ (-149 - 1 : ℤ) ≤ (2 : ℝ) ^ (-((24 : ℕ) : ℤ)) / 1000
    rw [le_div_iff₀ (by norm_num)]
    have h1 : (1000 : ℝ) ≤ (2 : ℝ) ^ (10 : ℤ) := by norm_num
    calc (2 : ℝ) ^ (-149 - 1 : ℤ) * 1000 ≤ (2 : ℝ) ^ (-149 - 1 : ℤ) * (2 : ℝ) ^ (10 : ℤ) :=
          mul_le_mul_of_nonneg_left h1 (by positivity)
      _ = (2 : ℝ) ^ (-149 - 1 + 10 : ℤ) := by rw [← zpow_add₀ (by norm_num)]
      _ ≤ _ := zpow_le_zpow_right₀ (by norm_num) (by norm_num)

/-- **C80** for `f64`: the relative error of `i0e` is below `5·10⁻¹⁴` (plus the underflow unit), that of `i0`
below `6·10⁻¹⁴` if the exponential is accurate to `10⁻¹⁵`. -/
theorem C80_f64 (fexp : ℝ → ℝ) (hexp : ∀ y, 0 ≤ y → |fexp y - Real.exp y| ≤ 1e-15 * Real.exp y)
    (x : Fl binary64) :
    |(i0e (flEnv binary64 fexp) x).val - Real.exp (-|x.val|) * besselI0 x.val| ≤
      5e-14 * (Real.exp (-|x.val|) * besselI0 x.val) + binary64.t ∧
    |(i0 (flEnv binary64 fexp) x).val - besselI0 x.val| ≤ 6e-14 * besselI0 x.val := by
  have hu : binary64.u ≤ 1.12e-16 := by
    change (2 : ℝ) ^ (-((53 : ℕ) : ℤ)) ≤ _
    rw [zpow_neg, zpow_natCast]; norm_num
  have hE : 0 < Real.exp (-|x.val|) * besselI0 x.val := by
    rw [← besselI0_abs, ← eFun_eq]; exact eFun_pos _
  have hI : 0 < besselI0 x.val := (pos_iff_pos_of_mul_pos hE).mp (Real.exp_pos _)
  refine ⟨(C80_i0e C80_precise.1 fexp x).trans ?_, (C80_i0 C80_precise.1 fexp 1e-15 (by norm_num) (by norm_num)
    hexp x).trans ?_⟩
  · norm_num at hu ⊢
    nlinarith
  · norm_num at hu ⊢
    nlinarith

/-- An exponential that satisfies the hypothesis. -/
example : ∀ y : ℝ, 0 ≤ y → |Real.exp y - Real.exp y| ≤ 1e-15 * Real.exp y := fun y _ => by
  rw [sub_self, abs_zero]; positivity

end SciRs.Props

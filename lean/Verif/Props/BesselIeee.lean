import Verif.Lemmas.Bessel.Ieee
import Verif.Model.BesselIeee
import Verif.Props.BesselRounded

/-!
# C83: `i0` and `i0e` on IEEE 754 numbers
-/

namespace SciRs.Props

open SciRs SciRs.Spec SciRs.Spec.Ieee SciRs.Bessel

section

variable {f : Format} (hf : Wide f) (fexp : Ieee f → Ieee f)
include hf

theorem wide_top (v : ℝ) (h : |v| ≤ 6 ^ 36) : |f.r.rnd v| ≤ f.top := by
  have h1 := hf.precise.abs_rnd v
  have h2 := hf.top_ge
  norm_num at h h1 h2 ⊢
  linarith

omit hf in
theorem table_exact (l : List ℝ) :
    List.Forall₂ Exact (l.map fun c => ofReal f (f.r.rnd c)) (l.map fun c => (⟨f.r.rnd c⟩ : Fl f.r)) := by
  induction l with
  | nil => exact List.Forall₂.nil
  | cons c l ih => exact List.Forall₂.cons ⟨_, rfl⟩ ih

theorem table_bound (q : List ℚ) (hq : ∀ c ∈ q, |c| ≤ 1) (l : List ℝ) (hl : l = q.map fun c : ℚ => (c : ℝ)) :
    ∀ c ∈ l.map (fun c => (⟨f.r.rnd c⟩ : Fl f.r)), |c.val| ≤ 2 := by
  subst hl
  intro c hc
  simp only [List.mem_map] at hc
  obtain ⟨_, ⟨v, hv, rfl⟩, rfl⟩ := hc
  have h1 := hf.precise.abs_rnd (v : ℝ)
  have h2 : |(v : ℝ)| ≤ 1 := by exact_mod_cast hq v hv
  norm_num at h1 ⊢
  linarith

theorem exact_num (n : ℕ) (hn : n ≤ 32) : Exact (n : Ieee f) (n : Fl f.r) ∧ (n : Fl f.r).val = n := by
  have e : f.r.rnd (n : ℝ) = n := by
    have := hf.precise.int n (by rw [abs_of_nonneg (by positivity)]; exact_mod_cast hn)
    exact_mod_cast this
  refine ⟨exact_natCast n ?_, e⟩
  rw [e, abs_of_nonneg (by positivity)]
  have h2 := hf.top_ge
  have h3 : (n : ℝ) ≤ 32 := by exact_mod_cast hn
  norm_num at h2
  linarith

/-- The first series on IEEE numbers is that of the unbounded-exponent arithmetic. -/
theorem small_exact (y : ℝ) (h0 : 0 ≤ y) (h8 : y ≤ 8) (Y : Ieee f) (hY : Exact Y ⟨y⟩) :
    Exact (chbevl (Y / 2 - 2) (tableA.map fun c => ofReal f (f.r.rnd c)))
      (chbevl ((⟨y⟩ : Fl f.r) / 2 - 2) (tableA.map fun c => (⟨f.r.rnd c⟩ : Fl f.r))) ∧
      |(chbevl ((⟨y⟩ : Fl f.r) / 2 - 2) (tableA.map fun c => (⟨f.r.rnd c⟩ : Fl f.r))).val| ≤ 6 ^ 36 := by
  obtain ⟨-, b, -⟩ := arg_small hf.precise y h0 h8
  have h2 : (2 : Fl f.r).val = 2 := fl_two hf.precise
  have e2 : Exact (2 : Ieee f) (2 : Fl f.r) := exact_two hf
  have harg : ((⟨y⟩ : Fl f.r) / 2 - 2) = ⟨f.r.rnd (f.r.rnd (y / 2) - 2)⟩ := by
    have : ((⟨y⟩ : Fl f.r) / 2 - 2) = ⟨f.r.rnd (f.r.rnd (y / (2 : Fl f.r).val) - (2 : Fl f.r).val)⟩ := rfl
    rw [this, h2]
  have hd : |((⟨y⟩ : Fl f.r) / 2).val| ≤ f.top := by
    rw [Fl.val_div, h2]
    exact wide_top hf _ (abs_le.mpr ⟨by norm_num; linarith, by norm_num; linarith⟩)
  have hs : |((⟨y⟩ : Fl f.r) / 2 - 2).val| ≤ 2 := by rw [harg]; exact b
  have htop : (2 : ℝ) ≤ f.top := by
    have := hf.top_ge
    norm_num at this
    linarith
  have hE : Exact (Y / 2 - 2) ((⟨y⟩ : Fl f.r) / 2 - 2) :=
    (exact_div hY e2 (by rw [h2]; norm_num) hd).sub e2 (hs.trans htop)
  rw [harg] at hE ⊢
  exact chbevl_exact hf _ _ hE b _ _ (table_exact tableA)
    (table_bound hf tableAQ (by decide +kernel) tableA tableA_eq) (by simp [tableA])

/-- The second series. -/
theorem large_exact (Z : Ieee f) (z : ℝ) (hz : |z| ≤ 2) (hZ : Exact Z ⟨z⟩) :
    Exact (chbevl Z (tableB.map fun c => ofReal f (f.r.rnd c)))
      (chbevl (⟨z⟩ : Fl f.r) (tableB.map fun c => (⟨f.r.rnd c⟩ : Fl f.r))) ∧
      |(chbevl (⟨z⟩ : Fl f.r) (tableB.map fun c => (⟨f.r.rnd c⟩ : Fl f.r))).val| ≤ 6 ^ 36 :=
  chbevl_exact hf _ _ hZ hz _ _ (table_exact tableB)
    (table_bound hf tableBQ (by decide +kernel) tableB tableB_eq) (by simp [tableB])

/-- The argument of the second series. -/
theorem large_arg (y : ℝ) (h8 : 8 < y) (Y : Ieee f) (hY : Exact Y ⟨y⟩) :
    ∃ z, (32 : Fl f.r) / ⟨y⟩ - 2 = ⟨z⟩ ∧ |z| ≤ 2 ∧ Exact (32 / Y - 2) (⟨z⟩ : Fl f.r) := by
  obtain ⟨-, b, -⟩ := arg_large hf.precise y h8
  have h2 : (2 : Fl f.r).val = 2 := fl_two hf.precise
  have h32 : (32 : Fl f.r).val = 32 := fl_thirtytwo hf.precise
  have e2 : Exact (2 : Ieee f) (2 : Fl f.r) := exact_two hf
  have e32 : Exact (32 : Ieee f) (32 : Fl f.r) := (exact_num hf 32 le_rfl).1
  have harg : ((32 : Fl f.r) / ⟨y⟩ - 2) = ⟨f.r.rnd (f.r.rnd (32 / y) - 2)⟩ := by
    have : ((32 : Fl f.r) / ⟨y⟩ - 2) = ⟨f.r.rnd (f.r.rnd ((32 : Fl f.r).val / y) - (2 : Fl f.r).val)⟩ := rfl
    rw [this, h2, h32]
  have htop : (2 : ℝ) ≤ f.top := by
    have := hf.top_ge
    norm_num at this
    linarith
  have h4 : 32 / y ≤ 4 := by rw [div_le_iff₀ (by linarith)]; linarith
  have h0 : 0 < 32 / y := by positivity
  have hd : |((32 : Fl f.r) / ⟨y⟩).val| ≤ f.top := by
    rw [Fl.val_div, h32]
    exact wide_top hf _ (abs_le.mpr ⟨by norm_num; linarith, by norm_num; linarith⟩)
  have hs : |((32 : Fl f.r) / ⟨y⟩ - 2).val| ≤ 2 := by rw [harg]; exact b
  exact ⟨_, harg, b, harg ▸ (exact_div e32 hY (show y ≠ 0 by linarith) hd).sub e2 (hs.trans htop)⟩

/-- The square root. -/
theorem root_exact (y : ℝ) (h8 : 8 < y) (hy : y ≤ f.top) (Y : Ieee f) (hY : Exact Y ⟨y⟩) :
    Exact (Ieee.sqrt Y) (Fl.sqrt (⟨y⟩ : Fl f.r)) ∧ 1 ≤ (Fl.sqrt (⟨y⟩ : Fl f.r)).val := by
  have hs : 2.8 ≤ Real.sqrt y := by
    refine Real.le_sqrt_of_sq_le ?_
    norm_num
    linarith
  have hsq : Real.sqrt y * Real.sqrt y = y := Real.mul_self_sqrt (by linarith)
  constructor
  · refine exact_sqrt hY (by change 0 < y; linarith) ?_
    rw [Fl.val_sqrt]
    refine (hf.precise.abs_rnd _).trans ?_
    rw [abs_of_nonneg (by linarith)]
    refine le_trans ?_ hy
    norm_num at hs ⊢
    nlinarith
  · rw [Fl.val_sqrt]
    have h1 := f.r.mono 1 (Real.sqrt y) (by linarith)
    have e := hf.precise.int 1 (by norm_num)
    push_cast at e
    rwa [e] at h1

omit hf in
theorem fin_le (v w : ℝ) (s t : Bool) : ((fin v s : Ieee f) ≤ fin w t) ↔ v ≤ w := by
  constructor
  · rintro ⟨x, y, hx, hy, h⟩
    obtain rfl : (v : EReal) = x := Option.some.inj hx
    obtain rfl : (w : EReal) = y := Option.some.inj hy
    exact_mod_cast h
  · intro h
    exact ⟨v, w, rfl, rfl, by exact_mod_cast h⟩

theorem eight_fin : ∃ s, (8 : Ieee f) = fin 8 s := by
  obtain ⟨⟨s, h⟩, e⟩ := exact_num hf 8 (by norm_num)
  refine ⟨s, h.trans ?_⟩
  rw [e]
  norm_num

omit hf in
theorem i0e_le8 (x : Ieee f) (h : Ieee.abs x ≤ 8) : i0e (ieeeEnv f fexp) x =
    chbevl (Ieee.abs x / 2 - 2) (tableA.map fun c => ofReal f (f.r.rnd c)) := if_pos h

omit hf in
theorem i0e_gt8 (x : Ieee f) (h : ¬ Ieee.abs x ≤ 8) : i0e (ieeeEnv f fexp) x =
    chbevl (32 / Ieee.abs x - 2) (tableB.map fun c => ofReal f (f.r.rnd c)) / Ieee.sqrt (Ieee.abs x) := if_neg h

omit hf in
theorem i0_le8 (x : Ieee f) (h : Ieee.abs x ≤ 8) : i0 (ieeeEnv f fexp) x =
    fexp (Ieee.abs x) * chbevl (Ieee.abs x / 2 - 2) (tableA.map fun c => ofReal f (f.r.rnd c)) := if_pos h

omit hf in
theorem i0_gt8 (x : Ieee f) (h : ¬ Ieee.abs x ≤ 8) : i0 (ieeeEnv f fexp) x =
    fexp (Ieee.abs x) * chbevl (32 / Ieee.abs x - 2) (tableB.map fun c => ofReal f (f.r.rnd c)) /
      Ieee.sqrt (Ieee.abs x) := if_neg h

omit fexp in
theorem abs_le8 (v : ℝ) (s : Bool) : Ieee.abs (fin v s : Ieee f) ≤ 8 ↔ |v| ≤ 8 := by
  obtain ⟨s8, h8⟩ := eight_fin hf
  rw [h8]
  exact fin_le _ _ _ _

/-- `i0e` on a finite number. -/
theorem i0e_exact (v : ℝ) (s : Bool) (hv : |v| ≤ f.top) (gexp : ℝ → ℝ) :
    Exact (i0e (ieeeEnv f fexp) (fin v s)) (i0e (flEnv f.r gexp) ⟨v⟩) := by
  have hY : Exact (Ieee.abs (fin v s) : Ieee f) (⟨|v|⟩ : Fl f.r) := ⟨_, rfl⟩
  have h8' : (8 : Fl f.r).val = 8 := fl_eight hf.precise
  have hle : ((⟨|v|⟩ : Fl f.r) ≤ 8) ↔ |v| ≤ 8 := by rw [Fl.le_iff, h8']
  by_cases h : |v| ≤ 8
  · rw [i0e_le8 fexp _ ((abs_le8 hf v s).mpr h)]
    have e : i0e (flEnv f.r gexp) ⟨v⟩ =
        chbevl ((⟨|v|⟩ : Fl f.r) / 2 - 2) (tableA.map fun c => (⟨f.r.rnd c⟩ : Fl f.r)) := if_pos (hle.mpr h)
    rw [e]
    exact (small_exact hf |v| (abs_nonneg v) h _ hY).1
  · rw [i0e_gt8 fexp _ (fun hc => h ((abs_le8 hf v s).mp hc))]
    have e : i0e (flEnv f.r gexp) ⟨v⟩ = chbevl ((32 : Fl f.r) / ⟨|v|⟩ - 2)
        (tableB.map fun c => (⟨f.r.rnd c⟩ : Fl f.r)) / Fl.sqrt ⟨|v|⟩ := if_neg (fun hc => h (hle.mp hc))
    rw [e]
    push Not at h
    obtain ⟨z, hz, hz2, hZ⟩ := large_arg hf |v| h _ hY
    obtain ⟨hE, hb⟩ := large_exact hf _ z hz2 hZ
    obtain ⟨hR, hR1⟩ := root_exact hf |v| h hv _ hY
    rw [hz]
    refine exact_div hE hR (by linarith) ?_
    rw [Fl.val_div]
    refine wide_top hf _ ?_
    rw [abs_div, abs_of_pos (lt_of_lt_of_le one_pos hR1)]
    exact (div_le_self (abs_nonneg _) hR1).trans hb

/-- **C83** On every finite argument `i0e` returns a finite number: nothing overflows, whatever the exponential does,
and the accuracy is that of C80. -/
theorem C83_i0e (v : ℝ) (s : Bool) (hv : |v| ≤ f.top) :
    ∃ w t, i0e (ieeeEnv f fexp) (fin v s) = fin w t ∧
      |w - Real.exp (-|v|) * besselI0 v| ≤ (367 * f.r.u + 6e-15) * (Real.exp (-|v|) * besselI0 v) + f.r.t := by
  obtain ⟨t, h⟩ := i0e_exact hf fexp v s hv Real.exp
  exact ⟨_, t, h, C80_i0e hf.precise Real.exp ⟨v⟩⟩

omit hf in
theorem chbevl_nan (l : List (Ieee f)) (hl : l ≠ []) : chbevl (nan : Ieee f) l = nan := by
  have key : ∀ (l : List (Ieee f)) (a : Ieee f) (b : Ieee f × Ieee f),
      l ≠ [] → (l.foldl (chbStep nan) (a, b)).1 = nan := by
    intro l
    induction l with
    | nil => intro a b h; exact absurd rfl h
    | cons c l ih =>
      intro a b _
      have e : (c :: l).foldl (chbStep nan) (a, b) = l.foldl (chbStep nan) (nan, a, b.1) := by
        simp [chbStep]
      rw [e]
      by_cases hl : l = []
      · subst hl; rfl
      · exact ih _ _ hl
  cases l with
  | nil => exact absurd rfl hl
  | cons c l =>
    unfold chbevl
    simp only
    rw [key (c :: l) c (0, 0) (by simp)]
    simp

/-- **C83** NaN gives NaN. -/
theorem C83_nan : i0e (ieeeEnv f fexp) nan = nan ∧ i0 (ieeeEnv f fexp) nan = nan := by
  have hne : ¬ ((nan : Ieee f) ≤ 8) := by
    rintro ⟨x, y, hx, -⟩
    exact absurd hx (by simp [toE])
  have hB : (tableB.map fun c => ofReal f (f.r.rnd c)) ≠ [] := by simp [tableB]
  have e : (32 / nan - 2 : Ieee f) = nan := by simp
  have ha : Ieee.abs (nan : Ieee f) = nan := rfl
  constructor
  · rw [i0e_gt8 fexp nan hne, ha, e, chbevl_nan _ hB]
    simp
  · rw [i0_gt8 fexp nan hne, ha, e, chbevl_nan _ hB]
    simp

theorem inf_not_le : ¬ ((inf false : Ieee f) ≤ 8) := by
  obtain ⟨s8, h8⟩ := eight_fin hf
  rw [h8]
  rintro ⟨x, y, hx, hy, h⟩
  obtain rfl : (⊤ : EReal) = x := by simpa [toE] using hx
  obtain rfl : ((8 : ℝ) : EReal) = y := by simpa [toE] using hy
  exact absurd h (not_le.mpr (EReal.coe_lt_top 8))

theorem inf_arg : Exact (32 / (inf false : Ieee f) - 2) (⟨-2⟩ : Fl f.r) := by
  obtain ⟨⟨s, h⟩, e⟩ := exact_num hf 32 le_rfl
  have h32 : (32 : Ieee f) = fin 32 s := by
    refine h.trans ?_
    rw [e]
    norm_num
  obtain ⟨s', h'⟩ := exact_two hf
  have h2 : (2 : Ieee f) = fin 2 s' := by
    rw [h', fl_two hf.precise]
  rw [h32, div_def]
  change Exact ((fin 0 _ : Ieee f) - 2) _
  rw [h2]
  have hr : f.r.rnd (-2) = -2 := by
    have := hf.precise.int (-2) (by norm_num)
    push_cast at this
    exact this
  change Exact (pack f (0 + -2) _) _
  rw [zero_add]
  have htop := hf.top_ge
  refine exact_pack hr.symm ?_
  rw [hr]
  norm_num at htop ⊢
  linarith

/-- **C83** The scaled function of either infinity is a zero, the limit at infinity. -/
theorem C83_i0e_infinity (s : Bool) : ∃ t, i0e (ieeeEnv f fexp) (inf s) = fin 0 t := by
  obtain ⟨⟨t, h⟩, -⟩ := large_exact hf _ (-2) (by norm_num) (inf_arg hf)
  have ha : Ieee.abs (inf s : Ieee f) = inf false := rfl
  rw [i0e_gt8 fexp (inf s) (inf_not_le hf), ha, h]
  exact ⟨_, rfl⟩

/-- **C83** The unscaled function of either infinity is NaN, provided the exponential of infinity is infinite: the last
step divides infinity by infinity.  The limit is infinity. -/
theorem C83_i0_infinity_false (hE : fexp (inf false) = inf false) (s : Bool) :
    i0 (ieeeEnv f fexp) (inf s) = nan := by
  obtain ⟨⟨t, h⟩, -⟩ := large_exact hf _ (-2) (by norm_num) (inf_arg hf)
  have ha : Ieee.abs (inf s : Ieee f) = inf false := rfl
  have hs : Ieee.sqrt (inf false : Ieee f) = inf false := rfl
  rw [i0_gt8 fexp (inf s) (inf_not_le hf), ha, h, hE, hs, div_def, mul_def]
  simp only [Ieee.mul]
  split_ifs <;> rfl

omit hf fexp in
theorem inf_mul_pos (p : ℝ) (t : Bool) (hp : 0 < p) : (inf false * fin p t : Ieee f) = inf false := by
  rw [mul_def]
  simp [Ieee.mul, sign, hp.ne', hp.le]

omit hf fexp in
theorem inf_div_pos (p : ℝ) (t : Bool) (hp : 0 < p) : (inf false / fin p t : Ieee f) = inf false := by
  rw [div_def]
  simp [Ieee.div, sign, hp.ne', hp.le]

omit fexp in
/-- Both series are positive and at most 1. -/
theorem series_range (y : ℝ) (hy : 0 ≤ y) :
    (y ≤ 8 → 0 < (chbevl ((⟨y⟩ : Fl f.r) / 2 - 2) (tableA.map fun c => (⟨f.r.rnd c⟩ : Fl f.r))).val ∧
      (chbevl ((⟨y⟩ : Fl f.r) / 2 - 2) (tableA.map fun c => (⟨f.r.rnd c⟩ : Fl f.r))).val ≤ 2) ∧
    (8 < y → 0 < (chbevl ((32 : Fl f.r) / ⟨y⟩ - 2) (tableB.map fun c => (⟨f.r.rnd c⟩ : Fl f.r))).val ∧
      (chbevl ((32 : Fl f.r) / ⟨y⟩ - 2) (tableB.map fun c => (⟨f.r.rnd c⟩ : Fl f.r))).val ≤ 0.6) := by
  have hu := f.r.u_nonneg
  have hul := hf.precise.u_le
  norm_num at hul
  constructor
  · intro h8
    obtain ⟨h1, h2⟩ := series_small hf.precise y hy h8
    have h3 := eFun_le_one hy
    rw [abs_le] at h2
    norm_num at h2 ⊢
    constructor <;> nlinarith
  · intro h8
    obtain ⟨⟨h1, h2⟩, -⟩ := series_large hf.precise y h8
    have h3 : chbevl (32 / y - 2) tableB ≤ 1 / 2 := by
      have hp : chbevl (32 / y - 2) tableB = pFun y := by
        obtain ⟨θ, hθ⟩ := exists_angle (w_range h8.le).1 (w_range h8.le).2
        rw [pFun, hθ, tableB_eq, chbevl_code, ev_pB]
      rw [hp]
      exact pFun_upper h8.le
    rw [abs_le] at h2
    norm_num at h2 ⊢
    constructor <;> nlinarith

/-- **C83** `i0` of a finite argument: if the platform's exponential overflows the result is infinity; otherwise it is
a finite number with the accuracy of C80. -/
theorem C83_i0 (v : ℝ) (s : Bool) (hv : |v| ≤ f.top) (κ : ℝ) (hκ0 : 0 ≤ κ) (hκ : κ ≤ 1 / 1000) :
    (fexp (fin |v| false) = inf false → i0 (ieeeEnv f fexp) (fin v s) = inf false) ∧
    (∀ e t, fexp (fin |v| false) = fin e t → e ≤ f.top → |e - Real.exp (|v|)| ≤ κ * Real.exp (|v|) →
      ∃ w t', i0 (ieeeEnv f fexp) (fin v s) = fin w t' ∧
        |w - besselI0 v| ≤ (400 * f.r.u + 2 * κ + 6.1e-15) * besselI0 v) := by
  have hY : Exact (Ieee.abs (fin v s) : Ieee f) (⟨|v|⟩ : Fl f.r) := ⟨_, rfl⟩
  have hY' : Ieee.abs (fin v s : Ieee f) = fin |v| false := rfl
  have h8' : (8 : Fl f.r).val = 8 := fl_eight hf.precise
  have hle : ((⟨|v|⟩ : Fl f.r) ≤ 8) ↔ |v| ≤ 8 := by rw [Fl.le_iff, h8']
  obtain ⟨hrs, hrl⟩ := series_range hf |v| (abs_nonneg v)
  have hul := hf.precise.small
  by_cases h : |v| ≤ 8
  · obtain ⟨hS, -⟩ := small_exact hf |v| (abs_nonneg v) h _ hY
    obtain ⟨hp0, hp1⟩ := hrs h
    constructor
    · intro hE
      obtain ⟨t, ht⟩ := hS
      rw [i0_le8 fexp _ ((abs_le8 hf v s).mpr h), ht, hY', hE, inf_mul_pos _ _ hp0]
    · intro e t hE hetop he
      have hacc := C80_i0 hf.precise (fun y => if y = |v| then e else Real.exp y) κ hκ0 hκ (fun y hy => by
        split_ifs with hc
        · rw [hc]; exact he
        · rw [sub_self, abs_zero]; exact mul_nonneg hκ0 (Real.exp_pos y).le) ⟨v⟩
      have e1 : i0 (flEnv f.r (fun y => if y = |v| then e else Real.exp y)) ⟨v⟩ =
          (⟨e⟩ : Fl f.r) * chbevl ((⟨|v|⟩ : Fl f.r) / 2 - 2) (tableA.map fun c => (⟨f.r.rnd c⟩ : Fl f.r)) := by
        have : (flEnv f.r (fun y => if y = |v| then e else Real.exp y)).exp ⟨|v|⟩ = ⟨e⟩ :=
          congrArg Fl.mk (if_pos rfl)
        rw [← this]
        exact if_pos (hle.mpr h)
      have hEx : Exact (fin e t : Ieee f) (⟨e⟩ : Fl f.r) := ⟨_, rfl⟩
      have hexp8 : Real.exp |v| ≤ 3 ^ 8 := by
        have h1 : Real.exp |v| ≤ Real.exp 8 := Real.exp_le_exp.mpr h
        have h2 : Real.exp 8 = Real.exp 1 ^ 8 := by rw [← Real.exp_nat_mul]; norm_num
        rw [h2] at h1
        refine h1.trans (pow_le_pow_left₀ (Real.exp_pos _).le ?_ _)
        have := Real.exp_one_lt_d9
        norm_num at this ⊢
        linarith
      have heb : |e| ≤ 2 * 3 ^ 8 := by
        have h1 := abs_sub_abs_le_abs_sub e (Real.exp |v|)
        rw [abs_of_pos (Real.exp_pos _)] at h1
        have h2 := mul_le_mul_of_nonneg_right hκ (Real.exp_pos |v|).le
        linarith
      have hb : |((⟨e⟩ : Fl f.r) * chbevl ((⟨|v|⟩ : Fl f.r) / 2 - 2) (tableA.map fun c => (⟨f.r.rnd c⟩ : Fl f.r))).val| ≤
          f.top := by
        rw [Fl.val_mul]
        refine wide_top hf _ ?_
        rw [abs_mul, abs_of_pos hp0]
        refine (mul_le_mul heb hp1 hp0.le (by positivity)).trans (by norm_num)
      obtain ⟨t', ht'⟩ := hEx.mul hS hb
      refine ⟨_, t', ?_, hacc⟩
      rw [i0_le8 fexp _ ((abs_le8 hf v s).mpr h), hY', hE, e1]
      exact ht'
  · have h8 : 8 < |v| := not_le.mp h
    obtain ⟨z, hz, hz2, hZ⟩ := large_arg hf |v| h8 _ hY
    obtain ⟨hS, -⟩ := large_exact hf _ z hz2 hZ
    obtain ⟨hR, hR1⟩ := root_exact hf |v| h8 hv _ hY
    obtain ⟨hp0, hp1⟩ := hrl h8
    rw [← hz] at hS
    constructor
    · intro hE
      obtain ⟨t, ht⟩ := hS
      obtain ⟨t2, ht2⟩ := hR
      rw [i0_gt8 fexp _ (fun hc => h ((abs_le8 hf v s).mp hc)), ht, ht2, hY', hE, inf_mul_pos _ _ hp0,
        inf_div_pos _ _ (lt_of_lt_of_le one_pos hR1)]
    · intro e t hE hetop he
      have hacc := C80_i0 hf.precise (fun y => if y = |v| then e else Real.exp y) κ hκ0 hκ (fun y hy => by
        split_ifs with hc
        · rw [hc]; exact he
        · rw [sub_self, abs_zero]; exact mul_nonneg hκ0 (Real.exp_pos y).le) ⟨v⟩
      have e1 : i0 (flEnv f.r (fun y => if y = |v| then e else Real.exp y)) ⟨v⟩ =
          (⟨e⟩ : Fl f.r) * chbevl ((32 : Fl f.r) / ⟨|v|⟩ - 2) (tableB.map fun c => (⟨f.r.rnd c⟩ : Fl f.r)) /
            Fl.sqrt ⟨|v|⟩ := by
        have : (flEnv f.r (fun y => if y = |v| then e else Real.exp y)).exp ⟨|v|⟩ = ⟨e⟩ :=
          congrArg Fl.mk (if_pos rfl)
        rw [← this]
        exact if_neg (fun hc => h (hle.mp hc))
      have hEx : Exact (fin e t : Ieee f) (⟨e⟩ : Fl f.r) := ⟨_, rfl⟩
      have he0 : 0 < e := by
        have h1 := (abs_le.mp he).1
        have h2 := mul_le_mul_of_nonneg_right hκ (Real.exp_pos |v|).le
        have := Real.exp_pos |v|
        linarith
      have htop := hf.top_ge
      obtain ⟨P, hP⟩ : ∃ P, P = chbevl ((32 : Fl f.r) / ⟨|v|⟩ - 2) (tableB.map fun c => (⟨f.r.rnd c⟩ : Fl f.r)) :=
        ⟨_, rfl⟩
      rw [← hP] at hS hp0 hp1 e1
      have hep : e * P.val ≤ f.top * 0.6 := mul_le_mul hetop hp1 hp0.le (he0.le.trans hetop)
      have hep0 : 0 < e * P.val := mul_pos he0 hp0
      have hb : |((⟨e⟩ : Fl f.r) * P).val| ≤ 0.7 * f.top := by
        rw [Fl.val_mul]
        refine (hf.precise.abs_rnd _).trans ?_
        rw [abs_of_pos hep0]
        norm_num at hep htop ⊢
        linarith
      have hq : |(((⟨e⟩ : Fl f.r) * P) / Fl.sqrt ⟨|v|⟩).val| ≤ f.top := by
        rw [Fl.val_div]
        refine (hf.precise.abs_rnd _).trans ?_
        rw [abs_div, abs_of_pos (lt_of_lt_of_le one_pos hR1)]
        have := div_le_self (abs_nonneg ((⟨e⟩ : Fl f.r) * P).val) hR1
        generalize |((⟨e⟩ : Fl f.r) * P).val| / (Fl.sqrt (⟨|v|⟩ : Fl f.r)).val = q at *
        generalize |((⟨e⟩ : Fl f.r) * P).val| = q' at *
        norm_num at hb htop ⊢
        linarith
      obtain ⟨t', ht'⟩ := exact_div (hEx.mul hS (hb.trans (by norm_num at htop ⊢; linarith))) hR (by linarith) hq
      refine ⟨_, t', ?_, hacc⟩
      rw [i0_gt8 fexp _ (fun hc => h ((abs_le8 hf v s).mp hc)), e1, ← ht', hY', hE]

end

/-- `f64` and `f32` have the range and precision assumed above. -/
theorem C83_wide : Wide f64 ∧ Wide f32 := by
  refine ⟨⟨C80_precise.1, ?_⟩, ⟨C80_precise.2, ?_⟩⟩
  · change (6 : ℝ) ^ 40 ≤ (2 ^ 53 - 1) * 2 ^ 971
    have h : (2 : ℝ) ^ 110 ≤ 2 ^ 971 := pow_le_pow_right₀ (by norm_num) (by norm_num)
    generalize (2 : ℝ) ^ 971 = w at *
    norm_num at h ⊢
    linarith
  · change (6 : ℝ) ^ 40 ≤ (2 ^ 24 - 1) * 2 ^ 104
    norm_num

/-- **C83** In `f64`, with any exponential that is accurate to within a tenth where it does not overflow: `i0(710)` is
infinity although the value `I₀(710)` is less than a thirtieth of the largest finite number. -/
theorem C83_i0_overflow_false (fexp : Ieee f64 → Ieee f64)
    (hE : fexp (fin 710 false) = inf false ∨ ∃ e t, fexp (fin 710 false) = fin e t ∧ |e| ≤ f64.top ∧
      |e - Real.exp 710| ≤ 1 / 10 * Real.exp 710) :
    i0 (ieeeEnv f64 fexp) (fin 710 false) = inf false ∧ besselI0 710 < f64.top / 30 := by
  obtain ⟨h1, h2⟩ := exp_710
  have htop : f64.top = ((2 : ℝ) ^ 53 - 1) * 2 ^ 971 := rfl
  have hlt : f64.top < 2 ^ 1024 := by
    rw [htop, show (2 : ℝ) ^ 1024 = 2 ^ 53 * 2 ^ 971 by rw [← pow_add]]
    exact mul_lt_mul_of_pos_right (by norm_num) (by positivity)
  have hgt : 2 ^ 1024 < 1.001 * f64.top := by
    rw [htop, show (2 : ℝ) ^ 1024 = 2 ^ 53 * 2 ^ 971 by rw [← pow_add], ← mul_assoc]
    exact mul_lt_mul_of_pos_right (by norm_num) (by positivity)
  clear htop
  have hw := C83_wide.1
  have hinf : fexp (fin |(710 : ℝ)| false) = inf false := by
    rw [abs_of_pos (by norm_num)]
    rcases hE with h | ⟨e, t, -, he, hacc⟩
    · exact h
    · exfalso
      have h3 := (abs_le.mp hacc).1
      have h4 := (abs_le.mp he).2
      generalize (2 : ℝ) ^ 1024 = w at *
      linarith
  have h710 : |(710 : ℝ)| ≤ f64.top := by
    have := hw.top_ge
    clear h1 h2 hlt hgt
    norm_num at this ⊢
    linarith
  refine ⟨(C83_i0 hw fexp 710 false h710 0 le_rfl (by norm_num)).1 hinf, ?_⟩
  have hI : besselI0 710 = Real.exp 710 * eFun 710 := by
    rw [eFun_eq, ← mul_assoc, ← Real.exp_add]
    simp
  have hEf : eFun 710 ≤ 0.02 := by
    have hacc := (C67_i0e_accuracy 710).1
    rw [← besselI0_abs, ← eFun_eq, abs_of_pos (by norm_num : (0 : ℝ) < 710)] at hacc
    have hex : i0e realEnv 710 = pFun 710 / Real.sqrt 710 := by
      rw [i0e_large (by norm_num [abs_of_pos]), abs_of_pos (by norm_num : (0 : ℝ) < 710)]
      congr 1
      obtain ⟨θ, hθ⟩ := exists_angle (w_range (show (8 : ℝ) ≤ 710 by norm_num)).1 (w_range (show (8 : ℝ) ≤ 710 by norm_num)).2
      rw [pFun, hθ, tableB_eq, chbevl_code, ev_pB]
    have hs : 26 ≤ Real.sqrt 710 := Real.le_sqrt_of_sq_le (by norm_num)
    have hp := pFun_upper (show (8 : ℝ) ≤ 710 by norm_num)
    have hq : i0e realEnv 710 ≤ 0.0193 := by
      rw [hex, div_le_iff₀ (by linarith)]
      norm_num at hs ⊢
      linarith
    have := (abs_le.mp hacc).1
    have hpos := eFun_pos 710
    norm_num at this hq ⊢
    linarith
  rw [hI]
  have hpos := eFun_pos 710
  have h3 : Real.exp 710 * eFun 710 ≤ Real.exp 710 * 0.02 := mul_le_mul_of_nonneg_left hEf (Real.exp_pos _).le
  generalize (2 : ℝ) ^ 1024 = w at *
  norm_num at h3 hgt ⊢
  linarith

/-- The correctly rounded exponential, with overflow. -/
noncomputable def roundedExp (f : Format) : Ieee f → Ieee f
  | nan => nan
  | inf s => if s then fin 0 false else inf false
  | fin v _ => pack f (Real.exp v) false

/-- The hypotheses are met by the correctly rounded exponential. -/
example : roundedExp f64 (inf false) = inf false ∧
    (roundedExp f64 (fin 710 false) = inf false ∨ ∃ e t, roundedExp f64 (fin 710 false) = fin e t ∧ |e| ≤ f64.top ∧
      |e - Real.exp 710| ≤ 1 / 10 * Real.exp 710) := by
  refine ⟨rfl, ?_⟩
  change pack f64 (Real.exp 710) false = inf false ∨ ∃ e t, pack f64 (Real.exp 710) false = fin e t ∧ _
  by_cases h : f64.top < |f64.r.rnd (Real.exp 710)|
  · left
    unfold pack
    rw [if_pos h]
    simp [(Real.exp_pos 710).le]
  · right
    refine ⟨f64.r.rnd (Real.exp 710), _, by unfold pack; rw [if_neg h], not_lt.mp h, ?_⟩
    refine (f64.r.err _).trans ?_
    have hs := C83_wide.1.precise.small
    have h1 : 1 ≤ Real.exp 710 := Real.one_le_exp (by norm_num)
    rw [abs_of_pos (Real.exp_pos _)]
    nlinarith

end SciRs.Props

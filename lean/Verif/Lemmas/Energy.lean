import Verif.Lemmas.Parseval
import Verif.Lemmas.Sinusoid
import Verif.Spec.Energy
import Mathlib.Analysis.Normed.Ring.InfiniteSum
import Mathlib.Analysis.SpecificLimits.Basic

/-! Helper lemmas: the outputs of stable sections as absolutely convergent series. -/

namespace SciRs

open PowerSeries Spec SciRs.Props

/-- The coefficients are absolutely summable. -/
def AbsSum (f : PowerSeries ℝ) : Prop := Summable fun n => |coeff n f|

/-- The value of a power series on the closed unit disc. -/
noncomputable def ev (f : PowerSeries ℝ) (w : ℂ) : ℂ := ∑' n, ((coeff n f : ℝ) : ℂ) * w ^ n

theorem AbsSum.norm {f : PowerSeries ℝ} (h : AbsSum f) {w : ℂ} (hw : ‖w‖ = 1) :
    Summable fun n => ‖((coeff n f : ℝ) : ℂ) * w ^ n‖ := by
  simpa [AbsSum, norm_mul, norm_pow, hw] using h

theorem AbsSum.mul {f g : PowerSeries ℝ} (hf : AbsSum f) (hg : AbsSum g) : AbsSum (f * g) := by
  have := summable_norm_sum_mul_antidiagonal_of_summable_norm (R := ℝ) (f := fun n => coeff n f)
    (g := fun n => coeff n g) hf hg
  simpa only [AbsSum, coeff_mul, Real.norm_eq_abs] using this

theorem ev_mul {f g : PowerSeries ℝ} (hf : AbsSum f) (hg : AbsSum g) {w : ℂ} (hw : ‖w‖ = 1) :
    ev (f * g) w = ev f w * ev g w := by
  unfold ev
  rw [tsum_mul_tsum_eq_tsum_sum_antidiagonal_of_summable_norm (hf.norm hw) (hg.norm hw)]
  refine tsum_congr fun n => ?_
  rw [coeff_mul]
  push_cast
  rw [Finset.sum_mul]
  refine Finset.sum_congr rfl fun p hp => ?_
  rw [← Finset.mem_antidiagonal.mp hp, pow_add]
  ring

theorem AbsSum.sub {f g : PowerSeries ℝ} (hf : AbsSum f) (hg : AbsSum g) : AbsSum (f - g) := by
  refine Summable.of_nonneg_of_le (fun n => abs_nonneg _) (fun n => ?_) (Summable.add hf hg)
  rw [map_sub]
  exact abs_sub _ _

theorem ev_sub {f g : PowerSeries ℝ} (hf : AbsSum f) (hg : AbsSum g) {w : ℂ} (hw : ‖w‖ = 1) :
    ev (f - g) w = ev f w - ev g w := by
  unfold ev
  rw [← (hf.norm hw).of_norm.tsum_sub (hg.norm hw).of_norm]
  refine tsum_congr fun n => ?_
  rw [map_sub]
  push_cast
  ring

theorem finite_series {f : PowerSeries ℝ} (N : ℕ) (h : ∀ n, N ≤ n → coeff n f = 0) :
    AbsSum f ∧ ∀ w, ev f w = ∑ n ∈ Finset.range N, ((coeff n f : ℝ) : ℂ) * w ^ n := by
  refine ⟨summable_of_ne_finset_zero (s := Finset.range N) fun n hn => ?_, fun w =>
    tsum_eq_sum fun n hn => ?_⟩
  · rw [h n (by simpa using hn), abs_zero]
  · rw [h n (by simpa using hn)]
    simp

theorem coeff_quad (a b c : ℝ) (n : ℕ) :
    coeff n (C a + C b * X + C c * X ^ 2 : PowerSeries ℝ) =
      if n = 0 then a else if n = 1 then b else if n = 2 then c else 0 := by
  rw [map_add, map_add, coeff_C, coeff_C_mul, coeff_C_mul, coeff_X, coeff_X_pow]
  rcases n with _ | _ | _ | n <;> simp

theorem quad_series (a b c : ℝ) :
    AbsSum (C a + C b * X + C c * X ^ 2) ∧
      ∀ w, ev (C a + C b * X + C c * X ^ 2) w = a + b * w + c * w ^ 2 := by
  obtain ⟨h1, h2⟩ := finite_series (f := C a + C b * X + C c * X ^ 2) 3 fun n hn => by
    rw [coeff_quad, if_neg (by omega), if_neg (by omega), if_neg (by omega)]
  refine ⟨h1, fun w => ?_⟩
  rw [h2, Finset.sum_range_succ, Finset.sum_range_succ, Finset.sum_range_succ]
  simp [coeff_quad]

theorem num_series (s : Sos ℝ) : AbsSum (num s) ∧ ∀ w, ev (num s) w = s.b0 + s.b1 * w + s.b2 * w ^ 2 :=
  quad_series _ _ _

theorem den_series (s : Sos ℝ) : AbsSum (den s) ∧ ∀ w, ev (den s) w = 1 + s.a1 * w + s.a2 * w ^ 2 := by
  have := quad_series 1 s.a1 s.a2
  rw [map_one] at this
  simpa [den] using this

theorem one_series : AbsSum 1 ∧ ∀ w, ev 1 w = 1 := by
  have := quad_series 1 0 0
  simpa using this

theorem prod_series {c : Sos ℝ → PowerSeries ℝ} (hc : ∀ s, AbsSum (c s)) (sos : List (Sos ℝ)) :
    AbsSum (sos.map c).prod ∧ ∀ w : ℂ, ‖w‖ = 1 → ev (sos.map c).prod w = (sos.map fun s => ev (c s) w).prod := by
  induction sos with
  | nil => exact ⟨one_series.1, fun w _ => by simpa using one_series.2 w⟩
  | cons s ss ih =>
    simp only [List.map_cons, List.prod_cons]
    exact ⟨(hc s).mul ih.1, fun w hw => by rw [ev_mul (hc s) ih.1 hw, ih.2 w hw]⟩

theorem signal_series (x : List ℝ) :
    AbsSum (signal x) ∧ ∀ w, ev (signal x) w = ∑ n ∈ Finset.range x.length, (x.getD n 0 : ℂ) * w ^ n := by
  obtain ⟨h1, h2⟩ := finite_series (f := signal x) x.length fun n hn => by
    simp [signal, List.getElem?_eq_none hn]
  refine ⟨h1, fun w => ?_⟩
  rw [h2]
  exact Finset.sum_congr rfl fun n _ => by simp [signal]

/-- The response of the sections at `1/w` from the values of their series at `w`. -/
theorem casH_series (sos : List (Sos ℝ)) (hs : ∀ s ∈ sos, RootsBelow 1 s) {w : ℂ} (hw : ‖w‖ = 1) :
    ev (sos.map den).prod w ≠ 0 ∧
      casH sos w⁻¹ = ev (sos.map num).prod w / ev (sos.map den).prod w := by
  have hw0 : w ≠ 0 := fun h => by simp [h] at hw
  rw [(prod_series (fun s => (den_series s).1) sos).2 w hw, (prod_series (fun s => (num_series s).1) sos).2 w hw]
  simp only [(den_series _).2, (num_series _).2]
  induction sos with
  | nil => simp [casH]
  | cons s ss ih =>
    obtain ⟨i1, i2⟩ := ih fun t ht => hs t (by simp [ht])
    have h1 := stable_den_ne s (hs s (by simp)) w⁻¹ (by rw [norm_inv, hw, inv_one])
    have h2 : 1 + s.a1 * w + s.a2 * w ^ 2 = w ^ 2 * (w⁻¹ ^ 2 + s.a1 * w⁻¹ + s.a2) := by field_simp
    have h3 : s.b0 + s.b1 * w + s.b2 * w ^ 2 = w ^ 2 * (s.b0 * w⁻¹ ^ 2 + s.b1 * w⁻¹ + s.b2) := by field_simp
    simp only [List.map_cons, List.prod_cons]
    refine ⟨mul_ne_zero (by rw [h2]; exact mul_ne_zero (pow_ne_zero 2 hw0) h1) i1, ?_⟩
    have : casH (s :: ss) w⁻¹ = secH s w⁻¹ * casH ss w⁻¹ := by simp [casH]
    rw [this, i2, h2, h3, secH, mul_div_mul_left _ _ (pow_ne_zero 2 hw0) |>.symm, div_mul_div_comm]

/-- The response to `x` followed by silence. -/
theorem output_series_pad (sos : List (Sos ℝ)) (h : AtRest sos) (hs : ∀ s ∈ sos, RootsBelow 1 s) (x : List ℝ) :
    ∃ f : PowerSeries ℝ, AbsSum f ∧
      (∀ k n : ℕ, n < x.length + k → coeff n f = (cascade sos (x ++ List.replicate k 0)).1.getD n 0) ∧
      ∀ w : ℂ, ‖w‖ = 1 → ev f w = casH sos w⁻¹ * ev (signal x) w := by
  obtain ⟨u, hu⟩ := isUnit_den_prod (R := ℝ) sos
  obtain ⟨f, hf⟩ : ∃ f : PowerSeries ℝ, f = signal x * (sos.map num).prod * ↑u⁻¹ := ⟨_, rfl⟩
  have hfd : f * (sos.map den).prod = signal x * (sos.map num).prod := by
    rw [hf, ← hu, mul_assoc, Units.inv_mul, mul_one]
  have hco : ∀ k n : ℕ, n < x.length + k → coeff n f = (cascade sos (x ++ List.replicate k 0)).1.getD n 0 := by
    intro k n hn
    have hc := cascade_series sos h (x ++ List.replicate k 0)
    have hsx : signal (x ++ List.replicate k (0 : ℝ)) = signal x := by
      ext m
      simp only [signal, coeff_mk, List.getD_eq_getElem?_getD]
      by_cases hm : m < x.length
      · rw [List.getElem?_append_left hm]
      · rw [List.getElem?_append_right (by omega), List.getElem?_eq_none (l := x) (by omega), List.getElem?_replicate]
        split <;> simp
    rw [hsx, ← hfd, ← sub_mul] at hc
    have hd : (X : PowerSeries ℝ) ^ (x ++ List.replicate k (0 : ℝ)).length ∣
        signal (cascade sos (x ++ List.replicate k 0)).1 - f := (isUnit_den_prod (R := ℝ) sos).dvd_mul_right.mp hc
    rw [X_pow_dvd_iff] at hd
    have := hd n (by simpa using hn)
    rw [map_sub, sub_eq_zero] at this
    rw [← this]
    simp [signal]
  obtain ⟨ρ, h0, h1, hr⟩ := exists_radius sos hs
  obtain ⟨M, hM0, hM⟩ : ∃ M : ℝ, 0 ≤ M ∧ ∀ (k i : ℕ), |(x ++ List.replicate k (0 : ℝ)).getD i 0| ≤ M * ρ ^ i := by
    refine ⟨(x.map (fun v => |v|)).sum / ρ ^ x.length, by
      have : 0 ≤ (x.map (fun v => |v|)).sum := List.sum_nonneg (by simp)
      positivity, fun k i => ?_⟩
    have hs0 : 0 ≤ (x.map (fun v => |v|)).sum := List.sum_nonneg (by simp)
    by_cases hi : i < x.length
    · rw [List.getD_eq_getElem?_getD, List.getElem?_append_left hi, List.getElem?_eq_getElem hi, Option.getD_some]
      have h2 : |x[i]| ≤ (x.map (fun v => |v|)).sum :=
        List.single_le_sum (by simp) _ (List.mem_map.mpr ⟨x[i], List.getElem_mem hi, rfl⟩)
      refine h2.trans ?_
      rw [div_mul_eq_mul_div, le_div_iff₀ (by positivity)]
      exact mul_le_mul_of_nonneg_left (pow_le_pow_of_le_one h0.le h1.le hi.le) hs0
    · have : (x ++ List.replicate k (0 : ℝ)).getD i 0 = 0 := by
        rw [List.getD_eq_getElem?_getD, List.getElem?_append_right (by omega), List.getElem?_replicate]
        split <;> simp
      rw [this, abs_zero]
      positivity
  obtain ⟨K, -, hK⟩ := cascade_bound sos ρ h0.le hr M hM0
  have hsum : AbsSum f := by
    refine Summable.of_nonneg_of_le (fun n => abs_nonneg _) (fun n => ?_)
      ((summable_geometric_of_lt_one h0.le h1).mul_left K)
    rw [hco (n + 1) n (by omega)]
    exact hK _ (hM (n + 1)) n
  refine ⟨f, hsum, hco, fun w hw => ?_⟩
  · obtain ⟨c1, c2⟩ := casH_series sos hs hw
    have e1 := ev_mul hsum (prod_series (fun s => (den_series s).1) sos).1 hw
    rw [hfd, ev_mul (signal_series x).1 (prod_series (fun s => (num_series s).1) sos).1 hw] at e1
    rw [c2, div_mul_eq_mul_div, eq_div_iff c1, ← e1]
    ring

theorem output_series (sos : List (Sos ℝ)) (h : AtRest sos) (hs : ∀ s ∈ sos, RootsBelow 1 s) (x : List ℝ) :
    ∃ f : PowerSeries ℝ, AbsSum f ∧ (∀ n < x.length, coeff n f = (cascade sos x).1.getD n 0) ∧
      ∀ w : ℂ, ‖w‖ = 1 → ev f w = casH sos w⁻¹ * ev (signal x) w := by
  obtain ⟨f, h1, h2, h3⟩ := output_series_pad sos h hs x
  refine ⟨f, h1, fun n hn => ?_, h3⟩
  have := h2 0 n (by omega)
  simpa using this

end SciRs

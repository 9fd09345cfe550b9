import Verif.Props.Kernel
import Verif.Spec.PeakGain
import Mathlib.Analysis.Normed.Ring.InfiniteSum

/-! Helper lemmas: power series with summable coefficients, evaluated. -/

namespace SciRs

open Spec Props PowerSeries

/-- The series of `p` at `w` converges absolutely, to `v`. -/
def ValueAt (p : PowerSeries ℝ) (w v : ℂ) : Prop :=
  (Summable fun n => ‖((coeff n p : ℝ) : ℂ) * w ^ n‖) ∧ HasSum (fun n => ((coeff n p : ℝ) : ℂ) * w ^ n) v

theorem ValueAt.unique {p : PowerSeries ℝ} {w v v' : ℂ} (h : ValueAt p w v) (h' : ValueAt p w v') : v = v' :=
  h.2.unique h'.2

theorem ValueAt.mul {p q : PowerSeries ℝ} {w v v' : ℂ} (h : ValueAt p w v) (h' : ValueAt q w v') :
    ValueAt (p * q) w (v * v') := by
  obtain ⟨f, hf⟩ : ∃ f : ℕ → ℂ, f = fun n => ((coeff n p : ℝ) : ℂ) * w ^ n := ⟨_, rfl⟩
  obtain ⟨g, hg⟩ : ∃ g : ℕ → ℂ, g = fun n => ((coeff n q : ℝ) : ℂ) * w ^ n := ⟨_, rfl⟩
  have e : (fun n => ((coeff n (p * q) : ℝ) : ℂ) * w ^ n) =
      fun n => ∑ kl ∈ Finset.antidiagonal n, f kl.1 * g kl.2 := by
    funext n
    rw [PowerSeries.coeff_mul, hf, hg]
    push_cast
    rw [Finset.sum_mul]
    refine Finset.sum_congr rfl fun kl hkl => ?_
    rw [← Finset.mem_antidiagonal.mp hkl, pow_add]
    ring
  unfold ValueAt at *
  rw [← hf] at h
  rw [← hg] at h'
  have h1 : Summable fun n => ‖f n‖ := by rw [hf]; exact h.1
  have h2 : Summable fun n => ‖g n‖ := by rw [hg]; exact h'.1
  have hs : Summable fun n => ‖∑ kl ∈ Finset.antidiagonal n, f kl.1 * g kl.2‖ :=
    summable_norm_sum_mul_antidiagonal_of_summable_norm h1 h2
  have ht := tsum_mul_tsum_eq_tsum_sum_antidiagonal_of_summable_norm h1 h2
  rw [h.2.tsum_eq, h'.2.tsum_eq] at ht
  have hk : HasSum (fun n => ∑ kl ∈ Finset.antidiagonal n, f kl.1 * g kl.2) (v * v') := by
    rw [ht]
    exact hs.of_norm.hasSum
  rw [e]
  refine ⟨?_, hk⟩
  convert hs using 2 with n
  exact congrArg norm (congrFun e n)

theorem valueAt_finite (p : PowerSeries ℝ) (w : ℂ) (N : ℕ) (hN : ∀ n, N ≤ n → coeff n p = 0) :
    ValueAt p w (∑ n ∈ Finset.range N, ((coeff n p : ℝ) : ℂ) * w ^ n) := by
  constructor
  · refine summable_of_ne_finset_zero (s := Finset.range N) fun n hn => ?_
    rw [hN n (by simpa using hn)]
    simp
  · refine hasSum_sum_of_ne_finset_zero fun n hn => ?_
    rw [hN n (by simpa using hn)]
    simp

theorem coeff_quad (a b c : ℝ) (n : ℕ) : coeff n (C a + C b * X + C c * X ^ 2 : PowerSeries ℝ) =
    if n = 0 then a else if n = 1 then b else if n = 2 then c else 0 := by
  rw [map_add, map_add, PowerSeries.coeff_C, PowerSeries.coeff_C_mul, PowerSeries.coeff_C_mul, PowerSeries.coeff_X,
    PowerSeries.coeff_X_pow]
  rcases n with _ | _ | _ | n <;> simp

theorem valueAt_quad (a b c : ℝ) (w : ℂ) : ValueAt (C a + C b * X + C c * X ^ 2) w (a + b * w + c * w ^ 2) := by
  have := valueAt_finite (C a + C b * X + C c * X ^ 2) w 3 (fun n hn => by
    rw [coeff_quad, if_neg (by omega), if_neg (by omega), if_neg (by omega)])
  simp only [Finset.sum_range_succ, Finset.sum_range_zero, coeff_quad] at this
  simpa using this

theorem valueAt_one (w : ℂ) : ValueAt 1 w 1 := by
  have := valueAt_quad 1 0 0 w
  simpa using this

theorem valueAt_num (sos : List (Sos ℝ)) (w : ℂ) :
    ValueAt (sos.map num).prod w (sos.map fun s => (s.b0 + s.b1 * w + s.b2 * w ^ 2 : ℂ)).prod := by
  induction sos with
  | nil => exact valueAt_one w
  | cons s ss ih =>
    rw [List.map_cons, List.prod_cons, List.map_cons, List.prod_cons]
    exact (valueAt_quad _ _ _ w).mul ih

theorem valueAt_den (sos : List (Sos ℝ)) (w : ℂ) :
    ValueAt (sos.map den).prod w (sos.map fun s => (1 + s.a1 * w + s.a2 * w ^ 2 : ℂ)).prod := by
  induction sos with
  | nil => exact valueAt_one w
  | cons s ss ih =>
    rw [List.map_cons, List.prod_cons, List.map_cons, List.prod_cons]
    have := valueAt_quad 1 s.a1 s.a2 w
    rw [map_one, Complex.ofReal_one] at this
    exact this.mul ih

/-- The impulse response as a series: `H · D = N`. -/
theorem impulse_series (sos : List (Sos ℝ)) :
    PowerSeries.mk (impulseResponse sos) * (sos.map den).prod = (sos.map num).prod := by
  ext n
  have hm : ∀ (f : Sos ℝ → PowerSeries ℝ), (∀ s : Sos ℝ, f { s with zi0 := 0, zi1 := 0 } = f s) →
      (rested sos).map f = sos.map f := by
    intro f hf
    rw [rested_eq, List.map_map]
    exact List.map_congr_left fun s _ => hf s
  have h := C23_transfer (rested sos) (rested_rest sos) (1 :: List.replicate n 0) n (by simp)
  rw [hm den (fun _ => rfl), hm num (fun _ => rfl)] at h
  have sδ : signal (1 :: List.replicate n (0 : ℝ)) = 1 := by
    ext n
    rw [signal, PowerSeries.coeff_mk, PowerSeries.coeff_one]
    cases n with
    | zero => simp
    | succ n =>
      rw [List.getD_cons_succ, List.getD_eq_getElem?_getD, List.getElem?_replicate]
      split <;> simp
  rw [sδ, one_mul] at h
  rw [← h, PowerSeries.coeff_mul, PowerSeries.coeff_mul]
  refine Finset.sum_congr rfl fun kl hkl => ?_
  have := Finset.mem_antidiagonal.mp hkl
  rw [signal, PowerSeries.coeff_mk, PowerSeries.coeff_mk, impulse_of_long sos kl.1 n (by omega)]

/-- If the impulse response is summable, a pole on or outside the unit circle is cancelled by a zero. -/
theorem pole_cancelled (sos : List (Sos ℝ)) (hsum : Summable fun k => |impulseResponse sos k|) (z : ℂ) (hz : 1 ≤ ‖z‖)
    (hp : HasPole sos z) : HasZero sos z := by
  have hz0 : z ≠ 0 := fun h => by rw [h, norm_zero] at hz; linarith
  obtain ⟨w, hw⟩ : ∃ w, w = z⁻¹ := ⟨_, rfl⟩
  have hw1 : ‖w‖ ≤ 1 := by
    rw [hw, norm_inv]
    exact inv_le_one_of_one_le₀ hz
  have hH : ValueAt (PowerSeries.mk (impulseResponse sos)) w
      (∑' n, ((impulseResponse sos n : ℝ) : ℂ) * w ^ n) := by
    have hs : Summable fun n => ‖((impulseResponse sos n : ℝ) : ℂ) * w ^ n‖ := by
      refine Summable.of_nonneg_of_le (fun _ => norm_nonneg _) (fun n => ?_) hsum
      rw [norm_mul, Complex.norm_real, Real.norm_eq_abs, norm_pow]
      exact mul_le_of_le_one_right (abs_nonneg _) (pow_le_one₀ (norm_nonneg _) hw1)
    constructor
    · simpa only [PowerSeries.coeff_mk] using hs
    · simpa only [PowerSeries.coeff_mk] using hs.of_norm.hasSum
  have h := hH.mul (valueAt_den sos w)
  rw [impulse_series] at h
  have e := h.unique (valueAt_num sos w)
  have hd : (sos.map fun s => (1 + s.a1 * w + s.a2 * w ^ 2 : ℂ)).prod = 0 := by
    obtain ⟨s, hs, hr⟩ := hp
    refine List.prod_eq_zero (List.mem_map.mpr ⟨s, hs, ?_⟩)
    rw [hw]
    field_simp
    linear_combination hr
  rw [hd, mul_zero] at e
  obtain ⟨s, hs, hr⟩ := List.mem_map.mp (List.prod_eq_zero_iff.mp e.symm)
  refine ⟨s, hs, ?_⟩
  rw [hw] at hr
  field_simp at hr
  linear_combination hr

end SciRs

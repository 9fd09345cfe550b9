import Verif.Lemmas.SosExplicit
import Verif.Props.RoundedSos

/-!
# C124: an explicit bound on the rounding error of `sosfilt`

C72 says that the rounding error of stable sections does not grow with the signal, with a constant that it does not
name.  Here the constant is a formula in the coefficients and the distance of the poles from the unit circle.
-/

namespace SciRs.Props

open SciRs SciRs.Spec SciRs.Rounded

theorem getD_level {x : List ℝ} {L : ℝ} (hL : 0 ≤ L) (hx : ∀ v ∈ x, |v| ≤ L) (i : ℕ) : |x.getD i 0| ≤ L := by
  rw [List.getD_eq_getElem?_getD]
  by_cases hi : i < x.length
  · rw [List.getElem?_eq_getElem hi]; exact hx _ (List.getElem_mem hi)
  · rw [List.getElem?_eq_none (by omega)]; simpa using hL

/-- **C124** Sections at rest whose poles keep the distance `δ` from the unit circle, exact arithmetic: the output of
every signal of level `L` is at most `∏ (|b0| + |b1| + |b2|) / δ²` times `L`. -/
theorem C124_level (l : List (Sos ℝ)) (hl : AtRest l) (δ : ℝ) (hδ : 0 < δ)
    (hs : ∀ s ∈ l, ∀ z : ℂ, z ^ 2 + s.a1 * z + s.a2 = 0 → ‖z‖ ≤ 1 - δ) (L : ℝ) (x : List ℝ) (hx : ∀ v ∈ x, |v| ≤ L) :
    ∀ w ∈ (sosfiltDyn x l).1, |w| ≤ (l.map fun s => numSize s / δ ^ 2).prod * L := by
  intro w hw
  obtain ⟨i, hi, rfl⟩ := List.mem_iff_getElem.mp hw
  have hi' : i < x.length := by rwa [(C24_length x l).1] at hi
  have hL : 0 ≤ L := (abs_nonneg _).trans (hx x[i] (List.getElem_mem hi'))
  let r : Rounding := ⟨0, 0, id, le_rfl, le_rfl, by simp, fun _ _ h => h, rfl⟩
  have := (cascade_explicit (r := r) l hl hδ hs (by simp [r]; positivity) (ε := 0) (τ := 0) rfl rfl hL le_rfl le_rfl x
    (x.map (Fl.mk (r := r))) (by simp) (getD_level hL hx) (fun i => by
      rw [List.getD_eq_getElem?_getD, List.getD_eq_getElem?_getD]
      by_cases hj : i < x.length
      · simp [List.getElem?_eq_getElem hj]
      · rw [List.getElem?_eq_none (by simpa using hj), List.getElem?_eq_none (by simpa using hj)]
        simp)).1 i
  rwa [← C20_sosfilt_dyn_eq_cascade, List.getD_eq_getElem _ _ hi] at this

/-- **C124** The rounding error of `sosfilt` for `n` sections at rest whose poles keep the distance `δ` from the unit
circle, in every arithmetic with `206 u ≤ δ²`: each output sample is within the fraction `(1 + 15 u / δ²)^n - 1` of the
level that `C124_level` gives for the output, plus an underflow term. -/
theorem C124_error (l : List (Sos ℝ)) (hl : AtRest l) (δ : ℝ) (hδ : 0 < δ)
    (hs : ∀ s ∈ l, ∀ z : ℂ, z ^ 2 + s.a1 * z + s.a2 = 0 → ‖z‖ ≤ 1 - δ) (r : Rounding) (hu : 206 * r.u ≤ δ ^ 2) (L : ℝ)
    (x : List ℝ) (hx : ∀ v ∈ x, |v| ≤ L) :
    (sosfiltDyn (x.map (Fl.mk (r := r))) (l.map (flSection r))).1.length = x.length ∧
    ∀ i (_ : i < x.length),
      |((sosfiltDyn (x.map (Fl.mk (r := r))) (l.map (flSection r))).1.getD i 0).val - (sosfiltDyn x l).1.getD i 0| ≤
        ((1 + 15 * (r.u / δ ^ 2)) ^ l.length - 1) * ((l.map fun s => numSize s / δ ^ 2).prod * L) +
          l.length * (10 * r.t / δ ^ 2) * (1 + 15 * (r.u / δ ^ 2)) ^ l.length *
            (l.map fun s => max 1 (numSize s / δ ^ 2)).prod := by
  refine ⟨by rw [(C24_length _ _).1]; simp, fun i hi => ?_⟩
  have hL : 0 ≤ L := (abs_nonneg _).trans (hx x[i] (List.getElem_mem hi))
  rw [C20_sosfilt_dyn_eq_cascade, C20_sosfilt_dyn_eq_cascade]
  have := (cascade_explicit (r := r) l hl hδ hs hu (ε := 0) (τ := 0) rfl rfl hL le_rfl le_rfl x
    (x.map (Fl.mk (r := r))) (by simp) (getD_level hL hx) (fun i => by
      rw [List.getD_eq_getElem?_getD, List.getD_eq_getElem?_getD]
      by_cases hj : i < x.length
      · simp [List.getElem?_eq_getElem hj]
      · rw [List.getElem?_eq_none (by simpa using hj), List.getElem?_eq_none (by simpa using hj)]
        simp)).2 i
  rw [add_zero, one_mul, zero_add] at this
  exact this

/-- The second-order section `1 / (1 - z⁻¹ + z⁻²/2)` in `f64`: its poles have the modulus `√½`. -/
example (L : ℝ) (x : List ℝ) (hx : ∀ v ∈ x, |v| ≤ L) (i : ℕ) (hi : i < x.length) (hL : 1 ≤ L) :
    |((sosfiltDyn (x.map (Fl.mk (r := binary64))) ([(⟨1, 0, 0, 1, -1, 1 / 2, 0, 0⟩ : Sos ℝ)].map
      (flSection binary64))).1.getD i 0).val - (sosfiltDyn x [⟨1, 0, 0, 1, -1, 1 / 2, 0, 0⟩]).1.getD i 0| ≤
      1 / 10 ^ 12 * L := by
  have h1 : binary64.u = 2 ^ (-53 : ℤ) := rfl
  have h2 : binary64.t = 2 ^ (-1075 : ℤ) := rfl
  have h5 : (2 : ℝ) ^ (-1075 : ℤ) ≤ 2 ^ (-100 : ℤ) := zpow_le_zpow_right₀ (by norm_num) (by norm_num)
  have e1 : (2 : ℝ) ^ (-53 : ℤ) = 1 / 2 ^ 53 := by rw [zpow_neg]; norm_num
  have e3 : (2 : ℝ) ^ (-100 : ℤ) = 1 / 2 ^ 100 := by rw [zpow_neg]; norm_num
  rw [e3] at h5
  have h0 : (0 : ℝ) ≤ 2 ^ (-1075 : ℤ) := by positivity
  have := (C124_error [(⟨1, 0, 0, 1, -1, 1 / 2, 0, 0⟩ : Sos ℝ)] (by simp [AtRest]) (1 / 4) (by norm_num) (by
    intro s hs z hz
    obtain rfl := List.mem_singleton.mp hs
    push_cast at hz
    -- `(z - 1/2)² = -1/4`
    have hz2 : (2 * z - 1 - Complex.I) * (2 * z - 1 + Complex.I) = 0 := by
      linear_combination 4 * hz - Complex.I_sq
    have key : ‖z‖ ^ 2 ≤ (1 - 1 / 4 : ℝ) ^ 2 := by
      rw [← Complex.normSq_eq_norm_sq]
      rcases mul_eq_zero.mp hz2 with k | k
      · obtain rfl : z = ⟨1 / 2, 1 / 2⟩ := by
          have a := congrArg Complex.re k
          have b := congrArg Complex.im k
          simp at a b
          apply Complex.ext <;> simp <;> linarith
        simp [Complex.normSq]; norm_num
      · obtain rfl : z = ⟨1 / 2, -1 / 2⟩ := by
          have a := congrArg Complex.re k
          have b := congrArg Complex.im k
          simp at a b
          apply Complex.ext <;> simp <;> linarith
        simp [Complex.normSq]; norm_num
    exact abs_le_of_sq_le_sq' key (by norm_num) |>.2) binary64 (by rw [h1, e1]; norm_num) L x hx).2 i hi
  refine this.trans ?_
  simp only [numSize, List.map_cons, List.map_nil, List.prod_cons, List.prod_nil, List.length_cons, List.length_nil]
  rw [h1, h2, e1]
  norm_num at h5 ⊢
  nlinarith

end SciRs.Props

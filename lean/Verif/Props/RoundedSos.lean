import Verif.Spec.BinaryRounding
import Verif.Lemmas.RoundedSos
import Verif.Props.SosfiltAlgebra
import Mathlib.Data.List.GetD

/-!
# C72: filtering in floating-point arithmetic

`Rounding` (Spec/Rounding.lean) is floating-point arithmetic without overflow: unit roundoff `u`,
underflow error `t`.
-/

namespace SciRs.Props

open SciRs SciRs.Spec SciRs.Rounded

/-- A section with the same numbers, in rounded arithmetic. -/
def flSection (r : Rounding) (s : Sos ℝ) : Sos (Fl r) :=
  ⟨⟨s.b0⟩, ⟨s.b1⟩, ⟨s.b2⟩, ⟨s.a0⟩, ⟨s.a1⟩, ⟨s.a2⟩, ⟨s.zi0⟩, ⟨s.zi1⟩⟩

/-- **C72** For stable sections the rounding error of `sosfilt` does not grow with the length of the
signal.  There are a constant `K` and a precision `u0`, depending on the sections only, such that in
every arithmetic at least that precise, for every level `L` of the input and the initial state, each
output sample is within `K (u L + t)` of the exact one. -/
theorem C72_error_bounded (sos : List (Sos ℝ)) (hs : ∀ s ∈ sos, Stable s) :
    ∃ K u0 : ℝ, 0 < u0 ∧ ∀ (r : Rounding), r.u ≤ u0 → ∀ L : ℝ,
      (∀ s ∈ sos, |s.zi0| ≤ L ∧ |s.zi1| ≤ L) →
      ∀ x : List ℝ, (∀ v ∈ x, |v| ≤ L) →
        (sosfiltDyn (x.map (Fl.mk (r := r))) (sos.map (flSection r))).1.length = x.length ∧
        ∀ i (hi : i < x.length),
        |((sosfiltDyn (x.map (Fl.mk (r := r))) (sos.map (flSection r))).1.getD i 0).val
          - (sosfiltDyn x sos).1.getD i 0| ≤ K * (r.u * L + r.t) := by
  obtain ⟨K, u0, _, hu0, H⟩ := cascade_err sos hs
  refine ⟨K, u0, hu0, ?_⟩
  intro r hr L hz x hx
  refine ⟨by rw [(C24_length _ _).1]; simp, ?_⟩
  intro i hi
  have hL : 0 ≤ L := (abs_nonneg _).trans (hx x[i] (List.getElem_mem hi))
  rw [C20_sosfilt_dyn_eq_cascade, C20_sosfilt_dyn_eq_cascade]
  have := H r hr L 0 hL le_rfl hz x (x.map (Fl.mk (r := r))) (by simp) (fun j => ?_) (fun j => ?_) i
  · rw [zero_add] at this
    exact this
  · rw [List.getD_eq_getElem?_getD]
    by_cases hj : j < x.length
    · rw [List.getElem?_eq_getElem hj]
      exact hx _ (List.getElem_mem hj)
    · rw [List.getElem?_eq_none (by omega)]
      simpa using hL
  · rw [List.getD_eq_getElem?_getD, List.getD_eq_getElem?_getD]
    by_cases hj : j < x.length
    · simp [List.getElem?_eq_getElem hj]
    · rw [List.getElem?_eq_none (by simpa using hj), List.getElem?_eq_none (by simpa using hj)]
      simp

/-- **C72** Bounded input, bounded output, in floating point: for stable sections and any input level
there is one bound for the computed outputs of all signals of that level, in every arithmetic that is
precise enough. -/
theorem C72_bibo (sos : List (Sos ℝ)) (hs : ∀ s ∈ sos, Stable s) (M : ℝ) :
    ∃ K u0 : ℝ, 0 < u0 ∧ ∀ (r : Rounding), r.u ≤ u0 → r.t ≤ 1 →
      ∀ x : List ℝ, (∀ v ∈ x, |v| ≤ M) →
      ∀ i, |((sosfiltDyn (x.map (Fl.mk (r := r))) (sos.map (flSection r))).1.getD i 0).val| ≤ K := by
  obtain ⟨K1, u1, hu1, H1⟩ := C72_error_bounded sos hs
  obtain ⟨K2, H2⟩ := C26_bibo sos hs M
  -- a level for the state and the input
  obtain ⟨L, hL, hLM, hLz⟩ : ∃ L : ℝ, 0 ≤ L ∧ M ≤ L ∧ ∀ s ∈ sos, |s.zi0| ≤ L ∧ |s.zi1| ≤ L := by
    clear hs H1 H2 hu1
    induction sos with
    | nil => exact ⟨|M|, abs_nonneg _, le_abs_self _, by simp⟩
    | cons s ss ih =>
      obtain ⟨L, a, b, c⟩ := ih
      refine ⟨L + |s.zi0| + |s.zi1|, by positivity, by linarith [abs_nonneg s.zi0, abs_nonneg s.zi1],
        ?_⟩
      intro t ht
      have := abs_nonneg s.zi0
      have := abs_nonneg s.zi1
      rcases List.mem_cons.mp ht with rfl | ht
      · constructor <;> linarith
      · obtain ⟨d, e⟩ := c t ht
        constructor <;> linarith
  refine ⟨|K2| + |K1| * (L + 1), min u1 1, lt_min hu1 one_pos, ?_⟩
  intro r hr ht x hx i
  have hu0 := r.u_nonneg
  have ht0 := r.t_nonneg
  obtain ⟨hlen, he⟩ := H1 r (hr.trans (min_le_left _ _)) L hLz x (fun v hv => (hx v hv).trans hLM)
  have hlen2 : (sosfiltDyn x sos).1.length = x.length := (C24_length x sos).1
  by_cases hi : i < x.length
  · have h1 := he i hi
    have hi2 : i < (sosfiltDyn x sos).1.length := by rw [hlen2]; exact hi
    have h2 := H2 x hx (sosfiltDyn x sos).1[i] (List.getElem_mem hi2)
    rw [← List.getD_eq_getElem _ (0 : ℝ)] at h2
    have h3 : K1 * (r.u * L + r.t) ≤ |K1| * (L + 1) := by
      have a : r.u * L + r.t ≤ L + 1 := by
        have : r.u * L ≤ 1 * L := mul_le_mul_of_nonneg_right (hr.trans (min_le_right _ _)) hL
        linarith
      have b : 0 ≤ r.u * L + r.t := by positivity
      calc K1 * (r.u * L + r.t) ≤ |K1| * (r.u * L + r.t) :=
            mul_le_mul_of_nonneg_right (le_abs_self _) b
        _ ≤ _ := mul_le_mul_of_nonneg_left a (abs_nonneg _)
    set p := ((sosfiltDyn (x.map (Fl.mk (r := r))) (sos.map (flSection r))).1.getD i 0).val
    set q := (sosfiltDyn x sos).1.getD i 0
    have h4 := abs_add_le (p - q) q
    rw [sub_add_cancel] at h4
    linarith [le_abs_self K2]
  · rw [List.getD_eq_getElem?_getD, List.getElem?_eq_none (by omega)]
    simp only [Option.getD_none, Fl.val_zero, abs_zero]
    positivity

/-- Double precision is an arithmetic of the kind the theorems are about, with `u = 2⁻⁵³`. -/
example : binary64.u = 2 ^ (-53 : ℤ) ∧ binary64.t = 2 ^ (-1075 : ℤ) :=
  ⟨by norm_num [binary64, Binary.rounding], by norm_num [binary64, Binary.rounding]⟩

end SciRs.Props

import Verif.Lemmas.IeeeSos
import Verif.Props.RoundedSos
import Verif.Props.SosfiltExact

/-!
# C81: filtering with overflow, infinities and NaN

`Ieee f` (Spec/Ieee.lean) is floating-point arithmetic with the special values of IEEE 754.
-/

namespace SciRs.Props

open SciRs SciRs.Spec SciRs.Spec.Ieee

section

variable {f : Format}

/-- **C81** A sample that is infinite or NaN spoils every later output: from that time on no output is finite,
whatever the (non-empty) list of sections, their coefficients and their state. -/
theorem C81_nonfinite_poisons (sos : List (Sos (Ieee f))) (hne : sos ≠ []) (x : List (Ieee f)) (i j : ℕ)
    (hij : i ≤ j) (hj : j < x.length) (h : ¬ (x[i]'(by omega)).Finite) :
    ¬ ((sosfiltDyn x sos).1[j]'(by rw [(C24_length x sos).1]; exact hj)).Finite := by
  intro hc
  apply h
  simp only [C20_sosfilt_dyn_eq_cascade] at hc
  exact cascade_finite sos hne x j hj hc i hij

/-- **C81** The same for a stream cut into blocks and pushed through any mixture of the four functions: it stays
spoilt across the calls. -/
theorem C81_nonfinite_poisons_stream (cs : List (Api (Ieee f) × List (Ieee f))) (hfit : ∀ c ∈ cs, c.1.Fits c.2)
    (sos : List (Sos (Ieee f))) (hne : sos ≠ []) (i j : ℕ) (hij : i ≤ j) (hj : j < (cs.map (fun c : Api (Ieee f) × List (Ieee f) => c.2)).flatten.length)
    (h : ¬ ((cs.map (fun c : Api (Ieee f) × List (Ieee f) => c.2)).flatten[i]'(by omega)).Finite) :
    ∃ out st, pushAll cs sos = .ok (out, st) ∧ ∃ hj' : j < out.length, ¬ out[j].Finite :=
  ⟨(sosfiltDyn (cs.map (fun c : Api (Ieee f) × List (Ieee f) => c.2)).flatten sos).1, (sosfiltDyn (cs.map (fun c : Api (Ieee f) × List (Ieee f) => c.2)).flatten sos).2,
    C21_chunked cs sos hfit, by rw [(C24_length _ _).1]; exact hj, C81_nonfinite_poisons sos hne _ i j hij hj h⟩

theorem tdf2_nan (b0 b1 b2 a1 a2 z1 : Ieee f) (x : List (Ieee f)) :
    ∀ v ∈ (tdf2 b0 b1 b2 a1 a2 nan z1 x).1, v = nan := by
  induction x generalizing z1 with
  | nil => simp [tdf2]
  | cons u x ih => simpa [tdf2] using ih nan

theorem tdf2_nan_from (b0 b1 b2 a1 a2 z0 z1 : Ieee f) (x : List (Ieee f)) (i j : ℕ) (hij : i ≤ j)
    (hj : j < x.length) (h : x[i]'(by omega) = nan) :
    (tdf2 b0 b1 b2 a1 a2 z0 z1 x).1[j]'(by rw [Ieee.tdf2_length]; exact hj) = nan := by
  induction x generalizing z0 z1 i j with
  | nil => simp at hj
  | cons u x ih =>
    rcases i with _ | i
    · have hu : u = nan := h
      subst hu
      have e : (tdf2 b0 b1 b2 a1 a2 z0 z1 (nan :: x)).1 = nan :: (tdf2 b0 b1 b2 a1 a2 nan nan x).1 := by
        simp [tdf2]
      have hm := List.getElem_mem (l := (tdf2 b0 b1 b2 a1 a2 z0 z1 (nan :: x)).1) (n := j)
        (by rw [Ieee.tdf2_length]; exact hj)
      revert hm
      generalize ((tdf2 b0 b1 b2 a1 a2 z0 z1 (nan :: x)).1[j]'(by rw [Ieee.tdf2_length]; exact hj)) = w
      intro hm
      rw [e] at hm
      rcases List.mem_cons.mp hm with hm | hm
      · exact hm
      · exact tdf2_nan _ _ _ _ _ _ _ _ hm
    · rcases j with _ | j
      · omega
      · exact ih _ _ i j (by omega) (by simpa using hj) h

/-- **C81** After a NaN every output is NaN. -/
theorem C81_nan (sos : List (Sos (Ieee f))) (hne : sos ≠ []) (x : List (Ieee f)) (i j : ℕ) (hij : i ≤ j)
    (hj : j < x.length) (h : x[i]'(by omega) = nan) :
    (sosfiltDyn x sos).1[j]'(by rw [(C24_length x sos).1]; exact hj) = nan := by
  simp only [C20_sosfilt_dyn_eq_cascade]
  induction sos generalizing x i with
  | nil => exact absurd rfl hne
  | cons s ss ih =>
    have h1 := tdf2_nan_from s.b0 s.b1 s.b2 s.a1 s.a2 s.zi0 s.zi1 x i j hij hj h
    by_cases hs : ss = []
    · subst hs
      exact h1
    · exact ih hs _ j le_rfl (by rw [Ieee.tdf2_length]; exact hj) h1

/-- **C81** The outputs before the bad sample are those of the signal cut off there. -/
theorem C81_before (sos : List (Sos (Ieee f))) (x x' : List (Ieee f)) (i : ℕ) (h : x.take i = x'.take i) :
    (sosfiltDyn x sos).1.take i = (sosfiltDyn x' sos).1.take i := by
  rw [C24_causal, C24_causal, h]

end

/-- The same numbers as IEEE data. -/
noncomputable def ieeeSection (f : Format) (s : Sos ℝ) : Sos (Ieee f) :=
  ⟨ofReal f s.b0, ofReal f s.b1, ofReal f s.b2, ofReal f s.a0, ofReal f s.a1, ofReal f s.a2, ofReal f s.zi0,
    ofReal f s.zi1⟩

theorem forall₂_map_left_right {α β γ : Type} {R : α → β → Prop} (g : γ → α) (k : γ → β) (l : List γ)
    (h : ∀ a, R (g a) (k a)) : List.Forall₂ R (l.map g) (l.map k) := by
  induction l with
  | nil => exact List.Forall₂.nil
  | cons a l ih => exact List.Forall₂.cons (h a) ih

/-- **C81** A finite output is the result of an overflow-free computation: for any real coefficients, states and
samples, if the IEEE output at some time is finite, it is the number computed with unbounded exponents. -/
theorem C81_finite_value (f : Format) (sos : List (Sos ℝ)) (x : List ℝ) (i : ℕ) (hi : i < x.length) (v : ℝ) (s : Bool)
    (h : (sosfiltDyn (x.map (ofReal f)) (sos.map (ieeeSection f))).1[i]'(by
      rw [(C24_length _ _).1]; simpa using hi) = fin v s) :
    v = ((sosfiltDyn (x.map (Fl.mk (r := f.r))) (sos.map (flSection f.r))).1.getD i 0).val := by
  have hsec : List.Forall₂ SosAgrees (sos.map (ieeeSection f)) (sos.map (flSection f.r)) :=
    forall₂_map_left_right _ _ _ (fun s => ⟨agrees_fin _ _, agrees_fin _ _, agrees_fin _ _, agrees_fin _ _,
      agrees_fin _ _, agrees_fin _ _, agrees_fin _ _⟩)
  have hx : List.Forall₂ Agrees (x.map (ofReal f)) (x.map (Fl.mk (r := f.r))) :=
    forall₂_map_left_right _ _ _ (fun v => agrees_fin _ _)
  have hag := cascade_agrees _ _ hsec _ _ hx
  simp only [C20_sosfilt_dyn_eq_cascade] at h ⊢
  have hl : i < (cascade (sos.map (flSection f.r)) (x.map (Fl.mk (r := f.r)))).1.length := by
    rw [Ieee.cascade_length]; simpa using hi
  rw [List.getD_eq_getElem _ _ hl]
  exact (List.forall₂_iff_get.mp hag).2 i (by rw [Ieee.cascade_length]; simpa using hi) hl v s h

/-- **C81** Hence the error bound of C72 holds for every finite output of stable sections, with overflow taken into
account: whatever the level of the input, an output that is not infinite or NaN is within `K (u L + t)` of the exact
one. -/
theorem C81_finite_accurate (sos : List (Sos ℝ)) (hs : ∀ s ∈ sos, Stable s) :
    ∃ K u0 : ℝ, 0 < u0 ∧ ∀ f : Format, f.r.u ≤ u0 → ∀ L : ℝ, (∀ s ∈ sos, |s.zi0| ≤ L ∧ |s.zi1| ≤ L) →
      ∀ x : List ℝ, (∀ v ∈ x, |v| ≤ L) → ∀ i (hi : i < x.length) (v : ℝ) (s : Bool),
        (sosfiltDyn (x.map (ofReal f)) (sos.map (ieeeSection f))).1[i]'(by
          rw [(C24_length _ _).1]; simpa using hi) = fin v s →
        |v - (sosfiltDyn x sos).1.getD i 0| ≤ K * (f.r.u * L + f.r.t) := by
  obtain ⟨K, u0, hu0, H⟩ := C72_error_bounded sos hs
  refine ⟨K, u0, hu0, fun f hf L hz x hx i hi v s h => ?_⟩
  rw [C81_finite_value f sos x i hi v s h]
  exact (H f.r hf L hz x hx).2 i hi

/-- **C81** Stable sections do not overflow: there is a constant `K`, depending on the sections only, such that with
samples and states up to `L` all outputs, of signals of any length, are finite as soon as `K (L + t)` is at most the
largest finite number. -/
theorem C81_no_overflow (sos : List (Sos ℝ)) (hs : ∀ s ∈ sos, Stable s) :
    ∃ K u0 : ℝ, 0 < u0 ∧ ∀ f : Format, f.r.u ≤ u0 → ∀ L : ℝ, 0 ≤ L → (∀ s ∈ sos, |s.zi0| ≤ L ∧ |s.zi1| ≤ L) →
      K * (L + f.r.t) ≤ f.top → ∀ x : List ℝ, (∀ v ∈ x, |v| ≤ L) →
        ∀ v ∈ (sosfiltDyn (x.map (ofReal f)) (sos.map (ieeeSection f))).1, v.Finite := by
  obtain ⟨K, u0, _, hu0, H⟩ := cascade_exact sos hs
  refine ⟨K, u0, hu0, fun f hf L hL hz htop x hx v hv => ?_⟩
  have hlev : ∀ i, |x.getD i 0| ≤ L := by
    intro j
    rw [List.getD_eq_getElem?_getD]
    by_cases hj : j < x.length
    · rw [List.getElem?_eq_getElem hj]
      exact hx _ (List.getElem_mem hj)
    · rw [List.getElem?_eq_none (by omega)]
      simpa using hL
  have herr : ∀ j, |((x.map (Fl.mk (r := f.r))).getD j 0).val - x.getD j 0| ≤ 0 := by
    intro j
    rw [List.getD_eq_getElem?_getD, List.getD_eq_getElem?_getD]
    by_cases hj : j < x.length
    · simp [List.getElem?_eq_getElem hj]
    · rw [List.getElem?_eq_none (by simpa using hj), List.getElem?_eq_none (by simpa using hj)]
      simp
  have := H f hf L 0 hL le_rfl hz (by rw [add_zero]; exact htop) x (x.map (Fl.mk (r := f.r))) (x.map (ofReal f))
    (by simp) hlev herr (forall₂_map_left_right _ _ _ (fun v => exact_ofReal v))
  rw [C20_sosfilt_dyn_eq_cascade] at hv
  obtain ⟨i, hi, rfl⟩ := List.mem_iff_getElem.mp hv
  have hl := this.length_eq
  obtain ⟨s, hs'⟩ := (List.forall₂_iff_get.mp this).2 i hi (by rw [← hl]; exact hi)
  exact ⟨_, s, hs'⟩

/-- The level condition can be met: the largest `f64` exceeds any multiple of a level small enough. -/
example (K : ℝ) (h : K ≤ 10 ^ 300) : K * (1 + f64.r.t) ≤ f64.top := by
  have ht : f64.r.t ≤ 1 := by
    change (2 : ℝ) ^ (-1074 - 1 : ℤ) ≤ 1
    exact zpow_le_one_of_nonpos₀ (by norm_num) (by norm_num)
  change _ ≤ ((2 : ℝ) ^ 53 - 1) * 2 ^ 971
  have h1 : (10 : ℝ) ^ 300 ≤ 2 ^ 1000 := by
    rw [show (10 : ℝ) ^ 300 = (10 ^ 3) ^ 100 by rw [← pow_mul], show (2 : ℝ) ^ 1000 = (2 ^ 10) ^ 100 by rw [← pow_mul]]
    exact pow_le_pow_left₀ (by norm_num) (by norm_num) _
  have h2 : (2 : ℝ) ^ 1000 = 2 ^ 29 * 2 ^ 971 := by rw [← pow_add]
  have h3 : (0 : ℝ) < 2 ^ 971 := by positivity
  have h4 : K * (1 + f64.r.t) ≤ 2 ^ 1000 * 2 := mul_le_mul (h.trans h1) (by linarith)
    (by have := f64.r.t_nonneg; linarith) (by positivity)
  rw [h2] at h4
  refine h4.trans ?_
  rw [mul_right_comm]
  exact mul_le_mul_of_nonneg_right (by norm_num) h3.le

/-- Overflow does happen: a section with gain 2 and no feedback turns the largest finite number into an infinity.  Its
successors are NaN because the feedback product is zero times infinity. -/
theorem C81_overflow_example (f : Format) (htop : 0 < f.top) (hr : f.r.rnd (2 * f.top) = 2 * f.top) :
    (sosfiltDyn [ofReal f f.top, 0] [⟨ofReal f 2, 0, 0, ofReal f 1, 0, 0, 0, 0⟩]).1 = [inf false, nan] := by
  have h1 : (ofReal f 2 * ofReal f f.top : Ieee f) = inf false := by
    change pack f (2 * f.top) _ = _
    unfold pack
    rw [hr, abs_of_pos (by linarith), if_pos (by linarith)]
    simp [htop.le]
  have h2 : (inf false + 0 : Ieee f) = inf false := rfl
  have h3 : (0 * inf false : Ieee f) = nan := by
    change (if (0 : ℝ) = 0 then nan else _) = _
    simp
  have e : (sosfiltDyn [ofReal f f.top, 0] [⟨ofReal f 2, 0, 0, ofReal f 1, 0, 0, 0, 0⟩]).1 =
      [ofReal f 2 * ofReal f f.top + 0,
        ofReal f 2 * 0 + (0 * ofReal f f.top - 0 * (ofReal f 2 * ofReal f f.top + 0) + 0)] := rfl
  rw [e, h1, h2, h3]
  simp

end SciRs.Props

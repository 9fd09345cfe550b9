import Verif.Props.SosfiltAlgebra
import Verif.Spec.FrequencyResponse
import Mathlib.Data.List.GetD

/-! Helper lemmas: stable sections driven by a sinusoid. -/

namespace SciRs

open Spec SciRs.Props

/-- `Re (c z^n)` for `n < N`. -/
noncomputable def sig (c z : ℂ) (N : ℕ) : List ℝ := (List.range N).map fun n => (c * z ^ n).re

theorem sig_length (c z : ℂ) (N : ℕ) : (sig c z N).length = N := by simp [sig]

theorem sig_getD (c z : ℂ) (N i : ℕ) (h : i < N) : (sig c z N).getD i 0 = (c * z ^ i).re := by
  simp [sig, List.getD_eq_getElem?_getD, List.getElem?_range h]

theorem sig_succ (c z : ℂ) (N : ℕ) : sig c z (N + 1) = c.re :: sig (c * z) z N := by
  simp only [sig, List.range_succ_eq_map, List.map_cons, List.map_map, pow_zero, mul_one, List.cons.injEq, true_and]
  refine List.map_congr_left fun n _ => ?_
  simp only [Function.comp, Nat.succ_eq_add_one, pow_succ]
  congr 1; ring

/-- The response of one section at `z`. -/
noncomputable def secH (s : Sos ℝ) (z : ℂ) : ℂ :=
  (s.b0 * z ^ 2 + s.b1 * z + s.b2) / (z ^ 2 + s.a1 * z + s.a2)

/-- The response of all sections at `z`. -/
noncomputable def casH (sos : List (Sos ℝ)) (z : ℂ) : ℂ := (sos.map fun s => secH s z).prod

theorem tdf2_sig (s : Sos ℝ) (z : ℂ) (hz : z ≠ 0) (hd : z ^ 2 + s.a1 * z + s.a2 ≠ 0) (N : ℕ) (c : ℂ) :
    (tdf2 s.b0 s.b1 s.b2 s.a1 s.a2 ((secH s z - s.b0) * c).re ((s.b2 - s.a2 * secH s z) * c / z).re (sig c z N)).1
      = sig (secH s z * c) z N := by
  have hH : secH s z * (z ^ 2 + s.a1 * z + s.a2) = s.b0 * z ^ 2 + s.b1 * z + s.b2 := by
    unfold secH; exact div_mul_cancel₀ _ hd
  induction N generalizing c with
  | zero => rfl
  | succ N ih =>
    rw [sig_succ, sig_succ]
    simp only [tdf2]
    have e0 : s.b0 * c.re + ((secH s z - s.b0) * c).re = (secH s z * c).re := by
      rw [← Complex.re_ofReal_mul, ← Complex.add_re]; congr 1; ring
    rw [e0]
    have e1 : s.b1 * c.re - s.a1 * (secH s z * c).re + ((s.b2 - s.a2 * secH s z) * c / z).re
        = ((secH s z - s.b0) * (c * z)).re := by
      rw [← Complex.re_ofReal_mul, ← Complex.re_ofReal_mul, ← Complex.sub_re, ← Complex.add_re]
      congr 1
      field_simp
      linear_combination (-c) * hH
    have e2 : s.b2 * c.re - s.a2 * (secH s z * c).re = ((s.b2 - s.a2 * secH s z) * (c * z) / z).re := by
      rw [← Complex.re_ofReal_mul, ← Complex.re_ofReal_mul, ← Complex.sub_re]
      congr 1
      field_simp
    rw [e1, e2, ih, mul_assoc]

/-- The sections with the states that the sinusoid `Re (c z^n)` goes on from without a transient. -/
noncomputable def sinState (z : ℂ) : ℂ → List (Sos ℝ) → List (Sos ℝ)
  | _, [] => []
  | c, s :: ss => { s with zi0 := ((secH s z - s.b0) * c).re, zi1 := ((s.b2 - s.a2 * secH s z) * c / z).re } ::
      sinState z (secH s z * c) ss

theorem sinState_coeffs (z c : ℂ) (sos : List (Sos ℝ)) : (sinState z c sos).map coeffs = sos.map coeffs := by
  induction sos generalizing c with
  | nil => rfl
  | cons s ss ih => simp [sinState, ih, coeffs]

theorem cascade_sig (z : ℂ) (hz : z ≠ 0) (sos : List (Sos ℝ)) (hd : ∀ s ∈ sos, z ^ 2 + s.a1 * z + s.a2 ≠ 0)
    (N : ℕ) (c : ℂ) : (cascade (sinState z c sos) (sig c z N)).1 = sig (casH sos z * c) z N := by
  induction sos generalizing c with
  | nil => simp [cascade, sinState, casH]
  | cons s ss ih =>
    simp only [sinState, cascade]
    rw [tdf2_sig s z hz (hd s (by simp)) N c, ih (fun t ht => hd t (by simp [ht]))]
    simp only [casH, List.map_cons, List.prod_cons]
    congr 1; ring

/-- The delays of all sections are at most `t`. -/
def StatesLe (t : ℝ) (sos : List (Sos ℝ)) : Prop := ∀ s ∈ sos, |s.zi0| ≤ t ∧ |s.zi1| ≤ t

theorem section_gain (s : Sos ℝ) (ρ : ℝ) (hρ : 0 ≤ ρ) (hs : RootsBelow ρ s) :
    ∃ K, 0 ≤ K ∧ ∀ t : ℝ, 0 ≤ t → ∀ z0 z1 : ℝ, |z0| ≤ t → |z1| ≤ t → ∀ x : List ℝ,
      (∀ i, |x.getD i 0| ≤ t * ρ ^ i) →
      ∀ i, |(tdf2 s.b0 s.b1 s.b2 s.a1 s.a2 z0 z1 x).1.getD i 0| ≤ K * t * ρ ^ i := by
  obtain ⟨r1, r2, h1, h2, h3, h4⟩ := exists_roots s.a1 s.a2
  have hr1 : 0 < ρ - ‖r1‖ := by linarith [hs r1 h3]
  have hr2 : 0 < ρ - ‖r2‖ := by linarith [hs r2 h4]
  obtain ⟨U1, hU1e⟩ : ∃ U, U = |s.b2 - s.a2 * s.b0| + ‖r1‖ * |s.b1 - s.a1 * s.b0| := ⟨_, rfl⟩
  obtain ⟨U0, hU0e⟩ : ∃ U, U = |s.b1 - s.a1 * s.b0| := ⟨_, rfl⟩
  have hU1 : 0 ≤ U1 := by rw [hU1e]; positivity
  have hU0 : 0 ≤ U0 := by rw [hU0e]; positivity
  obtain ⟨V, hVe⟩ : ∃ V, V = U1 / (ρ - ‖r1‖) + (1 + ‖r1‖) := ⟨_, rfl⟩
  have hV0 : 0 ≤ V := by rw [hVe]; positivity
  obtain ⟨Z, hZe⟩ : ∃ Z, Z = (V + U0) / (ρ - ‖r2‖) + 1 := ⟨_, rfl⟩
  have hZ0 : 0 ≤ Z := by rw [hZe]; positivity
  have hV : ‖r1‖ * V + U1 * 1 ≤ V * ρ := by
    have : V * (ρ - ‖r1‖) = U1 + (1 + ‖r1‖) * (ρ - ‖r1‖) := by
      rw [hVe]; field_simp
    have h5 := mul_nonneg (show 0 ≤ 1 + ‖r1‖ by positivity) hr1.le
    linarith
  have hZ : ‖r2‖ * Z + V + U0 * 1 ≤ Z * ρ := by
    have : Z * (ρ - ‖r2‖) = (V + U0) + 1 * (ρ - ‖r2‖) := by
      rw [hZe]; field_simp
    linarith
  refine ⟨|s.b0| * 1 + Z, by positivity, fun t ht z0 z1 hz0 hz1 x hx i => ?_⟩
  by_cases hi : i < x.length
  · have := tdf2_bound s.b0 s.b1 s.b2 s.a1 s.a2 r1 r2 h1 h2 ρ 1 V Z hρ (by rw [← hU1e]; exact hV)
      (by rw [← hU0e]; exact hZ) x z0 z1 t ht ?_ ?_ (fun j => by have := hx j; linarith) i hi
    · linarith
    · calc ‖(z1 : ℂ) + r1 * z0‖ ≤ ‖(z1 : ℂ)‖ + ‖r1 * (z0 : ℂ)‖ := norm_add_le _ _
        _ = |z1| + ‖r1‖ * |z0| := by simp [Complex.norm_real]
        _ ≤ t + ‖r1‖ * t := by gcongr
        _ = (1 + ‖r1‖) * t := by ring
        _ ≤ V * t := by
          apply mul_le_mul_of_nonneg_right _ ht
          rw [hVe]; exact le_add_of_nonneg_left (div_nonneg hU1 hr1.le)
    · calc |z0| ≤ 1 * t := by rw [one_mul]; exact hz0
        _ ≤ Z * t := by
          apply mul_le_mul_of_nonneg_right _ ht
          rw [hZe]; exact le_add_of_nonneg_left (div_nonneg (add_nonneg hV0 hU0) hr2.le)
  · rw [List.getD_eq_getElem?_getD, List.getElem?_eq_none (by rw [tdf2_length']; omega)]
    simp only [Option.getD_none, abs_zero]
    positivity

theorem cascade_gain (sos : List (Sos ℝ)) (ρ : ℝ) (hρ : 0 ≤ ρ) (hs : ∀ s ∈ sos, RootsBelow ρ s) :
    ∃ K, 1 ≤ K ∧ ∀ t : ℝ, 0 ≤ t → ∀ sos' : List (Sos ℝ), sos'.map coeffs = sos.map coeffs → StatesLe t sos' →
      ∀ x : List ℝ, (∀ i, |x.getD i 0| ≤ t * ρ ^ i) → ∀ i, |(cascade sos' x).1.getD i 0| ≤ K * t * ρ ^ i := by
  induction sos with
  | nil =>
    refine ⟨1, le_rfl, fun t _ sos' hc _ x hx i => ?_⟩
    obtain rfl : sos' = [] := by simpa using hc
    simpa [cascade] using hx i
  | cons s ss ih =>
    obtain ⟨K1, hK1, h1⟩ := section_gain s ρ hρ (hs s (by simp))
    obtain ⟨K2, hK2, h2⟩ := ih (fun t ht => hs t (by simp [ht]))
    refine ⟨K2 * max 1 K1, ?_, fun t ht sos' hc hst x hx i => ?_⟩
    · exact one_le_mul_of_one_le_of_one_le hK2 (le_max_left _ _)
    cases sos' with
    | nil => simp at hc
    | cons u us =>
      simp only [List.map_cons, List.cons.injEq] at hc
      obtain ⟨hsu, hrest⟩ := hc
      simp only [coeffs, Prod.mk.injEq] at hsu
      obtain ⟨e1, e2, e3, e4, e5, e6⟩ := hsu
      simp only [cascade, e1, e2, e3, e5, e6]
      have hu := hst u (by simp)
      have a1 := h1 t ht u.zi0 u.zi1 hu.1 hu.2 x hx
      have hmt : t ≤ max 1 K1 * t := by
        have := mul_le_mul_of_nonneg_right (le_max_left 1 K1) ht; linarith
      have := h2 (max 1 K1 * t) (by positivity) us hrest
        (fun v hv => ⟨(hst v (by simp [hv])).1.trans hmt, (hst v (by simp [hv])).2.trans hmt⟩) _
        (fun j => (a1 j).trans (by gcongr; exact le_max_right _ _)) i
      linarith

theorem stable_den_ne (s : Sos ℝ) (hs : RootsBelow 1 s) (z : ℂ) (hz : ‖z‖ = 1) :
    z ^ 2 + s.a1 * z + s.a2 ≠ 0 := fun h => by
  have := hs z h; linarith

theorem secH_bound (s : Sos ℝ) (hs : RootsBelow 1 s) :
    ∃ G, 0 ≤ G ∧ ∀ z : ℂ, ‖z‖ = 1 → ‖secH s z‖ ≤ G := by
  obtain ⟨r1, r2, h1, h2, h3, h4⟩ := exists_roots s.a1 s.a2
  have hr1 : 0 < 1 - ‖r1‖ := by linarith [hs r1 h3]
  have hr2 : 0 < 1 - ‖r2‖ := by linarith [hs r2 h4]
  refine ⟨(|s.b0| + |s.b1| + |s.b2|) / ((1 - ‖r1‖) * (1 - ‖r2‖)), by positivity, fun z hz => ?_⟩
  have hden : z ^ 2 + s.a1 * z + s.a2 = (z - r1) * (z - r2) := by
    linear_combination z * h1 - h2
  unfold secH
  rw [hden, norm_div, norm_mul]
  have b1 : 1 - ‖r1‖ ≤ ‖z - r1‖ := by have := norm_sub_norm_le z r1; rw [hz] at this; exact this
  have b2 : 1 - ‖r2‖ ≤ ‖z - r2‖ := by have := norm_sub_norm_le z r2; rw [hz] at this; exact this
  have hn : ‖(s.b0 : ℂ) * z ^ 2 + s.b1 * z + s.b2‖ ≤ |s.b0| + |s.b1| + |s.b2| := by
    refine (norm_add_le _ _).trans (add_le_add ((norm_add_le _ _).trans (add_le_add ?_ ?_)) ?_) <;>
      simp [Complex.norm_real, hz]
  gcongr

theorem casH_bound (sos : List (Sos ℝ)) (hs : ∀ s ∈ sos, RootsBelow 1 s) :
    ∃ G, 1 ≤ G ∧ ∀ z : ℂ, ‖z‖ = 1 → ‖casH sos z‖ ≤ G := by
  induction sos with
  | nil => exact ⟨1, le_rfl, fun z _ => by simp [casH]⟩
  | cons s ss ih =>
    obtain ⟨G1, hG1, h1⟩ := secH_bound s (hs s (by simp))
    obtain ⟨G2, hG2, h2⟩ := ih (fun t ht => hs t (by simp [ht]))
    refine ⟨max 1 G1 * G2, one_le_mul_of_one_le_of_one_le (le_max_left _ _) hG2, fun z hz => ?_⟩
    have : casH (s :: ss) z = secH s z * casH ss z := by simp [casH]
    rw [this, norm_mul]
    exact mul_le_mul ((h1 z hz).trans (le_max_right _ _)) (h2 z hz) (norm_nonneg _) (by positivity)

theorem sinState_bound (sos : List (Sos ℝ)) (hs : ∀ s ∈ sos, RootsBelow 1 s) :
    ∃ G, 1 ≤ G ∧ ∀ z c : ℂ, ‖z‖ = 1 → StatesLe (G * ‖c‖) (sinState z c sos) := by
  induction sos with
  | nil => exact ⟨1, le_rfl, fun z c _ s hs => by simp [sinState] at hs⟩
  | cons s ss ih =>
    obtain ⟨G1, hG1, h1⟩ := secH_bound s (hs s (by simp))
    obtain ⟨G2, hG2, h2⟩ := ih (fun t ht => hs t (by simp [ht]))
    refine ⟨1 + (G1 + |s.b0|) + (|s.b2| + |s.a2| * G1) + G2 * G1, ?_, fun z c hz t ht => ?_⟩
    · have : 0 ≤ (G1 + |s.b0|) + (|s.b2| + |s.a2| * G1) + G2 * G1 := by positivity
      linarith
    have hc := norm_nonneg c
    have hH := h1 z hz
    rcases List.mem_cons.mp ht with rfl | ht
    · constructor
      · calc |((secH s z - s.b0) * c).re| ≤ ‖(secH s z - s.b0) * c‖ := Complex.abs_re_le_norm _
          _ = ‖secH s z - s.b0‖ * ‖c‖ := norm_mul _ _
          _ ≤ (G1 + |s.b0|) * ‖c‖ := by
            gcongr
            refine (norm_sub_le _ _).trans (add_le_add hH ?_)
            simp [Complex.norm_real]
          _ ≤ _ := by
            apply mul_le_mul_of_nonneg_right _ hc
            have : 0 ≤ 1 + (|s.b2| + |s.a2| * G1) + G2 * G1 := by positivity
            linarith
      · calc |((s.b2 - s.a2 * secH s z) * c / z).re| ≤ ‖(s.b2 - s.a2 * secH s z) * c / z‖ := Complex.abs_re_le_norm _
          _ = ‖s.b2 - s.a2 * secH s z‖ * ‖c‖ := by rw [norm_div, hz, div_one, norm_mul]
          _ ≤ (|s.b2| + |s.a2| * G1) * ‖c‖ := by
            gcongr
            refine (norm_sub_le _ _).trans (add_le_add (by simp [Complex.norm_real]) ?_)
            rw [norm_mul, Complex.norm_real, Real.norm_eq_abs]
            gcongr
          _ ≤ _ := by
            apply mul_le_mul_of_nonneg_right _ hc
            have : 0 ≤ 1 + (G1 + |s.b0|) + G2 * G1 := by positivity
            linarith
    · have := h2 z (secH s z * c) hz t ht
      have hle : G2 * ‖secH s z * c‖ ≤ (1 + (G1 + |s.b0|) + (|s.b2| + |s.a2| * G1) + G2 * G1) * ‖c‖ := by
        rw [norm_mul]
        calc G2 * (‖secH s z‖ * ‖c‖) ≤ G2 * (G1 * ‖c‖) := by gcongr
          _ = (G2 * G1) * ‖c‖ := by ring
          _ ≤ _ := by
            apply mul_le_mul_of_nonneg_right _ hc
            have : 0 ≤ 1 + (G1 + |s.b0|) + (|s.b2| + |s.a2| * G1) := by positivity
            linarith
      exact ⟨this.1.trans hle, this.2.trans hle⟩

/-- Superposition, for the cascade and sample by sample. -/
theorem cascade_superpose (α β : ℝ) (sos sos' : List (Sos ℝ)) (hc : sos.map coeffs = sos'.map coeffs)
    (x y : List ℝ) (hl : x.length = y.length) (i : ℕ) (hi : i < x.length) :
    (cascade (List.zipWith (linSos α β) sos sos') (lin α β x y)).1.getD i 0 =
      α * (cascade sos x).1.getD i 0 + β * (cascade sos' y).1.getD i 0 := by
  have h := C24_linear α β sos sos' hc x y hl
  simp only [C20_sosfilt_dyn_eq_cascade] at h
  rw [h]
  have h1 : i < (cascade sos x).1.length := by rw [cascade_length]; exact hi
  have h2 : i < (cascade sos' y).1.length := by rw [cascade_length]; omega
  simp only [lin]
  rw [List.getD_eq_getElem _ _ (by simp [h1, h2]), List.getD_eq_getElem _ _ h1, List.getD_eq_getElem _ _ h2,
    List.getElem_zipWith]

theorem zipWith_coeffs (α β : ℝ) (sos sos' : List (Sos ℝ)) (hc : sos.map coeffs = sos'.map coeffs) :
    (List.zipWith (linSos α β) sos sos').map coeffs = sos.map coeffs := by
  induction sos generalizing sos' with
  | nil => rfl
  | cons s ss ih =>
    cases sos' with
    | nil => simp at hc
    | cons t ts =>
      simp only [List.map_cons, List.cons.injEq] at hc
      simp [ih ts hc.2, linSos, coeffs]

theorem zipWith_states (t u : ℝ) (sos sos' : List (Sos ℝ)) (h : StatesLe t sos) (h' : StatesLe u sos') :
    StatesLe (t + u) (List.zipWith (linSos 1 (-1)) sos sos') := by
  intro s hs
  induction sos generalizing sos' with
  | nil => simp at hs
  | cons a as ih =>
    cases sos' with
    | nil => simp at hs
    | cons b bs =>
      simp only [List.zipWith_cons_cons, List.mem_cons] at hs
      rcases hs with rfl | hs
      · have h1 := h a (by simp)
        have h2 := h' b (by simp)
        simp only [linSos, one_mul, neg_mul]
        exact ⟨(abs_add_le _ _).trans (by rw [abs_neg]; exact add_le_add h1.1 h2.1),
          (abs_add_le _ _).trans (by rw [abs_neg]; exact add_le_add h1.2 h2.2)⟩
      · exact ih bs (fun v hv => h v (by simp [hv])) (fun v hv => h' v (by simp [hv])) hs

/-- A signal that is a sinusoid up to an error of size `t ρ^i` gives the filtered sinusoid up to such an
error. -/
theorem sinusoid_one_sided (sos : List (Sos ℝ)) (ρ : ℝ) (hρ : 0 < ρ) (hρ1 : ρ < 1) (hs : ∀ s ∈ sos, RootsBelow ρ s) :
    ∃ K, 1 ≤ K ∧ ∀ (t : ℝ) (z c : ℂ) (sos' : List (Sos ℝ)) (x : List ℝ), ‖z‖ = 1 → ‖c‖ ≤ t →
      sos'.map coeffs = sos.map coeffs → StatesLe t sos' →
      (∀ i < x.length, |x.getD i 0 - (c * z ^ i).re| ≤ t * ρ ^ i) →
      ∀ i < x.length, |(cascade sos' x).1.getD i 0 - (casH sos z * c * z ^ i).re| ≤ K * t * ρ ^ i := by
  have hs1 : ∀ s ∈ sos, RootsBelow 1 s := fun s h z hz => (hs s h z hz).trans hρ1
  obtain ⟨K, hK, hgain⟩ := cascade_gain sos ρ hρ.le hs
  obtain ⟨G, hG, hstate⟩ := sinState_bound sos hs1
  refine ⟨K * (1 + G), one_le_mul_of_one_le_of_one_le hK (by linarith), fun t z c sos' x hz hc hco hst hx i hi => ?_⟩
  have ht : 0 ≤ t := (norm_nonneg c).trans hc
  have hz0 : z ≠ 0 := by rintro rfl; simp at hz
  have hsi := sinState_coeffs z c sos
  have hlen : x.length = (sig c z x.length).length := (sig_length c z _).symm
  have hsup := cascade_superpose 1 (-1) sos' (sinState z c sos) (by rw [hsi, hco]) x (sig c z x.length) hlen i hi
  rw [cascade_sig z hz0 sos (fun s h => stable_den_ne s (hs1 s h) z hz), sig_getD _ _ _ _ hi] at hsup
  have hb := hgain ((1 + G) * t) (by positivity) (List.zipWith (linSos 1 (-1)) sos' (sinState z c sos))
    (by rw [zipWith_coeffs _ _ _ _ (by rw [hsi, hco]), hco])
    (by
      have := zipWith_states t (G * t) sos' (sinState z c sos) hst
        (fun s h => ⟨((hstate z c hz) s h).1.trans (by gcongr), ((hstate z c hz) s h).2.trans (by gcongr)⟩)
      intro s h
      have := this s h
      rw [show (1 + G) * t = t + G * t by ring]
      exact this)
    (lin 1 (-1) x (sig c z x.length)) (fun j => by
      by_cases hj : j < x.length
      · have e : (lin 1 (-1) x (sig c z x.length)).getD j 0 = x.getD j 0 - (c * z ^ j).re := by
          rw [List.getD_eq_getElem _ _ (by simp [lin, sig_length, hj])]
          simp only [lin, List.getElem_zipWith]
          rw [← List.getD_eq_getElem x 0 hj, ← List.getD_eq_getElem (sig c z x.length) 0 (by rw [sig_length]; exact hj),
            sig_getD _ _ _ _ hj]
          ring
        rw [e]
        refine (hx j hj).trans ?_
        have : t ≤ (1 + G) * t := by nlinarith
        gcongr
      · rw [List.getD_eq_getElem?_getD, List.getElem?_eq_none (by simp [lin, sig_length]; omega)]
        simp only [Option.getD_none, abs_zero]
        positivity) i
  rw [hsup] at hb
  calc _ = |1 * (cascade sos' x).1.getD i 0 + -1 * (casH sos z * c * z ^ i).re| := by congr 1; ring
    _ ≤ _ := hb
    _ = _ := by ring

/-- `casH` is the frequency response. -/
theorem freqResponse_eq (sos : List (Sos ℝ)) (h : ∀ s ∈ sos, s.a0 = 1) (ω : ℝ) :
    freqResponse sos ω = casH sos (Complex.exp (Complex.I * ω)) := by
  unfold freqResponse sosNum sosDen casH
  induction sos with
  | nil => simp
  | cons s ss ih =>
    simp only [List.map_cons, List.prod_cons]
    rw [mul_div_mul_comm, ih (fun t ht => h t (by simp [ht]))]
    congr 1
    simp [coeffVal, secH, h s (by simp), Finset.sum_range_succ]

end SciRs

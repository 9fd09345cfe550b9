import Verif.Props.Sosfiltfilt
import Verif.Spec.Forgetting
import Mathlib.Data.List.GetD

/-! Helper lemmas: two runs of stable sections approach each other. -/

namespace SciRs

open Spec Props

/-! ### One section -/

theorem tdf2_append {F : Type} [Add F] [Sub F] [Mul F] (b0 b1 b2 a1 a2 z0 z1 : F) (x y : List F) :
    tdf2 b0 b1 b2 a1 a2 z0 z1 (x ++ y) =
      ((tdf2 b0 b1 b2 a1 a2 z0 z1 x).1 ++
        (tdf2 b0 b1 b2 a1 a2 (tdf2 b0 b1 b2 a1 a2 z0 z1 x).2.1 (tdf2 b0 b1 b2 a1 a2 z0 z1 x).2.2 y).1,
        (tdf2 b0 b1 b2 a1 a2 (tdf2 b0 b1 b2 a1 a2 z0 z1 x).2.1 (tdf2 b0 b1 b2 a1 a2 z0 z1 x).2.2 y).2) := by
  induction x generalizing z0 z1 with
  | nil => rfl
  | cons v x ih => simp [tdf2, ih]

theorem getD_append_zeros (x : List ℝ) (k i : ℕ) :
    (x ++ List.replicate k 0).getD i 0 = x.getD i 0 := by
  by_cases h : i < x.length
  · rw [List.getD_append _ _ _ _ h]
  · rw [List.getD_append_right _ _ _ _ (by omega)]
    rw [List.getD_eq_default _ _ (by omega : x.length ≤ i), List.getD_eq_getElem?_getD, List.getElem?_replicate]
    split <;> rfl

/-- A bound for one section that is proportional to the bound for the state and the input. -/
theorem section_uniform (b0 b1 b2 a1 a2 ρ : ℝ) (hρ : 0 < ρ)
    (hs : ∀ z : ℂ, z ^ 2 + a1 * z + a2 = 0 → ‖z‖ < ρ) :
    ∃ K, 1 ≤ K ∧ ∀ (M z0 z1 : ℝ) (x : List ℝ), |z0| ≤ M → |z1| ≤ M → (∀ i, |x.getD i 0| ≤ M * ρ ^ i) →
      (∀ i, |(tdf2 b0 b1 b2 a1 a2 z0 z1 x).1.getD i 0| ≤ K * M * ρ ^ i) ∧
      |(tdf2 b0 b1 b2 a1 a2 z0 z1 x).2.1| ≤ K * M * ρ ^ x.length ∧
      |(tdf2 b0 b1 b2 a1 a2 z0 z1 x).2.2| ≤ K * M * ρ ^ x.length := by
  obtain ⟨r1, r2, h1, h2, h3, h4⟩ := exists_roots a1 a2
  have hr1 : 0 < ρ - ‖r1‖ := by linarith [hs r1 h3]
  have hr2 : 0 < ρ - ‖r2‖ := by linarith [hs r2 h4]
  obtain ⟨U1, hU1'⟩ : ∃ U, U = |b2 - a2 * b0| + ‖r1‖ * |b1 - a1 * b0| := ⟨_, rfl⟩
  obtain ⟨U0, hU0'⟩ : ∃ U, U = |b1 - a1 * b0| := ⟨_, rfl⟩
  have hU1 : 0 ≤ U1 := by rw [hU1']; positivity
  have hU0 : 0 ≤ U0 := by rw [hU0']; positivity
  obtain ⟨V, hV'⟩ : ∃ V, V = U1 / (ρ - ‖r1‖) + (1 + ‖r1‖) := ⟨_, rfl⟩
  have hV0 : 0 ≤ V := by rw [hV']; positivity
  obtain ⟨Z, hZ'⟩ : ∃ Z, Z = (V + U0) / (ρ - ‖r2‖) + 1 := ⟨_, rfl⟩
  have hZ1 : 1 ≤ Z := by
    rw [hZ']
    have : 0 ≤ (V + U0) / (ρ - ‖r2‖) := by positivity
    linarith
  have hV : ‖r1‖ * V + U1 ≤ V * ρ := by
    have : V * (ρ - ‖r1‖) = U1 + (1 + ‖r1‖) * (ρ - ‖r1‖) := by
      rw [hV']; field_simp
    have : 0 ≤ (1 + ‖r1‖) * (ρ - ‖r1‖) := by positivity
    linarith
  have hZ : ‖r2‖ * Z + V + U0 ≤ Z * ρ := by
    have : Z * (ρ - ‖r2‖) = V + U0 + (ρ - ‖r2‖) := by
      rw [hZ']; field_simp
    linarith
  have hcore : ∀ (M z0 z1 : ℝ) (x : List ℝ), |z0| ≤ M → |z1| ≤ M → (∀ i, |x.getD i 0| ≤ M * ρ ^ i) →
      ∀ i, |(tdf2 b0 b1 b2 a1 a2 z0 z1 x).1.getD i 0| ≤ (|b0| + Z) * M * ρ ^ i := by
    intro M z0 z1 x hz0 hz1 hx i
    have hM : 0 ≤ M := (abs_nonneg _).trans hz0
    by_cases hi : i < x.length
    · have := tdf2_bound b0 b1 b2 a1 a2 r1 r2 h1 h2 ρ 1 V Z hρ.le (by rw [mul_one, ← hU1']; exact hV)
        (by rw [mul_one, ← hU0']; exact hZ) x z0 z1 M hM ?_ ?_ ?_ i hi
      · calc _ ≤ (|b0| * 1 + Z) * ρ ^ i * M := this
          _ = _ := by ring
      · calc ‖(z1 : ℂ) + r1 * z0‖ ≤ ‖(z1 : ℂ)‖ + ‖r1 * z0‖ := norm_add_le _ _
          _ = |z1| + ‖r1‖ * |z0| := by simp only [norm_mul, Complex.norm_real, Real.norm_eq_abs]
          _ ≤ M + ‖r1‖ * M := by gcongr
          _ = (1 + ‖r1‖) * M := by ring
          _ ≤ V * M := by
              refine mul_le_mul_of_nonneg_right ?_ hM
              rw [hV']
              exact le_add_of_nonneg_left (by positivity)
      · exact hz0.trans (le_mul_of_one_le_left hM hZ1)
      · intro j
        calc _ ≤ M * ρ ^ j := hx j
          _ = 1 * ρ ^ j * M := by ring
    · rw [List.getD_eq_default _ _ (by rw [tdf2_length']; omega), abs_zero]
      positivity
  obtain ⟨K, hK'⟩ : ∃ K, K = |b0| + Z := ⟨_, rfl⟩
  rw [← hK'] at hcore
  have hK1 : 1 ≤ K := by rw [hK']; linarith [abs_nonneg b0]
  refine ⟨K * (1 + ρ + |a1|), ?_, fun M z0 z1 x hz0 hz1 hx => ?_⟩
  · have := abs_nonneg a1
    nlinarith
  have hM : 0 ≤ M := (abs_nonneg _).trans hz0
  have hfac : 1 ≤ 1 + ρ + |a1| := by linarith [abs_nonneg a1]
  have hmono : ∀ n, K * M * ρ ^ n ≤ K * (1 + ρ + |a1|) * M * ρ ^ n := by
    intro n
    refine mul_le_mul_of_nonneg_right (mul_le_mul_of_nonneg_right ?_ hM) (by positivity)
    exact le_mul_of_one_le_right (by linarith) hfac
  refine ⟨fun i => (hcore M z0 z1 x hz0 hz1 hx i).trans (hmono i), ?_⟩
  have hc2 := hcore M z0 z1 (x ++ List.replicate 2 0) hz0 hz1 (by
    intro i
    rw [getD_append_zeros]
    exact hx i)
  rw [tdf2_append] at hc2
  have hlen : (tdf2 b0 b1 b2 a1 a2 z0 z1 x).1.length = x.length := tdf2_length' _ _ _ _ _ _ _ x
  have p0 := hc2 x.length
  have p1 := hc2 (x.length + 1)
  rw [List.getD_append_right _ _ _ _ (by omega), hlen] at p0 p1
  generalize (tdf2 b0 b1 b2 a1 a2 z0 z1 x).2.1 = w0 at *
  generalize (tdf2 b0 b1 b2 a1 a2 z0 z1 x).2.2 = w1 at *
  simp only [List.replicate, tdf2, Nat.sub_self, List.getD_cons_zero, mul_zero, zero_add, zero_sub,
    Nat.add_sub_cancel_left, List.getD_cons_succ] at p0 p1
  refine ⟨p0.trans (hmono _), ?_⟩
  have e : w1 = (-(a1 * w0) + w1) + a1 * w0 := by ring
  calc |w1| = |(-(a1 * w0) + w1) + a1 * w0| := by rw [← e]
    _ ≤ |-(a1 * w0) + w1| + |a1 * w0| := abs_add_le _ _
    _ ≤ K * M * ρ ^ (x.length + 1) + |a1| * (K * M * ρ ^ x.length) := by
        rw [abs_mul]
        exact add_le_add p1 (mul_le_mul_of_nonneg_left p0 (abs_nonneg _))
    _ = K * (ρ + |a1|) * M * ρ ^ x.length := by ring
    _ ≤ K * (1 + ρ + |a1|) * M * ρ ^ x.length := by
        refine mul_le_mul_of_nonneg_right (mul_le_mul_of_nonneg_right ?_ hM) (by positivity)
        exact mul_le_mul_of_nonneg_left (by linarith) (by linarith)

theorem lin_sub_getD (x y : List ℝ) (h : x.length = y.length) (i : ℕ) :
    (lin 1 (-1) x y).getD i 0 = x.getD i 0 - y.getD i 0 := by
  rw [lin_getD _ _ _ _ h]; ring

/-- The same for the difference of two runs. -/
theorem section_diff (b0 b1 b2 a1 a2 ρ : ℝ) (hρ : 0 < ρ)
    (hs : ∀ z : ℂ, z ^ 2 + a1 * z + a2 = 0 → ‖z‖ < ρ) :
    ∃ K, 1 ≤ K ∧ ∀ (M z0 z1 w0 w1 : ℝ) (x y : List ℝ), x.length = y.length → |z0 - w0| ≤ M → |z1 - w1| ≤ M →
      (∀ i, |x.getD i 0 - y.getD i 0| ≤ M * ρ ^ i) →
      (∀ i, |(tdf2 b0 b1 b2 a1 a2 z0 z1 x).1.getD i 0 - (tdf2 b0 b1 b2 a1 a2 w0 w1 y).1.getD i 0| ≤ K * M * ρ ^ i) ∧
      |(tdf2 b0 b1 b2 a1 a2 z0 z1 x).2.1 - (tdf2 b0 b1 b2 a1 a2 w0 w1 y).2.1| ≤ K * M * ρ ^ x.length ∧
      |(tdf2 b0 b1 b2 a1 a2 z0 z1 x).2.2 - (tdf2 b0 b1 b2 a1 a2 w0 w1 y).2.2| ≤ K * M * ρ ^ x.length := by
  obtain ⟨K, hK, H⟩ := section_uniform b0 b1 b2 a1 a2 ρ hρ hs
  refine ⟨K, hK, fun M z0 z1 w0 w1 x y hl h0 h1 hx => ?_⟩
  have hlin := tdf2_linear b0 b1 b2 a1 a2 1 (-1) x y hl z0 z1 w0 w1
  have := H M (1 * z0 + -1 * w0) (1 * z1 + -1 * w1) (lin 1 (-1) x y) (by simpa [sub_eq_add_neg] using h0)
    (by simpa [sub_eq_add_neg] using h1) (fun i => by rw [lin_sub_getD _ _ hl]; exact hx i)
  rw [hlin] at this
  obtain ⟨p, q, r⟩ := this
  have hlen : (lin 1 (-1) x y).length = x.length := lin_length _ _ _ _ hl
  rw [hlen] at q r
  refine ⟨fun i => ?_, by simpa [sub_eq_add_neg] using q, by simpa [sub_eq_add_neg] using r⟩
  have := p i
  rwa [lin_sub_getD _ _ (by rw [tdf2_length', tdf2_length', hl])] at this

/-! ### The cascade -/

theorem cascade_diff (sos : List (Sos ℝ)) (ρ : ℝ) (hρ : 0 < ρ) (hs : ∀ s ∈ sos, RootsBelow ρ s) :
    ∃ K, 1 ≤ K ∧ ∀ (M : ℝ) (l l' : List (Sos ℝ)), 0 ≤ M → l.map coeffs = sos.map coeffs → StatesWithin M l l' →
      ∀ x y : List ℝ, x.length = y.length → (∀ i, |x.getD i 0 - y.getD i 0| ≤ M * ρ ^ i) →
      (∀ i, |(cascade l x).1.getD i 0 - (cascade l' y).1.getD i 0| ≤ K * M * ρ ^ i) ∧
      StatesWithin (K * M * ρ ^ x.length) (cascade l x).2 (cascade l' y).2 := by
  induction sos with
  | nil =>
    refine ⟨1, le_rfl, fun M l l' hM hl hw x y hxy hx => ?_⟩
    obtain rfl : l = [] := by simpa using hl
    cases hw
    exact ⟨by simpa [cascade] using hx, .nil⟩
  | cons s ss ih =>
    obtain ⟨K1, hK1, H1⟩ := section_diff s.b0 s.b1 s.b2 s.a1 s.a2 ρ hρ (hs s (by simp))
    obtain ⟨K2, hK2, H2⟩ := ih (fun t ht => hs t (by simp [ht]))
    refine ⟨K1 * K2, one_le_mul_of_one_le_of_one_le hK1 hK2, fun M l l' hM hl hw x y hxy hx => ?_⟩
    cases l with
    | nil => simp at hl
    | cons c l =>
      cases hw with
      | @cons _ c' _ l' hc hw =>
        simp only [List.map_cons, List.cons.injEq] at hl
        obtain ⟨hcs, hl⟩ := hl
        obtain ⟨hcc, hz0, hz1⟩ := hc
        have e1 := hcs
        have e2 := hcc
        simp only [coeffs, Prod.mk.injEq] at e1 e2
        obtain ⟨f1, f2, f3, f4, f5, f6⟩ := e1
        obtain ⟨g1, g2, g3, g4, g5, g6⟩ := e2
        have hM1 : M ≤ K1 * M := le_mul_of_one_le_left hM hK1
        obtain ⟨p, q, r⟩ := H1 M c.zi0 c.zi1 c'.zi0 c'.zi1 x y hxy hz0 hz1 hx
        simp only [cascade, ← g1, ← g2, ← g3, ← g5, ← g6, f1, f2, f3, f5, f6]
        obtain ⟨p', q'⟩ := H2 (K1 * M) l l' (by nlinarith) hl
          (hw.imp fun _ _ h => ⟨h.1, h.2.1.trans hM1, h.2.2.trans hM1⟩) _ _
          (by rw [tdf2_length', tdf2_length', hxy]) p
        rw [tdf2_length'] at q'
        have hmono : K1 * M * ρ ^ x.length ≤ K1 * K2 * M * ρ ^ x.length := by
          refine mul_le_mul_of_nonneg_right (mul_le_mul_of_nonneg_right ?_ hM) (by positivity)
          exact le_mul_of_one_le_right (by linarith) hK2
        refine ⟨fun i => (p' i).trans (le_of_eq (by ring)), .cons ⟨?_, q.trans hmono, r.trans hmono⟩
          (q'.imp fun _ _ h => ⟨h.1, h.2.1.trans (le_of_eq (by ring)), h.2.2.trans (le_of_eq (by ring))⟩)⟩
        simp [g4]

/-- A constant that works for a decay rate below one and for the rate one. -/
theorem run_diff (sos : List (Sos ℝ)) (hs : ∀ s ∈ sos, Stable s) :
    ∃ K ρ : ℝ, 1 ≤ K ∧ 0 < ρ ∧ ρ < 1 ∧ ∀ (M σ : ℝ) (l l' : List (Sos ℝ)), σ = ρ ∨ σ = 1 → 0 ≤ M →
      l.map coeffs = sos.map coeffs → StatesWithin M l l' → ∀ x y : List ℝ, x.length = y.length →
      (∀ p, (∀ i ≤ p, |x.getD i 0 - y.getD i 0| ≤ M * σ ^ i) →
        |(sosfiltDyn x l).1.getD p 0 - (sosfiltDyn y l').1.getD p 0| ≤ K * M * σ ^ p) ∧
      ((∀ i, |x.getD i 0 - y.getD i 0| ≤ M * σ ^ i) →
        StatesWithin (K * M * σ ^ x.length) (sosfiltDyn x l).2 (sosfiltDyn y l').2) := by
  obtain ⟨ρ, h0, h1, h⟩ := exists_radius sos hs
  obtain ⟨K1, hK1, H1⟩ := cascade_diff sos ρ h0 h
  obtain ⟨K2, hK2, H2⟩ := cascade_diff sos 1 one_pos hs
  have key : ∀ (σ : ℝ), σ = ρ ∨ σ = 1 → ∀ (M : ℝ) (l l' : List (Sos ℝ)), 0 ≤ M → l.map coeffs = sos.map coeffs →
      StatesWithin M l l' → ∀ x y : List ℝ, x.length = y.length → (∀ i, |x.getD i 0 - y.getD i 0| ≤ M * σ ^ i) →
      (∀ i, |(cascade l x).1.getD i 0 - (cascade l' y).1.getD i 0| ≤ max K1 K2 * M * σ ^ i) ∧
      StatesWithin (max K1 K2 * M * σ ^ x.length) (cascade l x).2 (cascade l' y).2 := by
    intro σ hσ M l l' hM hl hw x y hxy hx
    have hσ0 : 0 < σ := by rcases hσ with rfl | rfl <;> [exact h0; exact one_pos]
    have step : ∀ K, K ≤ max K1 K2 → ∀ n, K * M * σ ^ n ≤ max K1 K2 * M * σ ^ n := by
      intro K hK n
      exact mul_le_mul_of_nonneg_right (mul_le_mul_of_nonneg_right hK hM) (by positivity)
    rcases hσ with rfl | rfl
    · obtain ⟨p, q⟩ := H1 M l l' hM hl hw x y hxy hx
      have := step K1 (le_max_left _ _)
      exact ⟨fun i => (p i).trans (this i), q.imp fun _ _ h => ⟨h.1, h.2.1.trans (this _), h.2.2.trans (this _)⟩⟩
    · obtain ⟨p, q⟩ := H2 M l l' hM hl hw x y hxy hx
      have := step K2 (le_max_right _ _)
      exact ⟨fun i => (p i).trans (this i), q.imp fun _ _ h => ⟨h.1, h.2.1.trans (this _), h.2.2.trans (this _)⟩⟩
  refine ⟨max K1 K2, ρ, hK1.trans (le_max_left _ _), h0, h1, fun M σ l l' hσ hM hl hw x y hxy => ⟨fun p hp => ?_, fun hx => ?_⟩⟩
  · have hg : ∀ (z : List ℝ) (i : ℕ), (z.take (p + 1)).getD i 0 = if i ≤ p then z.getD i 0 else 0 := by
      intro z i
      rw [List.getD_eq_getElem?_getD, List.getElem?_take]
      split <;> rename_i hi
      · rw [if_pos (by omega), List.getD_eq_getElem?_getD]
      · rw [if_neg (by omega)]; rfl
    have hσ0 : 0 < σ := by rcases hσ with rfl | rfl <;> [exact h0; exact one_pos]
    have := (key σ hσ M l l' hM hl hw (x.take (p + 1)) (y.take (p + 1)) (by simp [hxy]) (fun i => by
      rw [hg, hg]
      split
      · exact hp i (by omega)
      · rw [sub_self, abs_zero]; positivity)).1 p
    rwa [← C20_sosfilt_dyn_eq_cascade, ← C20_sosfilt_dyn_eq_cascade, ← C24_causal, ← C24_causal, hg, hg,
      if_pos le_rfl, if_pos le_rfl] at this
  · rw [C20_sosfilt_dyn_eq_cascade, C20_sosfilt_dyn_eq_cascade]
    exact (key σ hσ M l l' hM hl hw x y hxy hx).2

/-- What `run_diff` provides. -/
def RunBound (sos : List (Sos ℝ)) (K ρ : ℝ) : Prop :=
  ∀ (M σ : ℝ) (l l' : List (Sos ℝ)), σ = ρ ∨ σ = 1 → 0 ≤ M →
      l.map coeffs = sos.map coeffs → StatesWithin M l l' → ∀ x y : List ℝ, x.length = y.length →
      (∀ p, (∀ i ≤ p, |x.getD i 0 - y.getD i 0| ≤ M * σ ^ i) →
        |(sosfiltDyn x l).1.getD p 0 - (sosfiltDyn y l').1.getD p 0| ≤ K * M * σ ^ p) ∧
      ((∀ i, |x.getD i 0 - y.getD i 0| ≤ M * σ ^ i) →
        StatesWithin (K * M * σ ^ x.length) (sosfiltDyn x l).2 (sosfiltDyn y l').2)

theorem _root_.SciRs.Spec.StatesWithin.refl {M : ℝ} (hM : 0 ≤ M) (l : List (Sos ℝ)) : StatesWithin M l l := by
  unfold StatesWithin
  rw [List.forall₂_same]
  intro s _
  simp [hM]

theorem _root_.SciRs.Spec.StatesWithin.mono {M N : ℝ} (h : M ≤ N) {l l' : List (Sos ℝ)} (hw : StatesWithin M l l') :
    StatesWithin N l l' :=
  hw.imp fun _ _ q => ⟨q.1, q.2.1.trans h, q.2.2.trans h⟩

theorem _root_.SciRs.Spec.StatesWithin.symm {M : ℝ} {l l' : List (Sos ℝ)} (hw : StatesWithin M l l') : StatesWithin M l' l := by
  induction hw with
  | nil => exact .nil
  | cons h _ ih => exact .cons ⟨h.1.symm, by rw [abs_sub_comm]; exact h.2.1, by rw [abs_sub_comm]; exact h.2.2⟩ ih

theorem _root_.SciRs.Spec.StatesWithin.trans {M N : ℝ} {l l' l'' : List (Sos ℝ)} (h : StatesWithin M l l') (h' : StatesWithin N l' l'') :
    StatesWithin (M + N) l l'' := by
  induction h generalizing l'' with
  | nil => cases h'; exact .nil
  | cons h _ ih =>
    cases h' with
    | cons k hk => exact .cons ⟨h.1.trans k.1, (abs_sub_le _ _ _).trans (add_le_add h.2.1 k.2.1),
        (abs_sub_le _ _ _).trans (add_le_add h.2.2 k.2.2)⟩ (ih hk)

theorem _root_.SciRs.Spec.StatesWithin.coeffs {M : ℝ} {l l' : List (Sos ℝ)} (hw : StatesWithin M l l') :
    l.map coeffs = l'.map coeffs := by
  induction hw with
  | nil => rfl
  | cons h _ ih => simp only [List.map_cons, ih]; rw [show Props.coeffs _ = Props.coeffs _ from h.1]

theorem scaleStates_within {Z : ℝ} (c c' : ℝ) (l : List (Sos ℝ)) (hZ : ∀ s ∈ l, |s.zi0| ≤ Z ∧ |s.zi1| ≤ Z) :
    StatesWithin (Z * |c - c'|) (scaleStates c l) (scaleStates c' l) := by
  unfold scaleStates StatesWithin
  rw [List.forall₂_map_left_iff, List.forall₂_map_right_iff, List.forall₂_same]
  intro s hs
  obtain ⟨h0, h1⟩ := hZ s hs
  refine ⟨rfl, ?_, ?_⟩ <;> beta_reduce <;> simp only [← mul_sub, abs_mul]
  · exact mul_le_mul_of_nonneg_right h0 (abs_nonneg _)
  · exact mul_le_mul_of_nonneg_right h1 (abs_nonneg _)

theorem scaled_coeffs (c : ℝ) (l : List (Sos ℝ)) : (scaleStates c l).map coeffs = l.map coeffs := by
  simp [scaleStates, Props.coeffs, Function.comp_def]

theorem exists_level (l : List (Sos ℝ)) : ∃ Z : ℝ, 1 ≤ Z ∧ ∀ s ∈ l, |s.zi0| ≤ Z ∧ |s.zi1| ≤ Z := by
  induction l with
  | nil => exact ⟨1, le_rfl, by simp⟩
  | cons s l ih =>
    obtain ⟨Z, h1, h2⟩ := ih
    have := abs_nonneg s.zi0
    have := abs_nonneg s.zi1
    refine ⟨Z + |s.zi0| + |s.zi1|, by linarith, fun t ht => ?_⟩
    rcases List.mem_cons.mp ht with rfl | ht
    · constructor <;> linarith
    · obtain ⟨d, e⟩ := h2 t ht
      constructor <;> linarith

theorem sosfiltZiLoop_coeffs (sos : List (Sos ℝ)) (scale : ℝ) (r : List (Sos ℝ)) (h : sosfiltZiLoop scale sos = .ok r) :
    r.map coeffs = sos.map coeffs := by
  induction sos generalizing scale r with
  | nil => cases h; rfl
  | cons s ss ih =>
    simp only [sosfiltZiLoop] at h
    cases h1 : lfilterZiDyn [s.b0, s.b1, s.b2] [s.a0, s.a1, s.a2] with
    | error e => rw [h1] at h; cases h
    | ok zi =>
      rw [h1, ok_bind] at h
      cases h2 : vecGet zi 0 with
      | error e => rw [h2] at h; cases h
      | ok z0 =>
        rw [h2, ok_bind] at h
        cases h3 : vecGet zi 1 with
        | error e => rw [h3] at h; cases h
        | ok z1 =>
          rw [h3, ok_bind] at h
          cases h4 : sosfiltZiLoop (scale * (sumIter [s.b0, s.b1, s.b2] / sumIter [s.a0, s.a1, s.a2])) ss with
          | error e => rw [h4] at h; cases h
          | ok rest =>
            rw [h4, ok_bind] at h
            cases h
            simp only [List.map_cons, ih _ _ h4]
            rfl

section passes

variable {sos : List (Sos ℝ)} {K ρ : ℝ}

theorem pow_anti (h0 : 0 < ρ) (h1 : ρ < 1) {m n : ℕ} (h : m ≤ n) : ρ ^ n ≤ ρ ^ m :=
  pow_le_pow_of_le_one h0.le h1.le h

/-- The forward pass. -/
theorem pass_forward (H : RunBound sos K ρ) (hK : 1 ≤ K) (h0 : 0 < ρ) (h1 : ρ < 1) {D A : ℝ} {r c : ℕ}
    {x y : List ℝ} (hx : AgreeNear D r c x y) {l l' : List (Sos ℝ)} (hl : l.map coeffs = sos.map coeffs)
    (hw : StatesWithin A l l') (hA : A ≤ D) (hAc : A * ρ ^ c ≤ D * ρ ^ r) :
    (∀ j, |(sosfiltDyn x l).1.getD j 0 - (sosfiltDyn y l').1.getD j 0| ≤ K * D) ∧
    ∀ j, c ≤ j → |(sosfiltDyn x l).1.getD j 0 - (sosfiltDyn y l').1.getD j 0| * ρ ^ j ≤ K * D * ρ ^ (r + c) := by
  have hD : 0 ≤ D := (abs_nonneg _).trans (hx.bound 0)
  have hall : ∀ j, |(sosfiltDyn x l).1.getD j 0 - (sosfiltDyn y l').1.getD j 0| ≤ K * D := by
    intro j
    have := (H D 1 l l' (.inr rfl) hD hl (hw.mono hA) x y hx.length).1 j (fun i _ => by simpa using hx.bound i)
    simpa using this
  refine ⟨hall, fun j hj => ?_⟩
  by_cases hjr : j < c + r
  · have hpc : 0 < ρ ^ c := by positivity
    have := (H (D * ρ ^ r / ρ ^ c) ρ l l' (.inl rfl) (by positivity) hl
      (hw.mono (by rw [le_div_iff₀ hpc]; exact hAc)) x y hx.length).1 j (fun i hi => by
        by_cases hn : c < i + r
        · rw [hx.near i hn (by omega), sub_self, abs_zero]
          positivity
        · refine (hx.bound i).trans ?_
          rw [div_mul_eq_mul_div, le_div_iff₀ hpc, mul_assoc, ← pow_add]
          exact mul_le_mul_of_nonneg_left (pow_anti h0 h1 (by omega)) hD)
    have hj2 : ρ ^ j ≤ ρ ^ c := pow_anti h0 h1 hj
    calc _ ≤ K * (D * ρ ^ r / ρ ^ c) * ρ ^ j * ρ ^ j := mul_le_mul_of_nonneg_right this (by positivity)
      _ = K * D * ρ ^ r / ρ ^ c * (ρ ^ j * ρ ^ j) := by ring
      _ ≤ K * D * ρ ^ r / ρ ^ c * (ρ ^ c * ρ ^ c) :=
          mul_le_mul_of_nonneg_left (mul_le_mul hj2 hj2 (by positivity) (by positivity)) (by positivity)
      _ = K * D * ρ ^ (r + c) := by rw [pow_add]; field_simp
  · exact mul_le_mul (hall j) (pow_anti h0 h1 (by omega)) (by positivity) (by positivity)

/-- The backward pass. -/
theorem pass_backward (H : RunBound sos K ρ) (h0 : 0 < ρ) {E A : ℝ} {r c : ℕ} {f g : List ℝ} (hE : 0 ≤ E)
    (hlen : f.length = g.length) (hc : c < f.length)
    (hf : ∀ j, c ≤ j → |f.getD j 0 - g.getD j 0| * ρ ^ j ≤ E * ρ ^ (r + c)) {l l' : List (Sos ℝ)}
    (hl : l.map coeffs = sos.map coeffs) (hw : StatesWithin A l l') (hAc : A * ρ ^ (f.length - 1 - c) ≤ E * ρ ^ r) :
    |(sosfiltDyn f.reverse l).1.getD (f.length - 1 - c) 0 - (sosfiltDyn g.reverse l').1.getD (f.length - 1 - c) 0|
      ≤ K * E * ρ ^ r := by
  obtain ⟨u, hu⟩ : ∃ u, u = f.length - 1 - c := ⟨_, rfl⟩
  rw [← hu] at hAc ⊢
  have hpu : 0 < ρ ^ u := by positivity
  have hrev : ∀ (h : List ℝ) (i : ℕ), i < h.length → h.reverse.getD i 0 = h.getD (h.length - 1 - i) 0 := by
    intro h i hi
    rw [List.getD_eq_getElem?_getD, List.getElem?_reverse hi, List.getD_eq_getElem?_getD]
  have := (H (E * ρ ^ r / ρ ^ u) ρ l l' (.inl rfl) (by positivity) hl
    (hw.mono (by rw [le_div_iff₀ hpu]; exact hAc)) f.reverse g.reverse (by simp [hlen])).1 u (fun i hi => by
      rw [hrev f i (by omega), hrev g i (by omega), ← hlen]
      have := hf (f.length - 1 - i) (by omega)
      have hpj : 0 < ρ ^ (f.length - 1 - i) := by positivity
      rw [← le_div_iff₀ hpj] at this
      refine this.trans (le_of_eq ?_)
      rw [div_mul_eq_mul_div, div_eq_div_iff hpj.ne' hpu.ne', mul_assoc, mul_assoc, mul_assoc, ← pow_add, ← pow_add,
        ← pow_add]
      congr 2
      omega)
  refine this.trans (le_of_eq ?_)
  field_simp

/-- A run compared with silence. -/
theorem bounded_run (H : RunBound sos K ρ) {M : ℝ} (hM : 0 ≤ M) {l l0 : List (Sos ℝ)}
    (hl : l.map coeffs = sos.map coeffs) (h0 : AtRest l0) (hw : StatesWithin M l l0) {x : List ℝ}
    (hx : ∀ i, |x.getD i 0| ≤ M) :
    (∀ i, |(sosfiltDyn x l).1.getD i 0| ≤ K * M) ∧ StatesWithin (K * M) (sosfiltDyn x l).2 l0 := by
  have hz := C24_shift l0 h0 [] x.length
  have hnil : sosfiltDyn ([] : List ℝ) l0 = ([], l0) := by rw [sosfiltDyn_eq]; rfl
  rw [List.append_nil, hnil, List.append_nil] at hz
  have hg : ∀ i, (List.replicate x.length (0 : ℝ)).getD i 0 = 0 := by
    intro i
    rw [List.getD_eq_getElem?_getD, List.getElem?_replicate]
    split <;> rfl
  have hb := H M 1 l l0 (.inr rfl) hM hl hw x (List.replicate x.length 0) (by simp)
  rw [hz] at hb
  refine ⟨fun i => ?_, ?_⟩
  · have := hb.1 i (fun j _ => by rw [hg, sub_zero, one_pow, mul_one]; exact hx j)
    rw [hg, sub_zero, one_pow, mul_one] at this
    exact this
  · have := hb.2 (fun j => by rw [hg, sub_zero, one_pow, mul_one]; exact hx j)
    rwa [one_pow, mul_one] at this

end passes

end SciRs

import Verif.Lemmas.Forgetting
import Verif.Props.RoundedFiltfilt

/-!
# C117: stable filters forget, zero-phase filtering is local
-/

namespace SciRs.Props

open SciRs SciRs.Spec SciRs.Rounded

/-- **C117** Two copies of a stable filter, started from different states and fed the same signal, approach each
other geometrically, in their outputs and in their states.  `K` and `ρ` depend on the coefficients only. -/
theorem C117_states (sos : List (Sos ℝ)) (hs : ∀ s ∈ sos, Stable s) :
    ∃ K ρ : ℝ, 0 < ρ ∧ ρ < 1 ∧ ∀ (M : ℝ) (l l' : List (Sos ℝ)), 0 ≤ M → l.map coeffs = sos.map coeffs →
      StatesWithin M l l' → ∀ x : List ℝ,
      (∀ i, |(sosfiltDyn x l).1.getD i 0 - (sosfiltDyn x l').1.getD i 0| ≤ K * M * ρ ^ i) ∧
      StatesWithin (K * M * ρ ^ x.length) (sosfiltDyn x l).2 (sosfiltDyn x l').2 := by
  obtain ⟨K, ρ, hK, h0, h1, H⟩ := run_diff sos hs
  refine ⟨K, ρ, h0, h1, fun M l l' hM hl hw x => ?_⟩
  have hz : ∀ i, |x.getD i 0 - x.getD i 0| ≤ M * ρ ^ i := by
    intro i
    rw [sub_self, abs_zero]
    positivity
  have := H M ρ l l' (.inl rfl) hM hl hw x x rfl
  exact ⟨fun i => this.1 i fun j _ => hz j, this.2 hz⟩

/-- **C117** The past is forgotten: after `k` samples that differ by at most `D`, and the same signal from then on, the
outputs approach each other geometrically. -/
theorem C117_past (sos : List (Sos ℝ)) (hs : ∀ s ∈ sos, Stable s) :
    ∃ K ρ : ℝ, 0 < ρ ∧ ρ < 1 ∧ ∀ (D : ℝ) (l : List (Sos ℝ)), 0 ≤ D → l.map coeffs = sos.map coeffs →
      ∀ past past' x : List ℝ, past.length = past'.length → (∀ i, |past.getD i 0 - past'.getD i 0| ≤ D) →
      ∀ i, |(sosfiltDyn (past ++ x) l).1.getD (past.length + i) 0 -
        (sosfiltDyn (past' ++ x) l).1.getD (past.length + i) 0| ≤ K * D * ρ ^ i := by
  obtain ⟨K, ρ, hK, h0, h1, H⟩ := run_diff sos hs
  refine ⟨K, ρ, h0, h1, fun D l hD hl past past' x hlen hd i => ?_⟩
  have hp : 0 < ρ ^ past.length := by positivity
  have := (H (D / ρ ^ past.length) ρ l l (.inl rfl) (by positivity) hl (StatesWithin.refl (by positivity) l)
    (past ++ x) (past' ++ x) (by simp [hlen])).1 (past.length + i) (fun j _ => by
      by_cases hj : j < past.length
      · rw [List.getD_append _ _ _ _ hj, List.getD_append _ _ _ _ (by omega)]
        refine (hd j).trans ?_
        rw [div_mul_eq_mul_div, le_div_iff₀ hp]
        exact mul_le_mul_of_nonneg_left (pow_anti h0 h1 hj.le) hD
      · rw [List.getD_append_right _ _ _ _ (by omega), List.getD_append_right _ _ _ _ (by omega), hlen, sub_self,
          abs_zero]
        positivity)
  refine this.trans (le_of_eq ?_)
  rw [pow_add]
  field_simp

/-! ### Zero-phase filtering -/

theorem extList_getD (y : List ℝ) (n j : ℕ) :
    (extList y n).getD j 0 = if j < y.length + 2 * n then oddExt y.length n (fun k => y.getD k 0) j else 0 := by
  simp only [extList, List.getD_eq_getElem?_getD, List.getElem?_map]
  split <;> rename_i h
  · rw [List.getElem?_range h]; rfl
  · rw [List.getElem?_eq_none (by simpa using h)]; rfl

theorem extList_length (y : List ℝ) (n : ℕ) : (extList y n).length = y.length + 2 * n := by simp [extList]

theorem three_abs {a b D : ℝ} (ha : |a| ≤ D) (hb : |b| ≤ D) : |(1 + 1) * a - b| ≤ 3 * D := by
  rw [abs_le] at *
  constructor <;> linarith

theorem extList_near {D : ℝ} {r i n : ℕ} {x y : List ℝ} (h : AgreeNear D r i x y) (hi : i < x.length) :
    AgreeNear (3 * D) r (n + i) (extList x n) (extList y n) := by
  have hlen := h.length
  have hD : 0 ≤ D := (abs_nonneg _).trans (h.bound 0)
  refine ⟨by rw [extList_length, extList_length, hlen], fun j => ?_, fun j h1 h2 => ?_⟩
  · rw [extList_getD, extList_getD, ← hlen]
    split
    · unfold oddExt
      split
      · rw [show ∀ a b c d : ℝ, (1 + 1) * a - b - ((1 + 1) * c - d) = (1 + 1) * (a - c) - (b - d) by intros; ring]
        exact three_abs (h.bound _) (h.bound _)
      · split
        · linarith [h.bound (j - n)]
        · rw [show ∀ a b c d : ℝ, (1 + 1) * a - b - ((1 + 1) * c - d) = (1 + 1) * (a - c) - (b - d) by intros; ring]
          exact three_abs (h.bound _) (h.bound _)
    · rw [sub_self, abs_zero]
      linarith
  · rw [extList_getD, extList_getD, ← hlen]
    split
    · unfold oddExt
      beta_reduce
      split
      · rw [h.near 0 (by omega) (by omega), h.near (n - j) (by omega) (by omega)]
      · split
        · rw [h.near (j - n) (by omega) (by omega)]
        · rw [h.near (x.length - 1) (by omega) (by omega),
            h.near (x.length - 1 - (j - (n + x.length - 1))) (by omega) (by omega)]
    · rfl

theorem ffOut_getD (y : List ℝ) (ntaps : ℕ) (r : List (Sos ℝ)) (f : List ℝ)
    (hf : f = (sosfiltDyn (extList y (3 * ntaps)) (scaleStates ((extList y (3 * ntaps)).getD 0 0) r)).1) (i : ℕ)
    (hi : i < y.length) :
    (ffOut y ntaps r).getD i 0 =
      (sosfiltDyn f.reverse (scaleStates (f.reverse.getD 0 0) r)).1.getD (3 * ntaps + (y.length - 1 - i)) 0 := by
  have hfl : f.length = y.length + 2 * (3 * ntaps) := by rw [hf, (C24_length _ _).1, extList_length]
  have hgl : (sosfiltDyn f.reverse (scaleStates (f.reverse.getD 0 0) r)).1.length = y.length + 2 * (3 * ntaps) := by
    rw [(C24_length _ _).1, List.length_reverse, hfl]
  unfold ffOut
  simp only [← hf]
  rw [List.getD_eq_getElem?_getD, List.getElem?_reverse (by rw [List.length_take, List.length_drop, hgl]; omega), List.getElem?_take,
    List.length_take, List.length_drop, hgl, if_pos (by omega), List.getElem?_drop, List.getD_eq_getElem?_getD]
  congr 3
  omega

/-- What a successful call of `sosfiltfilt_dyn` computes. -/
theorem filtfilt_ok {y z : List ℝ} {sos : List (Sos ℝ)} (h : sosfiltfiltDyn y sos = .ok z) :
    ∃ r, sosfiltZiDyn sos = .ok r ∧ r.map coeffs = sos.map coeffs ∧ 3 * sosNtaps sos < y.length ∧
      z = ffOut y (sosNtaps sos) r := by
  have hnp : ¬ Panics (sosfiltfiltDyn y sos) := by rw [h]; simp
  rw [(C30_panics_iff y sos).1, not_or] at hnp
  obtain ⟨r, hr⟩ := (sosfiltZiLoop_total sos 1).2 hnp.2
  rw [sosfiltfilt_ok y sos r (by omega) hr] at h
  exact ⟨r, hr, sosfiltZiLoop_coeffs _ _ _ hr, by omega, by cases h; rfl⟩

/-- **C117** Zero-phase filtering with stable sections is local: if two signals agree at distance less than `d` of
sample `i` and differ by at most `D` elsewhere, the outputs at `i` differ by at most `K D ρ^d`.  `K` and `ρ` depend on
the coefficients only, not on the length or the place. -/
theorem C117_filtfilt_local (sos : List (Sos ℝ)) (hs : ∀ s ∈ sos, Stable s) :
    ∃ K ρ : ℝ, 0 < ρ ∧ ρ < 1 ∧ ∀ (D : ℝ) (d i : ℕ) (y y' z z' : List ℝ), AgreeNear D d i y y' → i < y.length →
      sosfiltfiltDyn y sos = .ok z → sosfiltfiltDyn y' sos = .ok z' →
      |z.getD i 0 - z'.getD i 0| ≤ K * D * ρ ^ d := by
  obtain ⟨K, ρ, hK, h0, h1, H⟩ := run_diff sos hs
  by_cases hok : ∃ r, sosfiltZiDyn sos = .ok r
  swap
  · refine ⟨K, ρ, h0, h1, fun D d i y y' z z' _ _ hz _ => ?_⟩
    obtain ⟨r, hr, -⟩ := filtfilt_ok hz
    exact absurd ⟨r, hr⟩ hok
  obtain ⟨R, hR⟩ := hok
  obtain ⟨Z, hZ1, hZ⟩ := exists_level R
  refine ⟨K * (Z * (K * (3 * Z))), ρ, h0, h1, fun D d i y y' z z' hn hi hz hz' => ?_⟩
  obtain ⟨r, hr, hc, hl, rfl⟩ := filtfilt_ok hz
  obtain ⟨r', hr', -, -, rfl⟩ := filtfilt_ok hz'
  rw [hR] at hr hr'
  cases hr
  cases hr'
  have hD : 0 ≤ D := (abs_nonneg _).trans (hn.bound 0)
  obtain ⟨n, hndef⟩ : ∃ n, n = 3 * sosNtaps sos := ⟨_, rfl⟩
  obtain ⟨f, hf⟩ : ∃ f, f = (sosfiltDyn (extList y (3 * sosNtaps sos))
    (scaleStates ((extList y (3 * sosNtaps sos)).getD 0 0) R)).1 := ⟨_, rfl⟩
  obtain ⟨f', hf'⟩ : ∃ f, f = (sosfiltDyn (extList y' (3 * sosNtaps sos))
    (scaleStates ((extList y' (3 * sosNtaps sos)).getD 0 0) R)).1 := ⟨_, rfl⟩
  rw [ffOut_getD y _ R f hf i hi, ffOut_getD y' _ R f' hf' i (by rw [← hn.length]; exact hi), ← hn.length]
  rw [← hndef] at hf hf' ⊢
  have hx := extList_near (n := n) hn hi
  have hx' : AgreeNear (3 * Z * D) d (n + i) (extList y n) (extList y' n) :=
    ⟨hx.length, fun j => (hx.bound j).trans (by nlinarith), hx.near⟩
  have hfl : f.length = y.length + 2 * n := by rw [hf, (C24_length _ _).1, extList_length]
  have hfl' : f'.length = y.length + 2 * n := by rw [hf', (C24_length _ _).1, extList_length, hn.length]
  have hS := scaleStates_within ((extList y n).getD 0 0) ((extList y' n).getD 0 0) R hZ
  obtain ⟨-, b2⟩ := pass_forward (sos := sos) H hK h0 h1 hx' ((scaled_coeffs _ _).trans hc) hS
    (by nlinarith [hx.bound 0]) (by
      by_cases hdc : n + i < d
      · rw [hx.near 0 (by omega) (by omega), sub_self, abs_zero, mul_zero, zero_mul]
        positivity
      · exact mul_le_mul (by nlinarith [hx.bound 0]) (pow_anti h0 h1 (by omega)) (by positivity) (by positivity))
  rw [← hf, ← hf'] at b2
  have hZK : 0 ≤ Z * (K * (3 * Z)) * D := by positivity
  have hb := pass_backward (sos := sos) (E := Z * (K * (3 * Z)) * D) (r := d) (c := n + i) H h0 hZK
    (hfl.trans hfl'.symm) (by omega) (fun j hj => by
      refine (b2 j hj).trans (mul_le_mul_of_nonneg_right ?_ (by positivity))
      have : 0 ≤ K * (3 * Z) * D := by positivity
      nlinarith) ((scaled_coeffs _ _).trans hc)
    (scaleStates_within (f.reverse.getD 0 0) (f'.reverse.getD 0 0) R hZ) (by
      have hlast := b2 (f.length - 1) (by omega)
      have hrev : ∀ h : List ℝ, 0 < h.length → h.reverse.getD 0 0 = h.getD (h.length - 1) 0 := by
        intro h hh
        rw [List.getD_eq_getElem?_getD, List.getElem?_reverse hh, List.getD_eq_getElem?_getD]
        simp
      rw [hrev f (by omega), hrev f' (by omega), hfl', ← hfl]
      have e : ρ ^ (f.length - 1) = ρ ^ (f.length - 1 - (n + i)) * ρ ^ (n + i) := by
        rw [← pow_add]; congr 1; omega
      rw [e, pow_add ρ d (n + i), ← mul_assoc, ← mul_assoc] at hlast
      have := le_of_mul_le_mul_right hlast (by positivity)
      calc _ = Z * (|f.getD (f.length - 1) 0 - f'.getD (f.length - 1) 0| * ρ ^ (f.length - 1 - (n + i))) := by ring
        _ ≤ Z * (K * (3 * Z * D) * ρ ^ d) := mul_le_mul_of_nonneg_left this (by linarith)
        _ = _ := by ring)
  rw [show f.length - 1 - (n + i) = n + (y.length - 1 - i) by omega] at hb
  refine hb.trans (le_of_eq (by ring))

/-- Two signals that agree at distance less than 40 of sample 50. -/
example : AgreeNear 1 40 50 (List.replicate 100 0) (1 :: List.replicate 99 0) := by
  refine ⟨by simp, fun j => ?_, fun j h1 h2 => ?_⟩
  · rcases j with _ | j
    · norm_num
    · have : (List.replicate 100 (0 : ℝ)).getD (j + 1) 0 = (1 :: List.replicate 99 (0 : ℝ)).getD (j + 1) 0 := rfl
      rw [this, sub_self, abs_zero]
      norm_num
  · obtain ⟨k, rfl⟩ : ∃ k, j = k + 1 := ⟨j - 1, by omega⟩
    rfl

/-! ### Filtering a piece of a signal -/

theorem sosfilt_split (x : List ℝ) (l : List (Sos ℝ)) (a m : ℕ) :
    ((sosfiltDyn x l).1.drop a).take m =
      (sosfiltDyn ((x.drop a).take m) (sosfiltDyn (x.take a) l).2).1 := by
  have e := mapMut_append sosfiltItem (x.take a) (x.drop a) l
  rw [List.take_append_drop] at e
  rw [← C24_causal]
  simp only [sosfiltDyn_eq]
  rw [e]
  congr 1
  have hl : (mapMut sosfiltItem (x.take a) l).1.length = min a x.length := by
    rw [mapMut_length, List.length_take]
  by_cases ha : a ≤ x.length
  · exact List.drop_left' (by rw [hl]; omega)
  · rw [List.drop_eq_nil_of_le, List.drop_eq_nil_of_le (as := x) (by omega)]
    · rfl
    · rw [List.length_append, hl, mapMut_length, List.length_drop]; omega

theorem getD_drop_take (x : List ℝ) (a m j : ℕ) (hj : j < m) : ((x.drop a).take m).getD j 0 = x.getD (a + j) 0 := by
  rw [List.getD_eq_getElem?_getD, List.getElem?_take, if_pos hj, List.getElem?_drop, List.getD_eq_getElem?_getD]

theorem ext_bound {D : ℝ} {y : List ℝ} (hy : ∀ j, |y.getD j 0| ≤ D) (n j : ℕ) : |(extList y n).getD j 0| ≤ 3 * D := by
  have hD : 0 ≤ D := (abs_nonneg _).trans (hy 0)
  rw [extList_getD]
  split
  · unfold oddExt
    split
    · exact three_abs (hy _) (hy _)
    · split
      · linarith [hy (j - n)]
      · exact three_abs (hy _) (hy _)
  · rw [abs_zero]
    linarith

/-- The same sections at rest. -/
def rested (l : List (Sos ℝ)) : List (Sos ℝ) := scaleStates 0 l

theorem rested_rest (l : List (Sos ℝ)) : AtRest (rested l) := by
  intro s hs
  obtain ⟨t, -, rfl⟩ := List.mem_map.mp hs
  simp

/-- **C117** Filtering a piece of a signal instead of the whole: away from the ends of the piece the result is the same
up to `K D ρ^d`, `d` being the distance to the nearer end and `D` a bound for the signal.  `K` and `ρ` depend on the
coefficients only. -/
theorem C117_filtfilt_piece (sos : List (Sos ℝ)) (hs : ∀ s ∈ sos, Stable s) :
    ∃ K ρ : ℝ, 0 < ρ ∧ ρ < 1 ∧ ∀ (D : ℝ) (a m : ℕ) (y z z' : List ℝ), (∀ v ∈ y, |v| ≤ D) → a + m ≤ y.length →
      sosfiltfiltDyn y sos = .ok z → sosfiltfiltDyn ((y.drop a).take m) sos = .ok z' →
      ∀ i d : ℕ, d ≤ i → i + d < m → |z.getD (a + i) 0 - z'.getD i 0| ≤ K * D * ρ ^ d := by
  obtain ⟨K, ρ, hK, h0, h1, H⟩ := run_diff sos hs
  by_cases hok : ∃ r, sosfiltZiDyn sos = .ok r
  swap
  · refine ⟨K, ρ, h0, h1, fun D a m y z z' _ _ hz => ?_⟩
    obtain ⟨r, hr, -⟩ := filtfilt_ok hz
    exact absurd ⟨r, hr⟩ hok
  obtain ⟨R, hR⟩ := hok
  obtain ⟨Z, hZ1, hZ⟩ := exists_level R
  obtain ⟨P, hP⟩ : ∃ P, P = 3 * Z := ⟨_, rfl⟩
  obtain ⟨Q, hQ⟩ : ∃ Q, Q = Z * (K * P) := ⟨_, rfl⟩
  refine ⟨K * (2 * K * (K * P) + 2 * K * Q), ρ, h0, h1, fun D a m y z z' hy ham hz hz' i d hdi hdm => ?_⟩
  obtain ⟨r, hr, hc, hl, rfl⟩ := filtfilt_ok hz
  obtain ⟨r', hr', -, hl', rfl⟩ := filtfilt_ok hz'
  rw [hR] at hr hr'
  cases hr
  cases hr'
  obtain ⟨y', hy'⟩ : ∃ y', y' = (y.drop a).take m := ⟨_, rfl⟩
  have hlen' : y'.length = m := by rw [hy', List.length_take, List.length_drop]; omega
  rw [← hy'] at hl' hz' ⊢
  have hD : 0 ≤ D := (abs_nonneg _).trans (hy y[0] (List.getElem_mem (by omega)))
  have hyb : ∀ j, |y.getD j 0| ≤ D := by
    intro j
    by_cases hj : j < y.length
    · rw [List.getD_eq_getElem _ _ hj]
      exact hy _ (List.getElem_mem hj)
    · rw [List.getD_eq_default _ _ (by omega), abs_zero]
      exact hD
  have hyb' : ∀ j, |y'.getD j 0| ≤ D := by
    intro j
    by_cases hj : j < m
    · rw [hy', getD_drop_take _ _ _ _ hj]
      exact hyb _
    · rw [List.getD_eq_default _ _ (by omega), abs_zero]
      exact hD
  obtain ⟨n, hndef⟩ : ∃ n, n = 3 * sosNtaps sos := ⟨_, rfl⟩
  obtain ⟨f, hf⟩ : ∃ f, f = (sosfiltDyn (extList y (3 * sosNtaps sos))
    (scaleStates ((extList y (3 * sosNtaps sos)).getD 0 0) R)).1 := ⟨_, rfl⟩
  obtain ⟨f', hf'⟩ : ∃ f, f = (sosfiltDyn (extList y' (3 * sosNtaps sos))
    (scaleStates ((extList y' (3 * sosNtaps sos)).getD 0 0) R)).1 := ⟨_, rfl⟩
  rw [ffOut_getD y _ R f hf (a + i) (by omega), ffOut_getD y' _ R f' hf' i (by omega), hlen']
  rw [← hndef] at hf hf' ⊢
  have hfl : f.length = y.length + 2 * n := by rw [hf, (C24_length _ _).1, extList_length]
  have hfl' : f'.length = m + 2 * n := by rw [hf', (C24_length _ _).1, extList_length, hlen']
  have hrest := rested_rest R
  have hcr : ∀ c, (scaleStates c R).map coeffs = sos.map coeffs := fun c => (scaled_coeffs _ _).trans hc
  have hZ0 : 0 ≤ Z := by linarith
  have hP0 : 0 ≤ P := by rw [hP]; linarith
  have hPD : 0 ≤ P * D := mul_nonneg hP0 hD
  have hQ0 : 0 ≤ Q := by rw [hQ]; exact mul_nonneg hZ0 (mul_nonneg (by linarith) hP0)
  have hQD : 0 ≤ Q * D := mul_nonneg hQ0 hD
  have hsc : ∀ (c B : ℝ), |c| ≤ B → StatesWithin (Z * B) (scaleStates c R) (rested R) := by
    intro c B hB
    refine (scaleStates_within c 0 R hZ).mono ?_
    rw [sub_zero]
    exact mul_le_mul_of_nonneg_left hB hZ0
  have hDP : 3 * D ≤ P * D := by rw [hP]; nlinarith
  -- forward, up to the piece
  have e0 : ∀ (w : List ℝ), (∀ j, |w.getD j 0| ≤ D) →
      StatesWithin (P * D) (scaleStates ((extList w n).getD 0 0) R) (rested R) := by
    intro w hw
    exact (hsc _ _ (ext_bound hw n 0)).mono (by rw [hP]; linarith)
  have hgt : ∀ (B : ℝ) (w : List ℝ) (k j : ℕ), 0 ≤ B → (∀ j, |w.getD j 0| ≤ B) → |(w.take k).getD j 0| ≤ B := by
    intro B w k j hB hw
    rw [List.getD_eq_getElem?_getD, List.getElem?_take]
    split
    · rw [← List.getD_eq_getElem?_getD]
      exact hw j
    · simpa using hB
  have hE : ∀ j, |(extList y n).getD j 0| ≤ P * D := fun j => (ext_bound hyb n j).trans hDP
  have hE' : ∀ j, |(extList y' n).getD j 0| ≤ P * D := fun j => (ext_bound hyb' n j).trans hDP
  have fwd := bounded_run H hPD (hcr _) hrest (e0 y hyb) (x := (extList y n).take a) (fun j => hgt _ _ _ _ hPD hE)
  have hKP : P * D ≤ K * (P * D) := le_mul_of_one_le_left hPD hK
  have hst := (e0 y' hyb').trans fwd.2.symm
  have hmid := sosfilt_split (extList y n) (scaleStates ((extList y n).getD 0 0) R) a (m + 2 * n)
  rw [← hf] at hmid
  have hnear : AgreeNear (2 * K * (P * D)) d (n + i) (extList y' n) (((extList y n).drop a).take (m + 2 * n)) := by
    refine ⟨?_, fun j => ?_, fun j h1 h2 => ?_⟩
    · rw [extList_length, List.length_take, List.length_drop, extList_length, hlen']
      omega
    · have hb : |(((extList y n).drop a).take (m + 2 * n)).getD j 0| ≤ P * D := by
        by_cases hj : j < m + 2 * n
        · rw [getD_drop_take _ _ _ _ hj]
          exact hE _
        · rw [List.getD_eq_default _ _ (by rw [List.length_take]; omega), abs_zero]
          exact hPD
      have := hE' j
      refine (abs_sub _ _).trans ?_
      linarith
    · rw [getD_drop_take _ _ _ _ (by omega), extList_getD, extList_getD, if_pos (by omega), if_pos (by omega)]
      unfold oddExt
      rw [if_neg (by omega), if_pos (by omega), if_neg (by omega), if_pos (by omega), hy']
      beta_reduce
      rw [getD_drop_take _ _ _ _ (by omega)]
      congr 1
      omega
  obtain ⟨-, b2⟩ := pass_forward (sos := sos) H hK h0 h1 hnear (hcr _) hst (by linarith)
    (mul_le_mul (by linarith) (pow_anti h0 h1 (by omega)) (by positivity) (by positivity))
  rw [← hf', ← hmid] at b2
  -- backward, up to the piece
  have hfb : ∀ j, |f.getD j 0| ≤ K * (P * D) := by
    rw [hf]
    exact (bounded_run H hPD (hcr _) hrest (e0 y hyb) hE).1
  have hfb' : ∀ j, |f'.getD j 0| ≤ K * (P * D) := by
    rw [hf']
    exact (bounded_run H hPD (hcr _) hrest (e0 y' hyb') hE').1
  have hKPD : 0 ≤ K * (P * D) := by linarith
  have hrevb : ∀ (w : List ℝ), (∀ j, |w.getD j 0| ≤ K * (P * D)) → ∀ j, |w.reverse.getD j 0| ≤ K * (P * D) := by
    intro w hw j
    by_cases hj : j < w.length
    · rw [List.getD_eq_getElem?_getD, List.getElem?_reverse hj, ← List.getD_eq_getElem?_getD]
      exact hw _
    · rw [List.getD_eq_default _ _ (by simpa using hj), abs_zero]
      exact hKPD
  have hQe : Z * (K * (P * D)) = Q * D := by rw [hQ]; ring
  have e1 : ∀ (w : List ℝ), (∀ j, |w.getD j 0| ≤ K * (P * D)) →
      StatesWithin (Q * D) (scaleStates (w.reverse.getD 0 0) R) (rested R) := by
    intro w hw
    rw [← hQe]
    exact hsc _ _ (hrevb w hw 0)
  have hKQ : K * (P * D) ≤ Q * D := by rw [← hQe]; exact le_mul_of_one_le_left hKPD hZ1
  have bwd := bounded_run H hQD (hcr _) hrest (e1 f hfb) (x := f.reverse.take (y.length - a - m))
    (fun j => (hgt _ _ _ _ hKPD (hrevb f hfb)).trans hKQ)
  have hQK : Q * D ≤ K * (Q * D) := le_mul_of_one_le_left hQD hK
  have hst2 := (e1 f' hfb').trans bwd.2.symm
  have hmid2 := sosfilt_split f.reverse (scaleStates (f.reverse.getD 0 0) R) (y.length - a - m) (m + 2 * n)
  have hrev2 : (f.reverse.drop (y.length - a - m)).take (m + 2 * n) = ((f.drop a).take (m + 2 * n)).reverse := by
    rw [List.drop_reverse, List.take_reverse, List.drop_take, List.length_take, hfl,
      show min (y.length + 2 * n - (y.length - a - m)) (y.length + 2 * n) - (m + 2 * n) = a by omega,
      show y.length + 2 * n - (y.length - a - m) - a = m + 2 * n by omega]
  rw [hrev2] at hmid2
  have hfin := pass_backward (sos := sos) (E := (2 * K * (K * P) + 2 * K * Q) * D) (r := d) (c := n + i)
    (f := f') (g := (f.drop a).take (m + 2 * n)) H h0 (by positivity)
    (by rw [List.length_take, List.length_drop]; omega) (by omega) (fun j hj => by
      refine (b2 j hj).trans (mul_le_mul_of_nonneg_right ?_ (by positivity))
      have : 0 ≤ 2 * K * Q * D := by positivity
      nlinarith) (hcr _) hst2 (by
      have h3 : Q * D + K * (Q * D) ≤ (2 * K * (K * P) + 2 * K * Q) * D := by
        have : 0 ≤ 2 * K * (K * P) * D := by positivity
        nlinarith
      exact mul_le_mul h3 (pow_anti h0 h1 (by omega)) (by positivity) (by positivity))
  rw [← hmid2, getD_drop_take _ _ _ _ (by omega), abs_sub_comm] at hfin
  rw [show y.length - a - m + (f'.length - 1 - (n + i)) = n + (y.length - 1 - (a + i)) by omega,
    show f'.length - 1 - (n + i) = n + (m - 1 - i) by omega] at hfin
  refine hfin.trans (le_of_eq (by ring))

/-- **C117** The same in floating point, up to the rounding error, which does not grow with the signal either. -/
theorem C117_float_piece (sos : List (Sos ℝ)) (hs : ∀ s ∈ sos, Stable s) (hn : ∀ s ∈ sos, s.a0 + s.a1 + s.a2 ≠ 0) :
    ∃ K ρ u0 : ℝ, 0 < ρ ∧ ρ < 1 ∧ 0 < u0 ∧ ∀ r : Rounding, r.u ≤ u0 → r.t ≤ r.u →
      ∀ (D : ℝ) (a m : ℕ) (y : List ℝ), (∀ v ∈ y, |v| ≤ D) → a + m ≤ y.length → 3 * sosNtaps sos < m →
      ∃ z z', sosfiltfiltDyn (y.map (Fl.mk (r := r))) (sos.map (flSection r)) = .ok z ∧
        sosfiltfiltDyn (((y.drop a).take m).map (Fl.mk (r := r))) (sos.map (flSection r)) = .ok z' ∧
        ∀ i d : ℕ, d ≤ i → i + d < m →
          |(z.getD (a + i) 0).val - (z'.getD i 0).val| ≤ K * (D * ρ ^ d + (r.u * D + r.t)) := by
  obtain ⟨K1, ρ, h0, h1, H1⟩ := C117_filtfilt_piece sos hs
  obtain ⟨K2, u0, hu0, H2⟩ := C94_filtfilt sos hs hn
  refine ⟨|K1| + 2 * |K2|, ρ, u0, h0, h1, hu0, fun r hu ht D a m y hy ham hm => ?_⟩
  have hD : 0 ≤ D := (abs_nonneg _).trans (hy y[0] (List.getElem_mem (by omega)))
  obtain ⟨z, zf, hz, hzf, -, -, e⟩ := H2 r hu ht D y hy (by omega)
  obtain ⟨z', zf', hz', hzf', -, -, e'⟩ := H2 r hu ht D ((y.drop a).take m)
    (fun v hv => hy v (List.mem_of_mem_drop (List.mem_of_mem_take hv))) (by simp; omega)
  refine ⟨zf, zf', hzf, hzf', fun i d hdi hdm => ?_⟩
  have b := H1 D a m y z z' hy ham hz hz' i d hdi hdm
  have b1 := e (a + i)
  have b2 := e' i
  rw [abs_sub_comm] at b2
  have hx : 0 ≤ D * ρ ^ d := by positivity
  have hu' : 0 ≤ r.u * D + r.t := add_nonneg (mul_nonneg r.u_nonneg hD) r.t_nonneg
  have c1 : K1 * D * ρ ^ d ≤ |K1| * (D * ρ ^ d) := by
    rw [mul_assoc]
    exact mul_le_mul_of_nonneg_right (le_abs_self _) hx
  have c2 : K2 * (r.u * D + r.t) ≤ |K2| * (r.u * D + r.t) := mul_le_mul_of_nonneg_right (le_abs_self _) hu'
  have t1 := abs_sub_le (zf.getD (a + i) 0).val (z.getD (a + i) 0) (zf'.getD i 0).val
  have t2 := abs_sub_le (z.getD (a + i) 0) (z'.getD i 0) (zf'.getD i 0).val
  have p1 : 0 ≤ |K1| * (r.u * D + r.t) := by positivity
  have p2 : 0 ≤ |K2| * (D * ρ ^ d) := by positivity
  nlinarith

/-- **C117** Two copies of a stable filter started from different states, in floating point. -/
theorem C117_float_states (l l' : List (Sos ℝ)) (hs : ∀ s ∈ l, Stable s) (M : ℝ) (hM : 0 ≤ M) (hw : StatesWithin M l l') :
    ∃ K ρ u0 : ℝ, 0 < ρ ∧ ρ < 1 ∧ 0 < u0 ∧ ∀ r : Rounding, r.u ≤ u0 → ∀ L : ℝ,
      (∀ s ∈ l, |s.zi0| ≤ L ∧ |s.zi1| ≤ L) → (∀ s ∈ l', |s.zi0| ≤ L ∧ |s.zi1| ≤ L) →
      ∀ x : List ℝ, (∀ v ∈ x, |v| ≤ L) → ∀ i < x.length,
        |((sosfiltDyn (x.map (Fl.mk (r := r))) (l.map (flSection r))).1.getD i 0).val -
          ((sosfiltDyn (x.map (Fl.mk (r := r))) (l'.map (flSection r))).1.getD i 0).val|
          ≤ K * (M * ρ ^ i + (r.u * L + r.t)) := by
  have hs' : ∀ s ∈ l', Stable s := by
    clear hM
    induction hw with
    | nil => simp
    | @cons s t l l' h _ ih =>
      intro q hq
      rcases List.mem_cons.mp hq with rfl | hq
      · obtain ⟨-, -, -, -, e1, e2⟩ : s.b0 = q.b0 ∧ s.b1 = q.b1 ∧ s.b2 = q.b2 ∧ s.a0 = q.a0 ∧ s.a1 = q.a1 ∧ s.a2 = q.a2 := by
          simpa using h.1
        have := hs s (by simp)
        unfold Stable at this ⊢
        rwa [← e1, ← e2]
      · exact ih (fun s hs1 => hs s (by simp [hs1])) q hq
  obtain ⟨K0, ρ, h0, h1, H0⟩ := C117_states l hs
  obtain ⟨K1, u1, hu1, H1⟩ := C72_error_bounded l hs
  obtain ⟨K2, u2, hu2, H2⟩ := C72_error_bounded l' hs'
  refine ⟨|K0| + |K1| + |K2|, ρ, min u1 u2, h0, h1, lt_min hu1 hu2, fun r hr L hz hz' x hx i hi => ?_⟩
  have hL : 0 ≤ L := (abs_nonneg _).trans (hx x[i] (List.getElem_mem hi))
  have b0 := (H0 M l l' hM rfl hw x).1 i
  have b1 := (H1 r (hr.trans (min_le_left _ _)) L hz x hx).2 i hi
  have b2 := (H2 r (hr.trans (min_le_right _ _)) L hz' x hx).2 i hi
  rw [abs_sub_comm] at b2
  have hu' : 0 ≤ r.u * L + r.t := add_nonneg (mul_nonneg r.u_nonneg hL) r.t_nonneg
  have hx' : 0 ≤ M * ρ ^ i := by positivity
  have c0 : K0 * M * ρ ^ i ≤ |K0| * (M * ρ ^ i) := by
    rw [mul_assoc]
    exact mul_le_mul_of_nonneg_right (le_abs_self _) hx'
  have c1 : K1 * (r.u * L + r.t) ≤ |K1| * (r.u * L + r.t) := mul_le_mul_of_nonneg_right (le_abs_self _) hu'
  have c2 : K2 * (r.u * L + r.t) ≤ |K2| * (r.u * L + r.t) := mul_le_mul_of_nonneg_right (le_abs_self _) hu'
  generalize ((sosfiltDyn (x.map (Fl.mk (r := r))) (l.map (flSection r))).1.getD i 0).val = p at *
  generalize ((sosfiltDyn (x.map (Fl.mk (r := r))) (l'.map (flSection r))).1.getD i 0).val = p' at *
  have t1 := abs_sub_le p ((sosfiltDyn x l).1.getD i 0) p'
  have t2 := abs_sub_le ((sosfiltDyn x l).1.getD i 0) ((sosfiltDyn x l').1.getD i 0) p'
  have p1 : 0 ≤ |K0| * (r.u * L + r.t) := by positivity
  have p2 : 0 ≤ (|K1| + |K2|) * (M * ρ ^ i) := by positivity
  nlinarith

/-! ### The hypotheses are met -/

/-- A section with poles `(1 ± i)/2`. -/
noncomputable def demoSection (z : ℝ) : Sos ℝ := ⟨1, 2, 1, 1, -1, 1 / 2, z, 0⟩

theorem demo_stable (w : ℝ) : ∀ s ∈ [demoSection w], Stable s := by
  intro s hs
  rw [List.mem_singleton] at hs
  subst hs
  intro z hz
  have hre := congrArg Complex.re hz
  have him := congrArg Complex.im hz
  simp [demoSection, pow_two, Complex.add_re, Complex.mul_re] at hre him
  have hsq : Complex.normSq z = 1 / 2 := by
    rw [Complex.normSq_apply]
    have hf : z.im * (2 * z.re - 1) = 0 := by linarith
    rcases mul_eq_zero.mp hf with h | h
    · rw [h] at hre; nlinarith [sq_nonneg (z.re - 1 / 2)]
    · have : z.re = 1 / 2 := by linarith
      rw [this] at hre ⊢; nlinarith
  rw [← sq_lt_one_iff₀ (norm_nonneg z), ← Complex.normSq_eq_norm_sq, hsq]
  norm_num

/-- Two states of the same filter. -/
example : StatesWithin 3 [demoSection 2] [demoSection 5] := by
  refine .cons ⟨rfl, ?_, ?_⟩ .nil <;> norm_num [demoSection]

/-- A signal of 1000 samples, and the piece of 100 samples from sample 300 on: in the middle of the piece the two results
are within `K ρ^49`. -/
example (y : List ℝ) (hy : y.length = 1000) (hb : ∀ v ∈ y, |v| ≤ 1) :
    ∃ z z', sosfiltfiltDyn y [demoSection 0] = .ok z ∧ sosfiltfiltDyn ((y.drop 300).take 100) [demoSection 0] = .ok z' ∧
      ∃ K ρ : ℝ, ρ < 1 ∧ |z.getD 349 0 - z'.getD 49 0| ≤ K * 1 * ρ ^ 49 := by
  have hok : ∀ w : List ℝ, 9 < w.length → ∃ z, sosfiltfiltDyn w [demoSection 0] = .ok z := by
    intro w hw
    have hnp : ¬ Panics (sosfiltfiltDyn w [demoSection 0]) := by
      rw [(C30_panics_iff _ _).1]
      simp [sosNtaps, NoDenominator, demoSection]
      omega
    have hub := (C30_panics_iff w [demoSection 0]).2
    cases h : sosfiltfiltDyn w [demoSection 0] with
    | ok z => exact ⟨z, rfl⟩
    | error e =>
      rw [h] at hnp hub
      rw [panics_error] at hnp
      exact absurd (by rw [not_not.mp hnp]) hub
  obtain ⟨z, hz⟩ := hok y (by omega)
  obtain ⟨z', hz'⟩ := hok ((y.drop 300).take 100) (by simp [hy])
  obtain ⟨K, ρ, -, h1, H⟩ := C117_filtfilt_piece [demoSection 0] (demo_stable 0)
  exact ⟨z, z', hz, hz', K, ρ, h1, H 1 300 100 y z z' hb (by omega) hz hz' 49 49 le_rfl (by norm_num)⟩

end SciRs.Props

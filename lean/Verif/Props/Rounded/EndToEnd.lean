import Verif.Lemmas.Rounded.SectionBounds
import Verif.Props.SosExplicit
import Verif.Props.Design.DesignEnergy

/-!
# C124, second part: designing and filtering in floating point, from end to end
-/

namespace SciRs.Props

open SciRs SciRs.Design SciRs.Spec SciRs.Rounded

variable {r : Rounding} {m : Libm} {h : ℝ}

/-- The exact poles keep their distance from the unit circle. -/
theorem margin_trig {n : ℕ} (hn : n ≠ 0) (band : Band) {e : ℝ} (h0 : 0 < e) (h1 : e < 1) {j : ℤ}
    (hj : j ∈ stepRange (-(n : ℤ) + 1) n) {M : ℝ} (hM : M = Real.sin (Real.pi * e) * Real.sin (Real.pi / (2 * n))) :
    ‖(4 + exAnalog n band e j) / (4 - exAnalog n band e j)‖ ≤ 1 - M / (1 + M) := by
  obtain ⟨p1, -, p3⟩ := exAnalog_parts (n := n) band e j
  obtain ⟨P, hP⟩ : ∃ P, P = exAnalog n band e j := ⟨_, rfl⟩
  rw [← hP] at p1 p3 ⊢
  have hn0 : (0 : ℝ) < n := by exact_mod_cast Nat.pos_of_ne_zero hn
  have hn1 : (1 : ℝ) ≤ n := by exact_mod_cast Nat.one_le_iff_ne_zero.mpr hn
  have hpi := Real.pi_pos
  obtain ⟨y, hy⟩ : ∃ y, y = Real.pi * e / 2 := ⟨_, rfl⟩
  have hy0 : 0 < y := by rw [hy]; positivity
  have hy1 : y < Real.pi / 2 := by rw [hy]; nlinarith
  have hc0 : 0 < Real.cos y := Real.cos_pos_of_mem_Ioo ⟨by linarith, hy1⟩
  have hs0 : 0 < Real.sin y := Real.sin_pos_of_pos_of_lt_pi hy0 (by linarith)
  have hw : exWarp e = 4 * (Real.sin y / Real.cos y) := by rw [exWarp, ← hy, Real.tan_eq_sin_div_cos]
  have hw0 : 0 < exWarp e := by rw [hw]; positivity
  rw [abs_of_pos hw0] at p3
  obtain ⟨j1, j2⟩ := mem_stepRange_sym hj
  have ja : |(j : ℝ)| + 1 ≤ n := by
    rw [← Int.cast_abs]
    have : |j| + 1 ≤ (n : ℤ) := by rcases abs_cases j with h | h <;> omega
    exact_mod_cast this
  obtain ⟨c, hc⟩ : ∃ c, c = Real.cos (Real.pi * j / (2 * n)) := ⟨_, rfl⟩
  rw [← hc] at p1
  have hsn : 0 ≤ Real.sin (Real.pi / (2 * n)) := Real.sin_nonneg_of_nonneg_of_le_pi (by positivity)
    (by rw [div_le_iff₀ (by positivity)]; nlinarith)
  have hcs : Real.sin (Real.pi / (2 * n)) ≤ c := by
    rw [hc, ← Real.cos_abs, ← Real.cos_pi_div_two_sub]
    refine Real.cos_le_cos_of_nonneg_of_le_pi (abs_nonneg _) (by have : 0 ≤ Real.pi / (2 * n) := by positivity
                                                                 linarith) ?_
    rw [abs_div, abs_mul, abs_of_pos hpi, abs_of_pos (by positivity : (0 : ℝ) < 2 * n), div_le_iff₀ (by positivity),
      sub_mul, div_mul_cancel₀ _ (by positivity)]
    nlinarith
  have hc00 : 0 ≤ c := hsn.trans hcs
  obtain ⟨a, ha⟩ : ∃ a, a = Real.sin (Real.pi * e) * c := ⟨_, rfl⟩
  have hσ : Real.sin (Real.pi * e) = 2 * Real.sin y * Real.cos y := by
    rw [← Real.sin_two_mul, hy]; congr 1; ring
  have hσ0 : 0 ≤ Real.sin (Real.pi * e) := by rw [hσ]; positivity
  have hM0 : 0 ≤ M := by rw [hM]; positivity
  have hMa : M ≤ a := by rw [hM, ha]; exact mul_le_mul_of_nonneg_left hcs hσ0
  have ha0 : 0 ≤ a := hM0.trans hMa
  -- the squares of the norms
  have hsq : P.re ^ 2 + P.im ^ 2 = exWarp e ^ 2 := by
    rw [← p3, ← Complex.normSq_eq_norm_sq, Complex.normSq_apply]; ring
  have hcy := Real.sin_sq_add_cos_sq y
  have n1 : ‖4 + P‖ ^ 2 = 16 / Real.cos y ^ 2 * (1 - a) := by
    rw [← Complex.normSq_eq_norm_sq, Complex.normSq_apply]
    have e1 : (4 + P).re = 4 + P.re := by simp
    have e2 : (4 + P).im = P.im := by simp
    rw [e1, e2]
    have : (4 + P.re) * (4 + P.re) + P.im * P.im = 16 + exWarp e ^ 2 + 8 * P.re := by rw [← hsq]; ring
    rw [this, p1, hw, ha, hσ]
    field_simp
    linear_combination 16 * hcy
  have n2 : ‖4 - P‖ ^ 2 = 16 / Real.cos y ^ 2 * (1 + a) := by
    rw [← Complex.normSq_eq_norm_sq, Complex.normSq_apply]
    have e1 : (4 - P).re = 4 - P.re := by simp
    have e2 : (4 - P).im = -P.im := by simp
    rw [e1, e2]
    have : (4 - P.re) * (4 - P.re) + -P.im * -P.im = 16 + exWarp e ^ 2 - 8 * P.re := by rw [← hsq]; ring
    rw [this, p1, hw, ha, hσ]
    field_simp
    linear_combination 16 * hcy
  have e3 : 1 - M / (1 + M) = 1 / (1 + M) := by field_simp; ring
  rw [e3]
  refine abs_le_of_sq_le_sq' (?_ : _ ^ 2 ≤ _ ^ 2) (by positivity) |>.2
  rw [norm_div, div_pow, n1, n2, mul_div_mul_left _ _ (by positivity)]
  have k1 : (1 - a) / (1 + a) ≤ 1 / (1 + a) ^ 2 := by
    rw [div_le_div_iff₀ (by positivity) (by positivity)]
    nlinarith [mul_nonneg (sq_nonneg a) ha0, sq_nonneg a]
  refine k1.trans ?_
  rw [div_pow, one_pow]
  exact one_div_le_one_div_of_le (by positivity) (pow_le_pow_left₀ (by linarith) (by linarith) 2)

theorem margin_low {n : ℕ} (hn : n ≠ 0) {e : ℝ} (h0 : 0 < e) (h1 : e < 1) {M : ℝ}
    (hM : M = Real.sin (Real.pi * e) * Real.sin (Real.pi / (2 * n))) : 2 * (e * (1 - e) / n) ≤ M := by
  have hn1 : (1 : ℝ) ≤ n := by exact_mod_cast Nat.one_le_iff_ne_zero.mpr hn
  have hn0 : (0 : ℝ) < n := by linarith
  have h1e : 0 < 1 - e := by linarith
  have hpi := Real.pi_pos
  have sn : 1 / n ≤ Real.sin (Real.pi / (2 * n)) := by
    have := Real.mul_le_sin (x := Real.pi / (2 * n)) (by positivity) (by
      rw [div_le_div_iff₀ (by positivity) (by norm_num)]; nlinarith)
    refine le_trans (le_of_eq ?_) this
    field_simp
  have se : 2 * (e * (1 - e)) ≤ Real.sin (Real.pi * e) := by
    rcases le_total e (1 / 2) with k | k
    · have := Real.mul_le_sin (x := Real.pi * e) (by positivity) (by nlinarith)
      have e1 : 2 / Real.pi * (Real.pi * e) = 2 * e := by field_simp
      rw [e1] at this
      nlinarith
    · have := Real.mul_le_sin (x := Real.pi * (1 - e)) (by positivity) (by nlinarith)
      have e1 : 2 / Real.pi * (Real.pi * (1 - e)) = 2 * (1 - e) := by field_simp
      rw [e1, show Real.pi * (1 - e) = Real.pi - Real.pi * e by ring, Real.sin_pi_sub] at this
      nlinarith
  have := mul_le_mul se sn (by positivity) (le_trans (by positivity) se)
  rw [hM]
  refine le_trans (le_of_eq ?_) this
  ring

/-- The exact gain. -/
theorem exGain_le {n : ℕ} (hn : n ≠ 0) (band : Band) {e : ℝ} (h0 : 0 < e) (h1 : e < 1) :
    |exGain n band e| ≤ 1 ∧ (band = .lowpass → |exGain n band e| ≤ Real.tan (Real.pi * e / 2) ^ n) := by
  have hw0 : 0 < exWarp e := by
    rw [exWarp]
    have hpi := Real.pi_pos
    have : 0 < Real.tan (Real.pi * e / 2) := Real.tan_pos_of_pos_of_lt_pi_div_two (by positivity) (by nlinarith)
    linarith
  have fac : ∀ j ∈ stepRange (-(n : ℤ) + 1) n, 4 ≤ ‖4 - exAnalog n band e j‖ ∧ exWarp e ≤ ‖4 - exAnalog n band e j‖ := by
    intro j hj
    obtain ⟨-, -, p3⟩ := exAnalog_parts (n := n) band e j
    obtain ⟨hre, -, -⟩ := exact_margin hn band h0 h1 hj
    rw [abs_of_pos hw0] at p3
    have k1 : 4 - (exAnalog n band e j).re ≤ ‖4 - exAnalog n band e j‖ := by
      have := (le_abs_self _).trans (Complex.abs_re_le_norm (4 - exAnalog n band e j))
      simpa using this
    refine ⟨by linarith, ?_⟩
    refine abs_le_of_sq_le_sq' (?_ : _ ^ 2 ≤ _ ^ 2) (norm_nonneg _) |>.2
    rw [← p3, ← Complex.normSq_eq_norm_sq, ← Complex.normSq_eq_norm_sq, Complex.normSq_apply, Complex.normSq_apply]
    simp
    nlinarith
  have prod : ∀ b : ℝ, 0 ≤ b → (∀ j ∈ stepRange (-(n : ℤ) + 1) n, b ≤ ‖4 - exAnalog n band e j‖) →
      b ^ n ≤ ‖exDen n band e‖ := by
    intro b hb H
    have gen : ∀ L : List ℤ, (∀ j ∈ L, b ≤ ‖4 - exAnalog n band e j‖) →
        b ^ L.length ≤ ‖(L.map fun j => 4 - exAnalog n band e j).prod‖ := by
      intro L
      induction L with
      | nil => simp
      | cons a L ih =>
        intro H
        rw [List.map_cons, List.prod_cons, norm_mul, List.length_cons, pow_succ' b]
        exact mul_le_mul (H a (by simp)) (ih fun j hj => H j (by simp [hj])) (by positivity) (norm_nonneg _)
    have := gen _ H
    rw [stepRange_sym_length] at this
    exact this
  have d4 := prod 4 (by norm_num) (fun j hj => (fac j hj).1)
  have dw := prod (exWarp e) hw0.le (fun j hj => (fac j hj).2)
  have dp : 0 < ‖exDen n band e‖ := lt_of_lt_of_le (by positivity) d4
  by_cases hb : band = .lowpass
  · have k : |exGain n band e| ≤ exWarp e ^ n / ‖exDen n band e‖ := by
      rw [exGain, if_pos hb, abs_mul, abs_of_pos (by positivity : 0 < exWarp e ^ n), div_eq_mul_inv]
      refine mul_le_mul_of_nonneg_left ((Complex.abs_re_le_norm _).trans (le_of_eq ?_)) (by positivity)
      simp
    refine ⟨k.trans ((div_le_one dp).mpr dw), fun _ => k.trans ?_⟩
    have e1 : Real.tan (Real.pi * e / 2) ^ n = exWarp e ^ n / 4 ^ n := by rw [exWarp, mul_pow]; field_simp
    rw [e1]
    exact div_le_div_of_nonneg_left (by positivity) (by positivity) d4
  · refine ⟨?_, fun h => absurd h hb⟩
    rw [exGain, if_neg hb, abs_mul]
    have k1 : |(1 / exUnit n).re| ≤ 1 := by
      refine (Complex.abs_re_le_norm _).trans (le_of_eq ?_)
      rw [norm_div, norm_one, exUnit_norm, div_one]
    have k2 : |((4 : ℂ) ^ n / exDen n band e).re| ≤ 1 := by
      refine (Complex.abs_re_le_norm _).trans ?_
      rw [norm_div, norm_pow, show ‖(4 : ℂ)‖ = 4 by simp, div_le_one dp]
      exact d4
    exact mul_le_one₀ k1 (abs_nonneg _) k2

/-- A sample of a difference of signals against its energy. -/
theorem sample_le_energy {x y : List ℝ} (hxy : x.length = y.length) {c : ℝ} (hc : energy (signalDiff x y) ≤ c) (i : ℕ) :
    |x.getD i 0 - y.getD i 0| ≤ √c := by
  refine Real.abs_le_sqrt (le_trans ?_ hc)
  by_cases hi : i < x.length
  · have hi2 : i < y.length := by omega
    rw [energy_eq]
    have hl : (signalDiff x y).length = x.length := by rw [signalDiff, List.length_zipWith, hxy, min_self]
    have := Finset.single_le_sum (f := fun n => (signalDiff x y).getD n 0 ^ 2) (fun _ _ => sq_nonneg _)
      (Finset.mem_range.mpr (by rw [hl]; exact hi) : i ∈ Finset.range (signalDiff x y).length)
    refine le_trans (le_of_eq ?_) this
    simp only [signalDiff, List.getD_eq_getElem?_getD, List.getElem?_zipWith, List.getElem?_eq_getElem hi,
      List.getElem?_eq_getElem hi2]
    rfl
  · rw [List.getD_eq_getElem?_getD, List.getD_eq_getElem?_getD, List.getElem?_eq_none (by omega),
      List.getElem?_eq_none (by omega)]
    simp only [Option.getD_none, sub_self]
    rw [energy_eq, zero_pow (by norm_num)]
    exact Finset.sum_nonneg (fun _ _ => sq_nonneg _)

theorem sizes_prod {s0 : Sos ℝ} {rest : List (Sos ℝ)} {k δ K : ℝ} (hδ : 0 < δ) (hδ1 : δ ≤ 1) (hK : 1 ≤ K)
    (hs0 : numSize s0 ≤ K * k) (hrest : ∀ c ∈ rest, numSize c ≤ K) :
    ((s0 :: rest).map fun s => numSize s / δ ^ 2).prod ≤ k * (K / δ ^ 2) ^ (rest.length + 1) ∧
    ((s0 :: rest).map fun s => max 1 (numSize s / δ ^ 2)).prod ≤ max 1 k * (K / δ ^ 2) ^ (rest.length + 1) := by
  have hδ2 : δ ^ 2 ≤ 1 := pow_le_one₀ hδ.le hδ1
  obtain ⟨g, hg⟩ : ∃ g, g = K / δ ^ 2 := ⟨_, rfl⟩
  have hg1 : 1 ≤ g := by rw [hg, le_div_iff₀ (by positivity)]; linarith
  have one : ∀ c ∈ rest, numSize c / δ ^ 2 ≤ g := fun c hc => by
    rw [hg]; exact div_le_div_of_nonneg_right (hrest c hc) (by positivity)
  have f0 : numSize s0 / δ ^ 2 ≤ k * g := by
    rw [hg, mul_div_assoc', mul_comm k K]; exact div_le_div_of_nonneg_right hs0 (by positivity)
  rw [← hg, List.map_cons, List.map_cons, List.prod_cons, List.prod_cons, pow_succ]
  have nn := numSize_nonneg s0
  have k0 : 0 ≤ k * g := (div_nonneg nn (sq_nonneg δ)).trans f0
  clear hrest
  constructor
  · have t : (rest.map fun s => numSize s / δ ^ 2).prod ≤ g ^ rest.length := by
      clear f0
      induction rest with
      | nil => simp
      | cons a l ih =>
        rw [List.map_cons, List.prod_cons, List.length_cons, pow_succ' g]
        exact mul_le_mul (one a (by simp)) (ih fun c hc => one c (by simp [hc])) (sizes_nonneg l) (by linarith)
    calc _ ≤ k * g * g ^ rest.length := mul_le_mul f0 t (sizes_nonneg rest) k0
      _ = _ := by ring
  · have t : (rest.map fun s => max 1 (numSize s / δ ^ 2)).prod ≤ g ^ rest.length := by
      clear f0
      induction rest with
      | nil => simp
      | cons a l ih =>
        rw [List.map_cons, List.prod_cons, List.length_cons, pow_succ' g]
        exact mul_le_mul (max_le hg1 (one a (by simp))) (ih fun c hc => one c (by simp [hc]))
          (by linarith [maxes_nonneg (δ := δ) l]) (by linarith)
    have h1 : max 1 (numSize s0 / δ ^ 2) ≤ max 1 k * g := by
      refine max_le ?_ (f0.trans (mul_le_mul_of_nonneg_right (le_max_right _ _) (by linarith)))
      have := le_max_left 1 k
      nlinarith
    calc _ ≤ max 1 k * g * g ^ rest.length :=
          mul_le_mul h1 t (by linarith [maxes_nonneg (δ := δ) rest]) (by have := le_max_left 1 k; positivity)
      _ = _ := by ring

set_option maxHeartbeats 1600000 in
/-- **C124**, from end to end: design a Butterworth low-pass or high-pass filter of order `n` in floating point and
filter a signal with its sections in the same arithmetic.  With `M = sin(π e) sin(π / (2 n))` and
`δ = 0.87 M / (1 + M)`, every sample of the output is within
`250 n³ h / (e (1 - e))² √(energy of the signal)` (from the design) and
`((1 + 15 u / δ²)^N - 1) 1.02 k (4 / δ²)^N L` (from the filtering, `N` sections, gain `k`, signal of level `L`), plus an
underflow term, of the output of the exact filter in exact arithmetic. -/
theorem C124_butter (hr : r.Nearest) (hm : m.Accurate r h) (eps : ℝ) (heps : 0 ≤ eps) {s : Sorts} (hs : s.Correct)
    (n : ℕ) (hn : n ≠ 0) (wn : List ℝ) (hW : ∀ w ∈ wn, r.rnd w = w) (band : Band)
    (hb : band = .lowpass ∨ band = .highpass) (fs : Option ℝ) (e : ℝ) (he : Spec.edges wn fs = [e]) (h0 : 0 < e)
    (h1 : e < 1) (S : Small r h ((e * (1 - e) / 20) ^ n)) (hh : 3000 * (n ^ 3 * h) ≤ (e * (1 - e)) ^ 2)
    (l0 : List (Sos ℝ)) (hl0 : Design.butter eps s n wn (some band) none (some .sos) fs = .ok (.sos l0)) (M δ : ℝ)
    (hM : M = Real.sin (Real.pi * e) * Real.sin (Real.pi / (2 * n))) (hδ : δ = 0.87 * (M / (1 + M))) :
    ∃ (l : List (Sos ℝ)) (f0 : Zpk),
      Rounded.butter (.ofRounding r m) s n wn (some band) none (some .sos) fs = .ok (.sos l) ∧
      Design.butter eps s n wn (some band) none (some .zpk) fs = .ok (.zpk f0) ∧
      |f0.k| ≤ 1 ∧ (band = .lowpass → |f0.k| ≤ Real.tan (Real.pi * e / 2) ^ n) ∧
      ∀ (L : ℝ) (x : List ℝ), (∀ v ∈ x, |v| ≤ L) → ∀ i (_ : i < x.length),
        |((sosfiltDyn (x.map (Fl.mk (r := r))) (l.map (flSection r))).1.getD i 0).val
          - (sosfiltDyn x l0).1.getD i 0| ≤
          250 * (n ^ 3 * h / (e * (1 - e)) ^ 2) * √(energy x) +
          ((1 + 15 * (r.u / δ ^ 2)) ^ ((n + 1) / 2) - 1) * (1.02 * |f0.k| * (4 / δ ^ 2) ^ ((n + 1) / 2) * L) +
          ((n + 1) / 2 : ℕ) * (10 * r.t / δ ^ 2) * (1 + 15 * (r.u / δ ^ 2)) ^ ((n + 1) / 2) *
            (1.02 * (4 / δ ^ 2) ^ ((n + 1) / 2)) := by
  have hn1 : (1 : ℝ) ≤ n := by exact_mod_cast Nat.one_le_iff_ne_zero.mpr hn
  have hn0 : (0 : ℝ) < n := by linarith
  have hh0 := S.h_nonneg
  have hu0 := r.u_nonneg
  have ht0 := r.t_nonneg
  have h1e : 0 < 1 - e := by linarith
  have hpi := Real.pi_pos
  have hw0 : 0 < exWarp e := by
    rw [exWarp]
    have : 0 < Real.tan (Real.pi * e / 2) := Real.tan_pos_of_pos_of_lt_pi_div_two (by positivity) (by nlinarith)
    linarith
  obtain ⟨s1, s2, -, -⟩ := edge_sizes h0 h1 hw0 hn
  have Se := S.mono s2
  obtain ⟨hX0, hX4, hXe, -⟩ := margin_sizes h0 h1 hn
  obtain ⟨X, hX⟩ : ∃ X, X = e * (1 - e) / n := ⟨_, rfl⟩
  rw [← hX] at hX0 hX4 hXe
  have hXn : X * n = e * (1 - e) := by rw [hX]; field_simp
  have hX2 : 0 < X ^ 2 := by positivity
  have hnX : 3000 * (n * h) ≤ X ^ 2 := by
    rw [← hXn] at hh
    have i1 : n ^ 2 * (3000 * (n * h)) ≤ n ^ 2 * X ^ 2 := by
      calc n ^ 2 * (3000 * (n * h)) = 3000 * (n ^ 3 * h) := by ring
        _ ≤ (X * n) ^ 2 := hh
        _ = n ^ 2 * X ^ 2 := by ring
    exact le_of_mul_le_mul_left i1 (by positivity)
  have hhn : h ≤ n * h := by nlinarith
  have hhX : 3000 * h ≤ X ^ 2 := by linarith
  have hH : 3000 * (n * (h / (1 - e))) ≤ X := by
    have : n * (h / (1 - e)) = n * h / (1 - e) := by ring
    rw [this, mul_div_assoc', div_le_iff₀ h1e]
    have := mul_le_mul_of_nonneg_left hXe hX0.le
    nlinarith
  have hH1 : h / (1 - e) ≤ n * (h / (1 - e)) := by
    have : 0 ≤ h / (1 - e) := by positivity
    nlinarith
  have hh' : h ≤ (1 - e) / 1024 := by nlinarith
  -- the margin
  have hMX : 2 * X ≤ M := by rw [hX]; exact margin_low hn h0 h1 hM
  have hM0 : 0 < M := by linarith
  obtain ⟨μ, hμ⟩ : ∃ μ, μ = M / (1 + M) := ⟨_, rfl⟩
  have hμX : 1.33 * X ≤ μ := by
    rw [hμ, le_div_iff₀ (by linarith)]
    have k1 : X * M ≤ 1 / 4 * M := mul_le_mul_of_nonneg_right hX4 hM0.le
    linarith
  have hμ1 : μ ≤ 1 := by rw [hμ, div_le_one (by linarith)]; linarith
  have hμ0 : 0 < μ := by linarith
  rw [← hμ] at hδ
  have hδ0 : 0 < δ := by rw [hδ]; positivity
  have hδ1 : δ ≤ 1 := by rw [hδ]; linarith
  have hμ2 : 1.76 * X ^ 2 ≤ μ ^ 2 := by
    have := pow_le_pow_left₀ (by positivity) hμX 2
    rw [mul_pow] at this
    linarith
  have hδ2 : δ ^ 2 = 0.7569 * μ ^ 2 := by rw [hδ]; ring
  -- the designs
  obtain ⟨f, f0, e', hee, hf, hf0, hfp, -, hz, -, hk, hk0⟩ := butter_both (m := m) hr eps s (n := n) hW hb he h1 Se hh'
  obtain ⟨f', f0', hf', hf0', -, -, hkk⟩ := C91_gain hr hm eps s n hn wn hW band hb fs e he h0 h1 S (by
    have : n * h = n * (h / (1 - e)) * (1 - e) := by field_simp
    rw [this]
    nlinarith)
  have e1 : f' = f := by rw [hf] at hf'; simpa using hf'.symm
  have e2 : f0' = f0 := by rw [hf0] at hf0'; simpa using hf0'.symm
  subst e1 e2
  have hin : ∀ p ∈ f'.p, ‖p‖ ≤ 1 - 0.98 * μ := by
    intro p hpm
    rw [hfp] at hpm
    obtain ⟨j, hj, rfl⟩ := List.mem_map.mp hpm
    have a1 := pole_err (band := band) Se hr h1 hee hh' hm hn hj
    have a2 := margin_trig hn band h0 h1 hj hM
    rw [← hμ] at a2
    have a3 := norm_add_le (flBilinear r (flAnalog r m n band e' j) - (4 + exAnalog n band e j) / (4 - exAnalog n band e j))
      ((4 + exAnalog n band e j) / (4 - exAnalog n band e j))
    rw [sub_add_cancel] at a3
    linarith
  have hpl : f'.p.length = n := by rw [hfp, List.length_map, stepRange_sym_length]
  obtain ⟨l, hl, H⟩ := C92_rounded_design hr hm eps heps hs n hn wn hW band hb fs e he h0 h1 S hh l0 hl0
  obtain ⟨l', hl', hlen, -⟩ := C90_sections hr hm hs n hn wn hW band hb fs e he h1 Se (by rw [← hX]; linarith)
  have hll : l' = l := by rw [hl] at hl'; simpa using hl'.symm
  subst hll
  obtain ⟨b1, -, b3, s0, rest, b4, b5, b6⟩ := sections_bounds S (by linarith) hr hs hn (ftype := .butterworth)
    (by simp [KeepsPairs]) hl hf (fun z hzm => by
      rw [hz] at hzm
      have := (List.mem_replicate.mp hzm).2
      rw [this]
      split <;> simp) (by rw [hpl]; exact Nat.pos_of_ne_zero hn) (δ := 0.98 * μ) (by positivity) hin (by
        have : (0.98 * μ) ^ 2 = 0.9604 * μ ^ 2 := by ring
        rw [this]
        linarith)
  obtain ⟨g1, g2⟩ := exGain_le hn band h0 h1
  rw [← hk0] at g1 g2
  have hkle : |f'.k| ≤ 1.02 * |f0'.k| := by
    have a := abs_add_le (f'.k - f0'.k) f0'.k
    rw [sub_add_cancel] at a
    have b : 125 * n * h / (1 - e) * |f0'.k| ≤ 0.02 * |f0'.k| := by
      refine mul_le_mul_of_nonneg_right ?_ (abs_nonneg _)
      have : 125 * n * h / (1 - e) = 125 * (n * (h / (1 - e))) := by ring
      rw [this]
      linarith
    have := hkk
    linarith
  refine ⟨l', f0', hl, hf0, g1, g2, fun L x hx i hi => ?_⟩
  have hL : 0 ≤ L := (abs_nonneg _).trans (hx x[i] (List.getElem_mem hi))
  have A := (C124_error l' b1 δ hδ0 (fun c hc z hzr => by
      have := b3 c hc z hzr
      rw [hδ]
      linarith) r (by rw [hδ2]; have := S.u_le; linarith) L x hx).2 i hi
  have B := sample_le_energy (by rw [(C24_length x l').1, (C24_length x l0).1]) (H x) i
  rw [Real.sqrt_mul (sq_nonneg _), Real.sqrt_sq (by positivity)] at B
  have C := abs_add_le (((sosfiltDyn (x.map (Fl.mk (r := r))) (l'.map (flSection r))).1.getD i 0).val -
    (sosfiltDyn x l').1.getD i 0) ((sosfiltDyn x l').1.getD i 0 - (sosfiltDyn x l0).1.getD i 0)
  rw [sub_add_sub_cancel] at C
  obtain ⟨q1, q2⟩ := sizes_prod (δ := δ) hδ0 hδ1 (by norm_num) b5 b6
  rw [← b4] at q1 q2
  have hr1 : rest.length + 1 = (n + 1) / 2 := by rw [← hlen, b4]; simp
  rw [hr1] at q1 q2
  rw [hlen] at A
  obtain ⟨c, hc⟩ : ∃ c, c = 15 * (r.u / δ ^ 2) := ⟨_, rfl⟩
  have hc0 : 0 ≤ c := by rw [hc]; positivity
  rw [← hc] at A ⊢
  have hcp : 0 ≤ (1 + c) ^ ((n + 1) / 2) - 1 := sub_nonneg.mpr (one_le_pow₀ (by linarith))
  have D1 : ((1 + c) ^ ((n + 1) / 2) - 1) * ((l'.map fun s => numSize s / δ ^ 2).prod * L) ≤
      ((1 + c) ^ ((n + 1) / 2) - 1) * (1.02 * |f0'.k| * (4 / δ ^ 2) ^ ((n + 1) / 2) * L) := by
    refine mul_le_mul_of_nonneg_left (mul_le_mul_of_nonneg_right (q1.trans ?_) hL) hcp
    exact mul_le_mul_of_nonneg_right hkle (by positivity)
  have D2 : (((n + 1) / 2 : ℕ) : ℝ) * (10 * r.t / δ ^ 2) * (1 + c) ^ ((n + 1) / 2) *
        (l'.map fun s => max 1 (numSize s / δ ^ 2)).prod ≤
      (((n + 1) / 2 : ℕ) : ℝ) * (10 * r.t / δ ^ 2) * (1 + c) ^ ((n + 1) / 2) *
        (1.02 * (4 / δ ^ 2) ^ ((n + 1) / 2)) := by
    refine mul_le_mul_of_nonneg_left (q2.trans (mul_le_mul_of_nonneg_right ?_ (by positivity))) (by positivity)
    exact max_le (by norm_num) (by linarith)
  linarith

set_option maxHeartbeats 800000 in
/-- **C124**, an instance: the fourth-order 10 Hz low-pass filter for signals sampled at 1000 Hz, designed in binary64
and run in binary64 on a signal of level `L`.  Every output sample is within
`4e-8 √(energy of the signal) + 1e-9 L + 1e-60` of that of the exact filter. -/
theorem C124_example {s : Sorts} (hs : s.Correct) : ∃ l l0 : List (Sos ℝ),
    Rounded.butter (.ofRounding binary64 libm64) s 4 [10] (some .lowpass) none (some .sos) (some 1000) = .ok (.sos l) ∧
    Design.butter 0 s 4 [10] (some .lowpass) none (some .sos) (some 1000) = .ok (.sos l0) ∧
      ∀ (L : ℝ) (x : List ℝ), (∀ v ∈ x, |v| ≤ L) → ∀ i (_ : i < x.length),
        |((sosfiltDyn (x.map (Fl.mk (r := binary64))) (l.map (flSection binary64))).1.getD i 0).val
          - (sosfiltDyn x l0).1.getD i 0| ≤ 4 / 10 ^ 8 * √(energy x) + L / 10 ^ 9 + 1 / 10 ^ 60 := by
  have hW : Spec.edges [(10 : ℝ)] (some 1000) = [1 / 50] := by simp [Spec.edges]; norm_num
  have hpi := Real.pi_pos
  have hpi3 := Real.pi_gt_d4
  have hpi4 := Real.pi_lt_d4
  have sA : 0.0627 ≤ Real.sin (Real.pi * (1 / 50)) := by
    have k := Real.sin_gt_sub_cube (x := Real.pi * (1 / 50)) (by positivity)
    have : (Real.pi * (1 / 50)) ^ 3 ≤ (3.1416 * (1 / 50)) ^ 3 := pow_le_pow_left₀ (by positivity) (by linarith) 3
    norm_num at this k ⊢
    linarith
  have sB : 0.377 ≤ Real.sin (Real.pi / (2 * ((4 : ℕ) : ℝ))) := by
    have k := Real.sin_gt_sub_cube (x := Real.pi / (2 * ((4 : ℕ) : ℝ))) (by positivity)
    have : (Real.pi / (2 * ((4 : ℕ) : ℝ))) ^ 3 ≤ (3.1416 / (2 * ((4 : ℕ) : ℝ))) ^ 3 :=
      pow_le_pow_left₀ (by positivity) (by push_cast; linarith) 3
    norm_num at this k ⊢
    linarith
  have hret := ((C84_butter_iff 0 s le_rfl hs 4 (by norm_num) .lowpass (.inl rfl) 10 (1 / 50) (some 1000) hW
    (by norm_num) (by norm_num)).1).mpr (.inr (by
      rw [leastAngle, if_pos (by norm_num), zero_mul, zero_mul]
      exact mul_pos (by linarith) (by linarith)))
  obtain ⟨l0, hl0⟩ := C84_format 0 s 4 [10] none none (some .lowpass) (some .butterworth) (some false) (some 1000) hret
  have hσ : (2 : ℝ) ^ (-1000 : ℤ) ≤ ((1 / 50 : ℝ) * (1 - 1 / 50) / 20) ^ 4 := by
    have h5 : (2 : ℝ) ^ (-1000 : ℤ) ≤ 2 ^ (-100 : ℤ) := zpow_le_zpow_right₀ (by norm_num) (by norm_num)
    refine h5.trans ?_
    rw [zpow_neg]
    norm_num
  have hw : binary64.rnd 10 = 10 := by
    have := Binary.rnd_int 53 (-1074) (by norm_num) 10 (by norm_num)
    exact_mod_cast this
  obtain ⟨M, hM⟩ : ∃ M, M = Real.sin (Real.pi * (1 / 50)) * Real.sin (Real.pi / (2 * ((4 : ℕ) : ℝ))) := ⟨_, rfl⟩
  obtain ⟨δ, hδ⟩ : ∃ δ, δ = 0.87 * (M / (1 + M)) := ⟨_, rfl⟩
  obtain ⟨l, f0, hl, -, -, hk, H⟩ := C124_butter binary64_nearest libm64_accurate 0 le_rfl hs 4 (by norm_num) [10]
    (by simpa using hw) .lowpass (.inl rfl) (some 1000) (1 / 50) hW (by norm_num) (by norm_num)
    (binary64_small_pow hσ) (by norm_num) l0 hl0 M δ hM hδ
  refine ⟨l, l0, hl, hl0, fun L x hx i hi => (H L x hx i hi).trans ?_⟩
  have hL : 0 ≤ L := (abs_nonneg _).trans (hx x[i] (List.getElem_mem hi))
  -- the margin
  have hMlow : 0.0236 ≤ M := by
    rw [hM]
    have := mul_le_mul sA sB (by norm_num) (by linarith)
    norm_num at this ⊢
    linarith
  have hδ1 : 0.02 ≤ δ := by
    rw [hδ, mul_div_assoc', le_div_iff₀ (by linarith)]
    linarith
  have hδ2 : 0.0004 ≤ δ ^ 2 := by nlinarith
  have q : ∀ c : ℝ, 0 ≤ c → c / δ ^ 2 ≤ 2500 * c := by
    intro c hc
    rw [div_le_iff₀ (by linarith)]
    nlinarith
  -- the gain
  have hT : Real.tan (Real.pi * (1 / 50) / 2) ≤ 0.0315 := by
    rw [Real.tan_eq_sin_div_cos]
    have c1 := Real.one_sub_sq_div_two_le_cos (x := Real.pi * (1 / 50) / 2)
    have c2 : (Real.pi * (1 / 50) / 2) ^ 2 ≤ (0.032) ^ 2 := pow_le_pow_left₀ (by positivity) (by linarith) 2
    have c3 := Real.sin_le (x := Real.pi * (1 / 50) / 2) (by positivity)
    norm_num at c2
    rw [div_le_iff₀ (by linarith)]
    linarith
  have hT0 : 0 ≤ Real.tan (Real.pi * (1 / 50) / 2) :=
    Real.tan_nonneg_of_nonneg_of_le_pi_div_two (by positivity) (by linarith)
  have hk1 : |f0.k| ≤ 1 / 10 ^ 6 := (hk rfl).trans ((pow_le_pow_left₀ hT0 hT 4).trans (by norm_num))
  have h1 : binary64.u = 2 ^ (-53 : ℤ) := rfl
  have h2 : binary64.t = 2 ^ (-1075 : ℤ) := rfl
  have h3 : binary64.t ≤ 1 / 10 ^ 74 := by
    have h5 : (2 : ℝ) ^ (-1075 : ℤ) ≤ 2 ^ (-250 : ℤ) := zpow_le_zpow_right₀ (by norm_num) (by norm_num)
    rw [h2]
    refine h5.trans ?_
    rw [zpow_neg]
    norm_num
  have hu0 := binary64.u_nonneg
  have ht0 := binary64.t_nonneg
  have q1 := q _ hu0
  have q2 : 4 / δ ^ 2 ≤ 10000 := by have := q 4 (by norm_num); linarith
  have q3 : 10 * binary64.t / δ ^ 2 ≤ 1 / 10 ^ 69 := by
    have := q (10 * binary64.t) (by positivity)
    norm_num at this h3 ⊢
    linarith
  have hδp : 0 < δ ^ 2 := by linarith
  have q4 : 15 * (binary64.u / δ ^ 2) ≤ 4.2 / 10 ^ 12 := by
    rw [h1] at q1 ⊢
    norm_num at q1 ⊢
    linarith
  rw [show (4 + 1) / 2 = 2 from rfl]
  obtain ⟨c, hc⟩ : ∃ c, c = 15 * (binary64.u / δ ^ 2) := ⟨_, rfl⟩
  have hc0 : 0 ≤ c := by rw [hc]; positivity
  rw [← hc] at q4 ⊢
  have p1 : (1 + c) ^ 2 - 1 ≤ 8.5 / 10 ^ 12 := by
    have := pow_le_pow_left₀ (by linarith) (add_le_add_right q4 1) 2
    norm_num at this ⊢
    linarith
  have p1' : 0 ≤ (1 + c) ^ 2 - 1 := by nlinarith
  have p2 : (4 / δ ^ 2) ^ 2 ≤ 10 ^ 8 := (pow_le_pow_left₀ (by positivity) q2 2).trans (by norm_num)
  have p3 : 1.02 * |f0.k| * (4 / δ ^ 2) ^ 2 * L ≤ 102 * L := by
    refine mul_le_mul_of_nonneg_right ?_ hL
    have := mul_le_mul (mul_le_mul_of_nonneg_left hk1 (by norm_num : (0 : ℝ) ≤ 1.02)) p2 (by positivity) (by positivity)
    norm_num at this ⊢
    linarith
  have t2 := mul_le_mul p1 p3 (by positivity) (by norm_num)
  have t3 : ((2 : ℕ) : ℝ) * (10 * binary64.t / δ ^ 2) * (1 + c) ^ 2 * (1.02 * (4 / δ ^ 2) ^ 2) ≤ 1 / 10 ^ 60 := by
    have a1 : ((2 : ℕ) : ℝ) * (10 * binary64.t / δ ^ 2) ≤ 2 * (1 / 10 ^ 69) := by push_cast; linarith
    have a2 : (1 + c) ^ 2 ≤ 1.1 := by norm_num at p1 ⊢; linarith
    have a3 : 1.02 * (4 / δ ^ 2) ^ 2 ≤ 1.02 * 10 ^ 8 := by linarith
    have := mul_le_mul (mul_le_mul a1 a2 (by positivity) (by positivity)) a3 (by positivity) (by positivity)
    refine this.trans ?_
    norm_num
  have t1 : 250 * (((4 : ℕ) : ℝ) ^ 3 * 2 ^ (-50 : ℤ) / (1 / 50 * (1 - 1 / 50)) ^ 2) ≤ 4 / 10 ^ 8 := by norm_num
  have t1' := mul_le_mul_of_nonneg_right t1 (Real.sqrt_nonneg (energy x))
  have t2' : 8.5 / 10 ^ 12 * (102 * L) ≤ L / 10 ^ 9 := by
    norm_num
    linarith
  linarith

end SciRs.Props

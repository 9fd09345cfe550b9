import Verif.Props.Bessel
import Verif.Lemmas.Bessel.Large

/-!
# C67: `i0` and `i0e` compute the modified Bessel function
-/

namespace SciRs.Props

open SciRs SciRs.Bessel SciRs.Spec Polynomial

theorem cevFrom_eq_sum (θ : ℝ) (n : ℕ) (l : List ℚ) :
    cevFrom θ n l = ∑ i ∈ Finset.range l.length, ((l.getD i 0 : ℚ) : ℝ) * (2 * Real.cos ((n + i : ℕ) * θ)) := by
  induction l generalizing n with
  | nil => simp [cevFrom]
  | cons c l ih =>
    rw [cevFrom, ih, List.length_cons, Finset.sum_range_succ', add_comm]
    congr 1
    refine Finset.sum_congr rfl (fun i _ => ?_)
    rw [List.getD_cons_succ, show n + 1 + i = n + (i + 1) by ring]

theorem chbevl_code (θ : ℝ) (l : List ℚ) :
    chbevl (2 * Real.cos θ) (l.map (fun q : ℚ => (q : ℝ))) = cev θ (codeCheb l) := by
  rcases l with _ | ⟨c0, cs⟩
  · simp [chbevl, codeCheb, cev, cevFrom]
  · rw [List.map_cons, chbevl_eq]
    have hcode : codeCheb (c0 :: cs) =
        match (c0 :: c0 :: cs).reverse with
        | [] => []
        | r :: rs => r / 4 :: rs.map (fun x => x / 2) := rfl
    have hmap : ((c0 : ℝ) :: (c0 : ℝ) :: cs.map (fun q : ℚ => (q : ℝ))) =
        (c0 :: c0 :: cs).map (fun q : ℚ => (q : ℝ)) := rfl
    rw [hcode, hmap]
    have hlen : (c0 :: c0 :: cs).length = (c0 :: c0 :: cs).reverse.length := by simp
    unfold chebSeries
    rw [← List.map_reverse, List.length_map, hlen]
    rcases hr : (c0 :: c0 :: cs).reverse with _ | ⟨r, rs⟩
    · simp at hr
    · simp only
      rw [cev, cevFrom, cevFrom_eq_sum, List.length_cons, Finset.sum_Ico_eq_sum_range, List.length_map]
      congr 1
      · simp
        ring
      · refine Finset.sum_congr (by simp) (fun i hi => ?_)
        have hi' : i < rs.length := by simpa using hi
        rw [show 1 + i = i + 1 by ring]
        simp only [List.map_cons, List.getD_cons_succ]
        rw [List.getD_eq_getElem _ _ (by simpa using hi'), List.getD_eq_getElem _ _ (by simpa using hi'),
          List.getElem_map, List.getElem_map, show 2 * Real.cos θ / 2 = Real.cos θ by ring,
          Chebyshev.T_real_cos]
        push_cast
        ring

/-- The small regime: absolute error. -/
theorem small_error {x : ℝ} (h0 : 0 ≤ x) (h8 : x ≤ 8) : |chbevl (x / 2 - 2) tableA - eFun x| ≤ 6.1e-18 := by
  obtain ⟨θ, hθ⟩ := exists_angle (w := x / 2 - 2) (by linarith) (by linarith)
  rw [hθ, tableA_eq, chbevl_code]
  have hx : x = (2 : ℚ) * (2 * Real.cos θ) + (4 : ℚ) := by push_cast; linarith
  have h1 := abs_cev_le θ errA
  rw [errA, cev_addL, cev_scaleL, cev_toCheb, ← hx] at h1
  have h2 : ev eList x = ∑ k ∈ Finset.range nTrunc, eC k * x ^ k := by
    rw [eList, ev_range]; rfl
  have h3 := ent_eC.tail x nTrunc (by
    rw [abs_of_nonneg h0]
    norm_num [nTrunc]
    linarith)
  rw [← h2, abs_of_nonneg h0] at h3
  have h4 : (1 : ℝ) * ((2 * x) ^ nTrunc / (Nat.factorial nTrunc : ℝ) * 2) ≤ 1e-22 := by
    have : (2 * x) ^ nTrunc ≤ 16 ^ nTrunc := pow_le_pow_left₀ (by linarith) (by linarith) _
    have h5 : (2 * x) ^ nTrunc / (Nat.factorial nTrunc : ℝ) ≤ 16 ^ nTrunc / (Nat.factorial nTrunc : ℝ) :=
      div_le_div_of_nonneg_right this (by positivity)
    refine (mul_le_mul_of_nonneg_left (mul_le_mul_of_nonneg_right h5 (by norm_num)) (by norm_num)).trans ?_
    norm_num [nTrunc, Nat.factorial]
  have hb : ((2 * absSum errA : ℚ) : ℝ) ≤ ((6e-18 : ℚ) : ℝ) := Rat.cast_le.mpr errA_bound
  push_cast at hb h1
  rw [errA] at hb
  rw [show eFun x = powSer eC x from rfl]
  rw [abs_le] at *
  constructor <;> norm_num at * <;> linarith [h1.1, h1.2, h3.1, h3.2]

/-- `exp (-x) I₀(x)` decreases on `[0, ∞)`. -/
theorem eFun_lower {x : ℝ} (h0 : 0 ≤ x) (h8 : x ≤ 8) : 142 / 1000 ≤ eFun x := by
  have hd : ∀ z : ℝ, HasDerivAt (fun z => z * Real.exp (2 * z) * eFun' z) (-(Real.exp (2 * z) * eFun z)) z := by
    intro z
    have he : HasDerivAt (fun x : ℝ => Real.exp (2 * x)) (Real.exp (2 * z) * 2) z := by
      have := ((hasDerivAt_id z).const_mul 2).exp
      simpa using this
    refine (((hasDerivAt_id z).mul he).mul (eFun'_deriv z)).congr_deriv ?_
    have := eFun_ode z
    simp only [id, Pi.mul_apply]
    linear_combination Real.exp (2 * z) * this
  have hanti : Antitone (fun z => z * Real.exp (2 * z) * eFun' z) :=
    antitone_of_deriv_nonpos (fun z => (hd z).differentiableAt) (fun z => by
      rw [(hd z).deriv]
      exact neg_nonpos.mpr (mul_pos (Real.exp_pos _) (eFun_pos z)).le)
  have hneg : ∀ z : ℝ, 0 < z → eFun' z ≤ 0 := by
    intro z hz
    have := hanti hz.le
    simp only [zero_mul] at this
    by_contra hc
    push Not at hc
    have := mul_pos (mul_pos hz (Real.exp_pos (2 * z))) hc
    linarith
  have hE : AntitoneOn eFun (Set.Ici 0) := by
    apply antitoneOn_of_deriv_nonpos (convex_Ici 0)
    · exact fun y _ => (eFun_deriv y).continuousAt.continuousWithinAt
    · exact fun y _ => (eFun_deriv y).differentiableAt.differentiableWithinAt
    · intro y hy
      rw [interior_Ici] at hy
      rw [(eFun_deriv y).deriv]
      exact hneg y hy
  have h1 := hE (Set.mem_Ici.mpr h0) (Set.mem_Ici.mpr (h0.trans h8)) h8
  have h2 := (abs_le.mp eFun8).1
  have h3 : (143 / 1000 : ℝ) ≤ (e8 : ℝ) := by
    have := (Rat.cast_le (K := ℝ)).mpr e8_bound.1
    push_cast at this
    exact this
  norm_num at *
  linarith

theorem besselI0_abs (x : ℝ) : besselI0 |x| = besselI0 x := by
  unfold besselI0
  rw [sq_abs]

/-- **C67** The scaled function: for every real `x`, in exact arithmetic,
`|i0e(x) - exp(-|x|) I₀(x)| ≤ 6·10⁻¹⁵ · exp(-|x|) I₀(x)`; for `|x| ≤ 8` the relative error is below
`5·10⁻¹⁷`. -/
theorem C67_i0e_accuracy (x : ℝ) :
    |i0e realEnv x - Real.exp (-|x|) * besselI0 x| ≤ 6e-15 * (Real.exp (-|x|) * besselI0 x) ∧
    (|x| ≤ 8 → |i0e realEnv x - Real.exp (-|x|) * besselI0 x| ≤ 5e-17 * (Real.exp (-|x|) * besselI0 x)) := by
  rw [← besselI0_abs x, ← eFun_eq |x|]
  have hsmall : |x| ≤ 8 → |i0e realEnv x - eFun (|x|)| ≤ 5e-17 * eFun |x| := by
    intro h
    rw [i0e_small h]
    have h1 := small_error (abs_nonneg x) h
    have h2 := eFun_lower (abs_nonneg x) h
    norm_num at *
    linarith
  refine ⟨?_, hsmall⟩
  by_cases h : |x| ≤ 8
  · refine (hsmall h).trans ?_
    have := (eFun_pos |x|).le
    norm_num
    linarith
  · rw [i0e_large h]
    push Not at h
    set y := |x| with hy
    have hs : 0 < Real.sqrt y := Real.sqrt_pos.mpr (by linarith)
    have hp : chbevl (32 / y - 2) tableB = pFun y := by
      obtain ⟨θ, hθ⟩ := exists_angle (w_range h.le).1 (w_range h.le).2
      rw [pFun, hθ, tableB_eq, chbevl_code, ev_pB]
    rw [hp]
    have h1 := dFun_le h.le
    have h2 := pFun_lower h.le
    have hu : uFun y = Real.sqrt y * eFun y := rfl
    have h3 : |pFun y / Real.sqrt y - eFun y| = |pFun y - uFun y| / Real.sqrt y := by
      rw [hu, ← abs_of_pos hs, ← abs_div, abs_of_pos hs]
      congr 1
      field_simp
    rw [h3, div_le_iff₀ hs]
    have h4 : 6e-15 * eFun y * Real.sqrt y = 6e-15 * uFun y := by rw [hu]; ring
    rw [h4]
    have h5 := (abs_le.mp h1).2
    norm_num at *
    linarith

/-- **C67** For every real `x`, in exact arithmetic, `|i0(x) - I₀(x)| ≤ 6·10⁻¹⁵ · I₀(x)`; for `|x| ≤ 8` the
relative error is below `5·10⁻¹⁷`. -/
theorem C67_i0_accuracy (x : ℝ) :
    |i0 realEnv x - besselI0 x| ≤ 6e-15 * besselI0 x ∧
    (|x| ≤ 8 → |i0 realEnv x - besselI0 x| ≤ 5e-17 * besselI0 x) := by
  have hkey : |i0 realEnv x - besselI0 x| =
      Real.exp |x| * |i0e realEnv x - Real.exp (-|x|) * besselI0 x| := by
    rw [C17_scaled, ← abs_of_pos (Real.exp_pos |x|), ← abs_mul, abs_of_pos (Real.exp_pos |x|), mul_sub,
      ← mul_assoc, ← Real.exp_add]
    simp
  have hb : Real.exp |x| * (Real.exp (-|x|) * besselI0 x) = besselI0 x := by
    rw [← mul_assoc, ← Real.exp_add]; simp
  obtain ⟨h1, h2⟩ := C67_i0e_accuracy x
  rw [hkey]
  constructor
  · refine (mul_le_mul_of_nonneg_left h1 (Real.exp_pos |x|).le).trans (le_of_eq ?_)
    linear_combination (6e-15 : ℝ) * hb
  · intro h
    refine (mul_le_mul_of_nonneg_left (h2 h) (Real.exp_pos |x|).le).trans (le_of_eq ?_)
    linear_combination (5e-17 : ℝ) * hb

/-- The specification is the familiar function: `I₀(0) = 1` and `I₀` solves `x y'' + y' = x y`. -/
theorem C67_spec_sane : besselI0 0 = 1 ∧ ∃ d d' : ℝ → ℝ, ∀ x : ℝ,
    HasDerivAt besselI0 (d x) x ∧ HasDerivAt d (d' x) x ∧ x * d' x + d x = x * besselI0 x := by
  refine ⟨?_, i0', _, fun x => ⟨besselI0_deriv x, i0'_deriv x, i0_ode x⟩⟩
  rw [besselI0_eq]; unfold gFun
  rw [show (0 : ℝ) ^ 2 / 4 = 0 by norm_num, powSer_zero]; simp [gC]

end SciRs.Props

import Verif.Lemmas.RoundedFiltfilt
import Verif.Props.RoundedSos

/-!
# C94: `lfilter_zi_dyn`, `sosfilt_zi_dyn` and `sosfiltfilt_dyn` in floating point

`Rounding` (Spec/Rounding.lean) is floating-point arithmetic without overflow: unit roundoff `u`,
underflow error `t`.  The theorems ask for `t ≤ u`, which single and double precision satisfy by a wide
margin.
-/

namespace SciRs.Props

open SciRs SciRs.Spec SciRs.Rounded

/-- **C94** If the coefficients `a` do not sum to zero (no pole at `z = 1`), the initial state that
`lfilter_zi_dyn` computes in floating point is within a constant times the unit roundoff of the exact
one.  The constant and the precision from which it is valid depend on the coefficients only. -/
theorem C94_lfilter_zi (b a : List ℝ) (hl : b.length = a.length) (hm : 2 ≤ a.length)
    (hsum : a.sum ≠ 0) :
    ∃ (zi : List ℝ) (C u0 : ℝ), lfilterZiDyn b a = .ok zi ∧ 0 < u0 ∧
      ∀ r : Rounding, r.u ≤ u0 → r.t ≤ r.u →
        ∃ zi', lfilterZiDyn (b.map (Fl.mk (r := r))) (a.map (Fl.mk (r := r))) = .ok zi' ∧
          zi'.length = zi.length ∧ ∀ j, |(zi'.getD j 0).val - zi.getD j 0| ≤ C * r.u := by
  obtain ⟨zi, zi', h1, _, h3, h4, h5⟩ := lfilterZi_lim b a hl hm hsum
  obtain ⟨C, u0, hC, hu0, H⟩ := Lim.uniform zi.length (fun j r => ((zi' r).getD j 0).val)
    (fun j => zi.getD j 0) (fun j _ => h5 j)
  refine ⟨zi, C, u0, h1, hu0, fun r hu ht => ⟨zi' r, h3 r, h4 r, fun j => ?_⟩⟩
  by_cases hj : j < zi.length
  · exact H r hu ht j hj
  · rw [List.getD_eq_getElem?_getD, List.getD_eq_getElem?_getD,
      List.getElem?_eq_none (by rw [h4]; omega), List.getElem?_eq_none (by omega)]
    have := r.u_nonneg
    simp only [Option.getD_none, Fl.val_zero, sub_zero, abs_zero]
    positivity

/-- A leading zero is skipped, as in the exact case. -/
example : [(1 : ℝ), 2, 3].length = [(0 : ℝ), 2, -1].length ∧ 2 ≤ [(0 : ℝ), 2, -1].length ∧
    [(0 : ℝ), 2, -1].sum ≠ 0 := by
  refine ⟨rfl, by simp, by norm_num⟩

/-- **C94** The same for `sosfilt_zi_dyn`: the coefficients are kept, the states are within a constant
times the unit roundoff of the exact ones. -/
theorem C94_sosfilt_zi (sos : List (Sos ℝ)) (hs : ∀ s ∈ sos, s.a0 + s.a1 + s.a2 ≠ 0) :
    ∃ (R : List (Sos ℝ)) (C u0 : ℝ), sosfiltZiDyn sos = .ok R ∧ 0 < u0 ∧
      ∀ r : Rounding, r.u ≤ u0 → r.t ≤ r.u →
        ∃ R', sosfiltZiDyn (sos.map (flSection r)) = .ok R' ∧
          R'.map coeffs = (sos.map (flSection r)).map coeffs ∧
          List.Forall₂ (fun s' s => |s'.zi0.val - s.zi0| ≤ C * r.u ∧ |s'.zi1.val - s.zi1| ≤ C * r.u)
            R' R := by
  obtain ⟨R, R', h1, h2, h3, h4⟩ := sosfiltZi_lim sos hs 1 (fun _ => 1) FLim.one
  obtain ⟨C, Z, u0, _, _, hu0, H⟩ := states_uniform R R' h3
  refine ⟨R, C, u0, h1, hu0, fun r hu ht => ⟨R'.map fun f : (r : Rounding) → Sos (Fl r) => f r, h2 r, ?_,
    (H r hu ht).imp fun _ _ h => ⟨h.e0, h.e1⟩⟩⟩
  clear h1 h2 H hs
  induction h3 generalizing sos with
  | nil =>
    have : sos = [] := by simpa using h4.symm
    simp [this]
  | @cons f s fs ss hf _ ih =>
    cases sos with
    | nil => simp at h4
    | cons q qs =>
      simp only [List.map_cons, List.cons.injEq] at h4 ⊢
      refine ⟨?_, ih qs h4.2⟩
      have e := h4.1
      simp only [coeffs, Prod.mk.injEq] at e
      obtain ⟨e1, e2, e3, e4, e5, e6⟩ := e
      simp only [coeffs, flSection, hf.b0 r, hf.b1 r, hf.b2 r, hf.a0 r, hf.a1 r, hf.a2 r, e1, e2, e3,
        e4, e5, e6]

theorem sosNtaps_fl (r : Rounding) (sos : List (Sos ℝ)) :
    sosNtaps (sos.map (flSection r)) = sosNtaps sos := by
  have e : ∀ v : ℝ, ((⟨v⟩ : Fl r) = 0) ↔ v = 0 := fun v =>
    ⟨fun h => congrArg Fl.val h, fun h => by rw [h]; rfl⟩
  have h1 : ((sos.map (flSection r)).filter fun s => s.b2 = 0).length
      = (sos.filter fun s => s.b2 = 0).length := by
    rw [List.filter_map, List.length_map]
    congr 2
    funext s
    simp only [flSection, Function.comp, e]
  have h2 : ((sos.map (flSection r)).filter fun s => s.a2 = 0).length
      = (sos.filter fun s => s.a2 = 0).length := by
    rw [List.filter_map, List.length_map]
    congr 2
    funext s
    simp only [flSection, Function.comp, e]
  simp only [sosNtaps, h1, h2, List.length_map]

/-- **C94** Zero-phase filtering with stable sections is numerically stable: there are a constant `K` and
a precision `u0`, depending on the sections only, such that in every arithmetic at least that precise,
for every level `L` and every signal of that level which is long enough for the call to return, every
sample `sosfiltfilt_dyn` computes is within `K (u L + t)` of the exact result.  This covers the odd
extension, the computed initial states, both passes and both reversals, for any length. -/
theorem C94_filtfilt (sos : List (Sos ℝ)) (hst : ∀ s ∈ sos, Stable s)
    (hs : ∀ s ∈ sos, s.a0 + s.a1 + s.a2 ≠ 0) :
    ∃ K u0 : ℝ, 0 < u0 ∧ ∀ r : Rounding, r.u ≤ u0 → r.t ≤ r.u →
      ∀ (L : ℝ) (y : List ℝ), (∀ v ∈ y, |v| ≤ L) → 3 * sosNtaps sos < y.length →
        ∃ z z', sosfiltfiltDyn y sos = .ok z ∧
          sosfiltfiltDyn (y.map (Fl.mk (r := r))) (sos.map (flSection r)) = .ok z' ∧
          z.length = y.length ∧ z'.length = y.length ∧
          ∀ i, |(z'.getD i 0).val - z.getD i 0| ≤ K * (r.u * L + r.t) := by
  obtain ⟨R, R', h1, h2, h3, h4⟩ := sosfiltZi_lim sos hs 1 (fun _ => 1) FLim.one
  obtain ⟨C, Z, u1, hC, hZ, hu1, H1⟩ := states_uniform R R' h3
  obtain ⟨D2, M2, u2, hD2, hM2, hu2, H2⟩ := pass_err sos hst C Z 19 3 hC hZ (by norm_num) (by norm_num)
  obtain ⟨D3, M3, u3, hD3, hM3, hu3, H3⟩ := pass_err sos hst C Z D2 M2 hC hZ hD2 hM2
  have hcoef : R.map filterCoeffs = sos.map filterCoeffs := by
    have e : ∀ l : List (Sos ℝ), l.map filterCoeffs =
        (l.map coeffs).map fun c => (c.1, c.2.1, c.2.2.1, c.2.2.2.2.1, c.2.2.2.2.2) := by
      intro l; rw [List.map_map]; rfl
    rw [e, e, h4]
  refine ⟨D3, min (min u1 1) (min u2 u3), lt_min (lt_min hu1 one_pos) (lt_min hu2 hu3), ?_⟩
  intro r hu ht L y hy hlen
  have hr1 : r.u ≤ u1 := hu.trans ((min_le_left _ _).trans (min_le_left _ _))
  have hr0 : r.u ≤ 1 := hu.trans ((min_le_left _ _).trans (min_le_right _ _))
  have hr2 : r.u ≤ u2 := hu.trans ((min_le_right _ _).trans (min_le_left _ _))
  have hr3 : r.u ≤ u3 := hu.trans ((min_le_right _ _).trans (min_le_right _ _))
  have hL : 0 ≤ L := (abs_nonneg _).trans (hy y[0] (List.getElem_mem (by omega)))
  have hyg : ∀ i, |y.getD i 0| ≤ L := by
    intro i
    rw [List.getD_eq_getElem?_getD]
    by_cases hi : i < y.length
    · rw [List.getElem?_eq_getElem hi]; exact hy _ (List.getElem_mem hi)
    · rw [List.getElem?_eq_none (by omega)]; simpa using hL
  have hok := sosfiltfilt_ok y sos R hlen h1
  have hok' := sosfiltfilt_ok (y.map (Fl.mk (r := r))) (sos.map (flSection r)) (R'.map fun f : (r : Rounding) → Sos (Fl r) => f r)
    (by rw [sosNtaps_fl, List.length_map]; exact hlen) (h2 r)
  rw [sosNtaps_fl] at hok'
  have l1 := C30_length _ _ _ hok
  have l2 := C30_length _ _ _ hok'
  rw [List.length_map] at l2
  refine ⟨_, _, hok, hok', l1, l2, ?_⟩
  have hn := H1 r hr1 ht
  obtain ⟨n, hndef⟩ : ∃ n, n = 3 * sosNtaps sos := ⟨_, rfl⟩
  have he := ext_err r hr0 ht L y n hL hyg
  simp only [ffOut, C20_sosfilt_dyn_eq_cascade]
  rw [← hndef]
  have le : (extList (y.map (Fl.mk (r := r))) n).length = (extList y n).length := by simp [extList]
  have p2 := H2 r hr2 R (R'.map fun f : (r : Rounding) → Sos (Fl r) => f r) hcoef hn L hL (extList y n)
    (extList (y.map (Fl.mk (r := r))) n) le (fun i => (he i).1) (fun i => (he i).2)
  obtain ⟨f, hf⟩ : ∃ f, f = (cascade (scaleStates ((extList y n).getD 0 0) R) (extList y n)).1 :=
    ⟨_, rfl⟩
  obtain ⟨f', hf'⟩ : ∃ f', f' = (cascade (scaleStates
    ((extList (y.map (Fl.mk (r := r))) n).getD 0 0) (R'.map fun f : (r : Rounding) → Sos (Fl r) => f r))
    (extList (y.map (Fl.mk (r := r))) n)).1 := ⟨_, rfl⟩
  rw [← hf, ← hf'] at p2 ⊢
  have lf : f.length = (extList y n).length := by
    rw [hf, ← C20_sosfilt_dyn_eq_cascade]; exact (C24_length _ _).1
  have lf' : f'.length = (extList y n).length := by
    rw [hf', ← C20_sosfilt_dyn_eq_cascade, ← le]; exact (C24_length _ _).1
  have rv := reverse_near f f' (by rw [lf, lf']) _ _ p2.1 p2.2
  have p3 := H3 r hr3 R (R'.map fun f : (r : Rounding) → Sos (Fl r) => f r) hcoef hn L hL f.reverse f'.reverse
    (by simp [lf, lf']) (fun i => (rv i).1) (fun i => (rv i).2)
  obtain ⟨g, hg⟩ : ∃ g, g = (cascade (scaleStates (f.reverse.getD 0 0) R) f.reverse).1 := ⟨_, rfl⟩
  obtain ⟨g', hg'⟩ : ∃ g', g' = (cascade (scaleStates (f'.reverse.getD 0 0)
    (R'.map fun f : (r : Rounding) → Sos (Fl r) => f r)) f'.reverse).1 := ⟨_, rfl⟩
  rw [← hg, ← hg'] at p3 ⊢
  have lg : g.length = y.length + 2 * n := by
    rw [hg, ← C20_sosfilt_dyn_eq_cascade, (C24_length _ _).1, List.length_reverse, lf]; simp [extList]
  have lg' : g'.length = y.length + 2 * n := by
    rw [hg', ← C20_sosfilt_dyn_eq_cascade, (C24_length _ _).1, List.length_reverse, lf']
    simp [extList]
  -- cut the extension off
  have cut : ∀ i, |(((g'.drop n).take y.length).getD i 0).val - ((g.drop n).take y.length).getD i 0|
      ≤ D3 * (r.u * L + r.t) := by
    intro i
    by_cases hi : i < y.length
    · have e1 : ((g.drop n).take y.length).getD i 0 = g.getD (n + i) 0 := by
        simp [List.getD_eq_getElem?_getD, hi, List.getElem?_drop]
      have e2 : ((g'.drop n).take y.length).getD i 0 = g'.getD (n + i) 0 := by
        simp [List.getD_eq_getElem?_getD, hi, List.getElem?_drop]
      rw [e1, e2]
      exact p3.2 _
    · have e1 : ((g.drop n).take y.length).getD i 0 = 0 := by
        rw [List.getD_eq_getElem?_getD, List.getElem?_eq_none (by simp; omega)]; rfl
      have e2 : ((g'.drop n).take y.length).getD i 0 = 0 := by
        rw [List.getD_eq_getElem?_getD, List.getElem?_eq_none (by simp; omega)]; rfl
      rw [e1, e2]
      have := r.u_nonneg
      have := r.t_nonneg
      simp only [Fl.val_zero, sub_zero, abs_zero]
      positivity
  intro i
  rw [List.length_map]
  have hlen2 : ((g'.drop n).take y.length).length = ((g.drop n).take y.length).length := by
    simp [lg, lg']
  by_cases hi : i < ((g.drop n).take y.length).length
  · rw [getD_reverse_lt _ _ _ hi, getD_reverse_lt _ _ _ (by omega), hlen2]
    exact cut _
  · have e1 : ((g.drop n).take y.length).reverse.getD i 0 = 0 := by
      rw [List.getD_eq_getElem?_getD, List.getElem?_eq_none (by rw [List.length_reverse]; omega)]; rfl
    have e2 : ((g'.drop n).take y.length).reverse.getD i 0 = 0 := by
      rw [List.getD_eq_getElem?_getD, List.getElem?_eq_none (by rw [List.length_reverse]; omega)]; rfl
    rw [e1, e2]
    have := r.u_nonneg
    have := r.t_nonneg
    simp only [Fl.val_zero, sub_zero, abs_zero]
    positivity

/-- **C94** In floating point a constant signal comes back, multiplied by the square of the gain at zero
frequency, up to `K (u |c| + t)`: the computed initial states leave no visible transient at either
end, whatever the length. -/
theorem C94_constant (sos : List (Sos ℝ)) (hst : ∀ s ∈ sos, Stable s) (hs : ∀ s ∈ sos, Normal s) :
    ∃ K u0 : ℝ, 0 < u0 ∧ ∀ r : Rounding, r.u ≤ u0 → r.t ≤ r.u →
      ∀ (c : ℝ) (len : ℕ), 3 * sosNtaps sos < len →
        ∃ z', sosfiltfiltDyn (List.replicate len (⟨c⟩ : Fl r)) (sos.map (flSection r)) = .ok z' ∧
          z'.length = len ∧
          ∀ i < len, |(z'.getD i 0).val - c * totalGain sos ^ 2| ≤ K * (r.u * |c| + r.t) := by
  obtain ⟨K, u0, hu0, H⟩ := C94_filtfilt sos hst fun s h => (hs s h).2
  refine ⟨K, u0, hu0, fun r hu ht c len hl => ?_⟩
  obtain ⟨z, z', e1, e2, _, l2, e3⟩ := H r hu ht |c| (List.replicate len c)
    (fun v hv => by rw [List.eq_of_mem_replicate hv]) (by simpa using hl)
  rw [C31_constant len c sos hs hl] at e1
  obtain rfl : List.replicate len (c * totalGain sos ^ 2) = z := by simpa using e1
  rw [List.map_replicate] at e2
  refine ⟨z', e2, by simpa using l2, fun i hi => ?_⟩
  have := e3 i
  have e : (List.replicate len (c * totalGain sos ^ 2)).getD i 0 = c * totalGain sos ^ 2 := by
    rw [List.getD_eq_getElem?_getD, List.getElem?_replicate, if_pos hi]; rfl
  rwa [e] at this

/-- A section that meets all the hypotheses, and double precision, for which `t ≤ u`. -/
example : (∀ s ∈ [Sos.new 1 2 1 1 (-1) (1 / 2 : ℝ)], Stable s ∧ Normal s) ∧
    3 * sosNtaps [Sos.new 1 2 1 1 (-1) (1 / 2 : ℝ)] < 10 ∧ binary64.t ≤ binary64.u := by
  refine ⟨?_, by simp [sosNtaps, Sos.new], ?_⟩
  · intro s hs
    simp only [List.mem_cons, List.not_mem_nil, or_false] at hs
    subst hs
    refine ⟨?_, by norm_num [Sos.new, Normal]⟩
    intro z hz
    have hre := congrArg Complex.re hz
    have him := congrArg Complex.im hz
    simp [Sos.new, pow_two, Complex.add_re, Complex.mul_re] at hre him
    have hsq : Complex.normSq z = 1 / 2 := by
      rw [Complex.normSq_apply]
      have hf : z.im * (2 * z.re - 1) = 0 := by linarith
      rcases mul_eq_zero.mp hf with h | h
      · rw [h] at hre; nlinarith [sq_nonneg (z.re - 1 / 2)]
      · have : z.re = 1 / 2 := by linarith
        rw [this] at hre ⊢; nlinarith
    have hn : ‖z‖ ^ 2 = 1 / 2 := by rw [Complex.sq_norm, hsq]
    nlinarith [norm_nonneg z]
  · have e : binary64.u = 2 ^ (-53 : ℤ) ∧ binary64.t = 2 ^ (-1075 : ℤ) :=
      ⟨by norm_num [binary64, Binary.rounding], by norm_num [binary64, Binary.rounding]⟩
    rw [e.1, e.2]
    exact zpow_le_zpow_right₀ (by norm_num) (by norm_num)

end SciRs.Props

import Verif.Model.Sosfiltfilt
import Verif.Props.Ext
import Verif.Props.InitialState

/-!
# C30, C31: `sosfiltfilt_dyn`

C30 and the shape of the result hold in any arithmetic; C31 is about exact arithmetic over a field.
-/

namespace SciRs.Props

open SciRs SciRs.Spec

section LawFree

variable {F : Type} [Zero F] [One F] [Add F] [Sub F] [Neg F] [Mul F] [Div F] [DecidableEq F]

/-- The odd extension of a list by `n` samples on each side. -/
def extList (y : List F) (n : ℕ) : List F :=
  (List.range (y.length + 2 * n)).map (oddExt y.length n (fun k => y.getD k 0))

theorem pad_ofVec (y : List F) (ntaps : ℕ) (hn : 0 < ntaps) (h : 3 * ntaps < y.length) :
    ∃ m, pad Pad.odd none (DMat.ofVec y) 0 ntaps = .ok (3 * ntaps, m) ∧
      m.nrows = y.length + 6 * ntaps ∧ m.ncols = 1 ∧
      m.iter = extList y (3 * ntaps) ∧ m.entry 0 0 = (extList y (3 * ntaps)).getD 0 0 := by
  have hnp : ¬ Panics (pad Pad.odd none (DMat.ofVec y) 0 ntaps) := by
    rw [(C29_pad _ _ _ _ _).1]
    simp [dim, padEdge, DMat.ofVec]; omega
  have hub := (C29_pad Pad.odd none (DMat.ofVec y) 0 ntaps).2.1
  match hp : pad Pad.odd none (DMat.ofVec y) 0 ntaps with
  | .error e =>
    rw [hp] at hnp hub
    rw [panics_error] at hnp
    exact absurd (by rw [not_not.mp hnp]) hub
  | .ok (e, m) =>
    obtain ⟨he, hm, _⟩ := (C29_pad Pad.odd none (DMat.ofVec y) 0 ntaps).2.2 e m hp
    have he' : e = 3 * ntaps := by simpa [padEdge] using he
    rw [he'] at hm ⊢
    obtain ⟨h1, h2, h3⟩ := hm.1 rfl
    have h1' : m.nrows = y.length + 2 * (3 * ntaps) := h1
    have h2' : m.ncols = 1 := h2
    refine ⟨m, rfl, by omega, h2', ?_, ?_⟩
    · simp only [DMat.iter, h2', List.range_one, List.flatMap_cons, List.flatMap_nil,
        List.append_nil, extList, h1']
      refine List.map_congr_left fun i hi => ?_
      exact h3 i (by rw [h1']; exact List.mem_range.mp hi) 0 (by omega)
    · rw [h3 0 (by omega) 0 (by omega)]
      simp only [extList, List.getD_eq_getElem?_getD, List.getElem?_map]
      rw [List.getElem?_range (by omega)]
      rfl

theorem sosNtaps_pos (sos : List (Sos F)) : 0 < sosNtaps sos := by
  have : (sos.filter fun s => s.b2 = 0).length ≤ sos.length := List.length_filter_le _ _
  simp only [sosNtaps]
  omega

theorem lfilterZi_section (s : Sos F) (h : ¬ (s.a0 = 0 ∧ s.a1 = 0 ∧ s.a2 = 0)) :
    ∃ z0 z1, lfilterZiDyn [s.b0, s.b1, s.b2] [s.a0, s.a1, s.a2] = .ok [z0, z1] := by
  cases hf : ([s.a0, s.a1, s.a2] : List F).findIdx? (fun ai => ai ≠ 0) with
  | none =>
    exfalso
    apply h
    have := List.findIdx?_eq_none_iff.mp hf
    simpa using this
  | some i =>
    obtain ⟨zi, h1, h2, _⟩ := lfilterZiDyn_free [s.b0, s.b1, s.b2] [s.a0, s.a1, s.a2] rfl i hf
      (by simp) _ _ rfl rfl
    have hl : zi.length = 2 := by simpa using h2
    match zi, hl with
    | [x, y], _ => exact ⟨x, y, h1⟩

theorem lfilterZi_section_panics (s : Sos F) (h : s.a0 = 0 ∧ s.a1 = 0 ∧ s.a2 = 0) :
    ∃ e, e ≠ Err.ub ∧ lfilterZiDyn [s.b0, s.b1, s.b2] [s.a0, s.a1, s.a2] = .error e := by
  have := (C27_panics_iff [s.b0, s.b1, s.b2] [s.a0, s.a1, s.a2]).1.mpr
    (Or.inr (Or.inl (by simp [h])))
  exact this

/-- A section whose denominator coefficients all vanish. -/
def NoDenominator (s : Sos F) : Prop := s.a0 = 0 ∧ s.a1 = 0 ∧ s.a2 = 0

theorem sosfiltZiLoop_total (sos : List (Sos F)) (scale : F) :
    (Panics (sosfiltZiLoop scale sos) ↔ ∃ s ∈ sos, NoDenominator s) ∧
    (¬ (∃ s ∈ sos, NoDenominator s) →
      ∃ r, sosfiltZiLoop scale sos = .ok r) := by
  induction sos generalizing scale with
  | nil => simp [sosfiltZiLoop]
  | cons s ss ih =>
    by_cases h : NoDenominator s
    · obtain ⟨e, he, h1⟩ := lfilterZi_section_panics s h
      simp only [sosfiltZiLoop, h1, error_bind, panics_error]
      refine ⟨by simp [he, h], fun hc => absurd ⟨s, by simp, h⟩ hc⟩
    · obtain ⟨z0, z1, h1⟩ := lfilterZi_section s h
      simp only [sosfiltZiLoop, h1, ok_bind, vecGet, List.getElem?_cons_zero,
        List.getElem?_cons_succ]
      generalize scale * (sumIter [s.b0, s.b1, s.b2] / sumIter [s.a0, s.a1, s.a2]) = sc
      obtain ⟨i1, i2⟩ := ih sc
      have hex : (∃ t ∈ s :: ss, NoDenominator t) ↔ ∃ t ∈ ss, NoDenominator t := by
        simp [h]
      rw [hex]
      by_cases hc : ∃ t ∈ ss, NoDenominator t
      · obtain ⟨e, he, h2⟩ := i1.mpr hc
        simp only [h2, error_bind, panics_error]
        exact ⟨by simp [he, hc], fun hn => absurd hc hn⟩
      · obtain ⟨r, h2⟩ := i2 hc
        simp only [h2, ok_bind]
        refine ⟨by simp [pure, Except.pure, hc], fun _ => ⟨_, rfl⟩⟩

/-- What `sosfiltfilt_dyn` computes once its preconditions hold; `r` are the sections with the
states set by `sosfilt_zi_dyn`. -/
def ffOut (y : List F) (ntaps : ℕ) (r : List (Sos F)) : List F :=
  let ext := extList y (3 * ntaps)
  let f := (sosfiltDyn ext (scaleStates (ext.getD 0 0) r)).1
  let g := (sosfiltDyn f.reverse (scaleStates (f.reverse.getD 0 0) r)).1
  ((g.drop (3 * ntaps)).take y.length).reverse

theorem getLast?_eq_reverse {α : Type} (d : α) (f : List α) (h : f ≠ []) :
    f.getLast? = some (f.reverse.getD 0 d) := by
  rw [List.getD_eq_getElem?_getD, ← List.head?_eq_getElem?, List.head?_reverse]
  cases h2 : f.getLast? with
  | none => simp at h2; exact absurd h2 h
  | some v => rfl

theorem sosfiltfilt_ok (y : List F) (sos r : List (Sos F)) (h : 3 * sosNtaps sos < y.length)
    (hr : sosfiltZiDyn sos = .ok r) :
    sosfiltfiltDyn y sos = .ok (ffOut y (sosNtaps sos) r) := by
  obtain ⟨m, h1, h2, h3, h4, h5⟩ := pad_ofVec y (sosNtaps sos) (sosNtaps_pos sos) h
  unfold sosfiltfiltDyn
  simp only [h1, ok_bind, hr, index_ok m (show 0 < m.nrows by omega) (show 0 < m.ncols by omega),
    h4, h5]
  have hne : (sosfiltDyn (extList y (3 * sosNtaps sos))
      (mulStates ((extList y (3 * sosNtaps sos)).getD 0 0) r)).1 ≠ [] := by
    rw [← List.length_pos_iff, (C24_length _ _).1]
    simp only [extList, List.length_map, List.length_range]
    omega
  rw [getLast?_eq_reverse 0 _ hne]
  rfl

/-- **C30** The call returns exactly when the signal is longer than three times the number of taps
(`2 n + 1` less the smaller number of vanishing trailing coefficients) and every section has a
non-zero denominator coefficient; otherwise it panics, and it never reaches undefined behaviour.  With
no section at all the call is covered too: one tap. -/
theorem C30_panics_iff (y : List F) (sos : List (Sos F)) :
    (Panics (sosfiltfiltDyn y sos) ↔
      y.length ≤ 3 * sosNtaps sos ∨ ∃ s ∈ sos, NoDenominator s) ∧
    sosfiltfiltDyn y sos ≠ .error Err.ub := by
  by_cases h : 3 * sosNtaps sos < y.length
  · by_cases hd : ∃ s ∈ sos, NoDenominator s
    · obtain ⟨m, h1, _⟩ := pad_ofVec y (sosNtaps sos) (sosNtaps_pos sos) h
      obtain ⟨e, he, h2⟩ := (sosfiltZiLoop_total sos 1).1.mpr hd
      have : sosfiltfiltDyn y sos = .error e := by
        unfold sosfiltfiltDyn
        simp only [h1, ok_bind, sosfiltZiDyn, h2, error_bind]
      rw [this]
      exact ⟨by simp [he, hd], by simpa using he⟩
    · obtain ⟨r, hr⟩ := (sosfiltZiLoop_total sos 1).2 hd
      rw [sosfiltfilt_ok y sos r h hr]
      refine ⟨?_, by simp⟩
      simp only [panics_ok, false_iff, not_or]
      exact ⟨by omega, hd⟩
  · have hp : Panics (pad Pad.odd none (DMat.ofVec y) 0 (sosNtaps sos)) := by
      rw [(C29_pad _ _ _ _ _).1]
      simp [dim, padEdge, DMat.ofVec]; omega
    obtain ⟨e, he, h2⟩ := hp
    have : sosfiltfiltDyn y sos = .error e := by
      unfold sosfiltfiltDyn
      simp only [h2, error_bind]
    rw [this]
    refine ⟨?_, by simpa using he⟩
    simp only [panics_error, ne_eq, he, not_false_eq_true, true_iff]
    exact Or.inl (by omega)

/-- The number of taps for one section with `b2 ≠ 0`: three, so ten samples are enough. -/
example : ¬ Panics (sosfiltfiltDyn (List.replicate 10 (1 : ℚ)) [Sos.new 1 2 1 1 (-1) (1 / 2)]) := by
  rw [(C30_panics_iff _ _).1]
  simp [sosNtaps, NoDenominator, Sos.new]

/-- **C30** The output has exactly as many samples as the input. -/
theorem C30_length (y : List F) (sos : List (Sos F)) (z : List F)
    (h : sosfiltfiltDyn y sos = .ok z) : z.length = y.length := by
  have hnp : ¬ Panics (sosfiltfiltDyn y sos) := by rw [h]; simp
  rw [(C30_panics_iff y sos).1, not_or] at hnp
  obtain ⟨r, hr⟩ := (sosfiltZiLoop_total sos 1).2 hnp.2
  rw [sosfiltfilt_ok y sos r (by omega) hr] at h
  obtain rfl : ffOut y (sosNtaps sos) r = z := by simpa using h
  simp only [ffOut, List.length_reverse, List.length_take, List.length_drop, (C24_length _ _).1,
    extList, List.length_map, List.length_range]
  omega

theorem sosfiltZiLoop_states (sos sos' : List (Sos F)) (h : sos.map coeffs = sos'.map coeffs)
    (scale : F) : sosfiltZiLoop scale sos = sosfiltZiLoop scale sos' := by
  induction sos generalizing sos' scale with
  | nil =>
    cases sos' with
    | nil => rfl
    | cons _ _ => simp at h
  | cons s ss ih =>
    cases sos' with
    | nil => simp at h
    | cons t ts =>
      simp only [List.map_cons, List.cons.injEq] at h
      obtain ⟨hst, hrest⟩ := h
      cases s; cases t
      simp only [coeffs, Prod.mk.injEq] at hst
      obtain ⟨h1, h2, h3, h4, h5, h6⟩ := hst
      subst h1 h2 h3 h4 h5 h6
      simp only [sosfiltZiLoop, ih ts hrest]

theorem sosNtaps_states (sos sos' : List (Sos F)) (h : sos.map coeffs = sos'.map coeffs) :
    sosNtaps sos = sosNtaps sos' := by
  have h1 : ∀ l : List (Sos F), (l.filter fun s => s.b2 = 0).length =
      ((l.map coeffs).filter fun c => c.2.2.1 = 0).length := by
    intro l; rw [List.filter_map, List.length_map]; rfl
  have h2 : ∀ l : List (Sos F), (l.filter fun s => s.a2 = 0).length =
      ((l.map coeffs).filter fun c => c.2.2.2.2.2 = 0).length := by
    intro l; rw [List.filter_map, List.length_map]; rfl
  have h3 : sos.length = sos'.length := by simpa using congrArg List.length h
  simp only [sosNtaps, h1, h2, h, h3]

/-- **C30** The delay values stored in the passed sections have no influence. -/
theorem C30_states_irrelevant (y : List F) (sos sos' : List (Sos F))
    (h : sos.map coeffs = sos'.map coeffs) : sosfiltfiltDyn y sos = sosfiltfiltDyn y sos' := by
  unfold sosfiltfiltDyn
  simp only [sosNtaps_states sos sos' h, sosfiltZiDyn, sosfiltZiLoop_states sos sos' h]

example : [(⟨1, 2, 1, 1, -1, 3, 4, 5⟩ : Sos ℚ)].map coeffs =
    [(⟨1, 2, 1, 1, -1, 3, 0, 0⟩ : Sos ℚ)].map coeffs := rfl

end LawFree

variable {F : Type} [Field F] [DecidableEq F]

theorem extList_replicate (len n : ℕ) (c : F) (h : n < len) :
    extList (List.replicate len c) n = List.replicate (len + 2 * n) c := by
  simp only [extList, List.length_replicate]
  refine List.ext_getElem (by simp) fun i h1 h2 => ?_
  have hi : i < len + 2 * n := by simpa using h1
  have hg : ∀ k < len, (List.replicate len c).getD k 0 = c := by
    intro k hk
    rw [List.getD_eq_getElem?_getD, List.getElem?_replicate]
    simp [hk]
  simp only [List.getElem_map, List.getElem_range, List.getElem_replicate]
  unfold oddExt
  beta_reduce
  split
  · rw [hg _ (by omega), hg _ (by omega)]; ring
  · split
    · rw [hg _ (by omega)]
    · rw [hg _ (by omega), hg _ (by omega)]; ring

/-- **C31** A constant signal is returned multiplied by the square of the DC gain of the cascade:
filtering forwards and backwards leaves no transient at either end. -/
theorem C31_constant (len : ℕ) (c : F) (sos : List (Sos F)) (hs : ∀ s ∈ sos, Normal s)
    (hl : 3 * sosNtaps sos < len) :
    sosfiltfiltDyn (List.replicate len c) sos =
      .ok (List.replicate len (c * totalGain sos ^ 2)) := by
  obtain ⟨r, h1, _, h3⟩ := C28_no_transient sos hs
  rw [sosfiltfilt_ok _ sos r (by simpa using hl) h1]
  congr 1
  have hg : ∀ (n : ℕ) (v : F), 0 < n → (List.replicate n v).getD 0 0 = v := by
    intro n v hn
    rw [List.getD_eq_getElem?_getD, List.getElem?_replicate]
    simp [hn]
  simp only [ffOut, extList_replicate _ _ _ hl, hg _ _ (show 0 < len + 2 * (3 * sosNtaps sos) by omega),
    h3, List.reverse_replicate, List.drop_replicate, List.take_replicate, List.length_replicate]
  rw [show min len (len + 2 * (3 * sosNtaps sos) - 3 * sosNtaps sos) = len by omega]
  congr 1
  ring

example : (∀ s ∈ [Sos.new 1 2 1 1 (-1) (1 / 2 : ℚ)], Normal s) ∧
    3 * sosNtaps [Sos.new 1 2 1 1 (-1) (1 / 2 : ℚ)] < 10 := by
  refine ⟨?_, by simp [sosNtaps, Sos.new]⟩
  intro s hs
  simp [Sos.new] at hs
  rcases hs with rfl
  constructor <;> norm_num

omit [DecidableEq F] in
theorem lin_getD (α β : F) (x y : List F) (h : x.length = y.length) (k : ℕ) :
    (lin α β x y).getD k 0 = α * x.getD k 0 + β * y.getD k 0 := by
  simp only [lin, List.getD_eq_getElem?_getD, List.getElem?_zipWith]
  by_cases hk : k < x.length
  · rw [List.getElem?_eq_getElem hk, List.getElem?_eq_getElem (h ▸ hk)]; rfl
  · rw [List.getElem?_eq_none (by omega), List.getElem?_eq_none (by omega)]; simp

omit [DecidableEq F] in
theorem lin_length (α β : F) (x y : List F) (h : x.length = y.length) :
    (lin α β x y).length = x.length := by simp [lin, h]

omit [DecidableEq F] in
theorem lin_reverse (α β : F) (x y : List F) (h : x.length = y.length) :
    (lin α β x y).reverse = lin α β x.reverse y.reverse := by
  simp only [lin]
  rw [List.reverse_zipWith h]

omit [DecidableEq F] in
theorem lin_drop_take (α β : F) (x y : List F) (m n : ℕ) :
    ((lin α β x y).drop m).take n = lin α β ((x.drop m).take n) ((y.drop m).take n) := by
  simp only [lin, List.drop_zipWith, List.take_zipWith]

theorem extList_lin (α β : F) (x y : List F) (h : x.length = y.length) (n : ℕ) :
    extList (lin α β x y) n = lin α β (extList x n) (extList y n) := by
  refine List.ext_getElem (by simp [extList, lin, h]) fun i h1 h2 => ?_
  simp only [lin, extList, List.getElem_map, List.getElem_range, List.getElem_zipWith]
  have hg := lin_getD α β x y h
  simp only [lin] at hg
  rw [show (List.zipWith (fun u v => α * u + β * v) x y).length = x.length by simp [h], ← h]
  unfold oddExt
  simp only [hg]
  split
  · ring
  · split
    · rfl
    · ring

omit [DecidableEq F] in
theorem scaleStates_lin (α β u v : F) (r : List (Sos F)) :
    scaleStates (α * u + β * v) r =
      List.zipWith (linSos α β) (scaleStates u r) (scaleStates v r) := by
  simp only [scaleStates, List.zipWith_map, List.zipWith_self]
  refine List.map_congr_left fun s _ => ?_
  simp only [linSos]
  congr 1 <;> ring

omit [DecidableEq F] in
theorem scaleStates_coeffs (u v : F) (r : List (Sos F)) :
    (scaleStates u r).map coeffs = (scaleStates v r).map coeffs := by
  simp [scaleStates, coeffs]

/-- **C31** Linearity in the signal: if the two signals have the same length, `sosfiltfilt_dyn` of a
linear combination is the linear combination of the results. -/
theorem C31_linear (α β : F) (x y zx zy : List F) (sos : List (Sos F)) (h : x.length = y.length)
    (hx : sosfiltfiltDyn x sos = .ok zx) (hy : sosfiltfiltDyn y sos = .ok zy) :
    sosfiltfiltDyn (lin α β x y) sos = .ok (lin α β zx zy) := by
  have hnp : ¬ Panics (sosfiltfiltDyn x sos) := by rw [hx]; simp
  rw [(C30_panics_iff x sos).1, not_or] at hnp
  obtain ⟨r, hr⟩ := (sosfiltZiLoop_total sos 1).2 hnp.2
  have hlx : 3 * sosNtaps sos < x.length := by omega
  rw [sosfiltfilt_ok x sos r hlx hr] at hx
  rw [sosfiltfilt_ok y sos r (by omega) hr] at hy
  rw [sosfiltfilt_ok _ sos r (by rw [lin_length α β x y h]; omega) hr]
  obtain rfl : ffOut x (sosNtaps sos) r = zx := by simpa using hx
  obtain rfl : ffOut y (sosNtaps sos) r = zy := by simpa using hy
  congr 1
  generalize 3 * sosNtaps sos = n at *
  simp only [ffOut]
  generalize 3 * sosNtaps sos = n at *
  have hel : (extList x n).length = (extList y n).length := by simp [extList, h]
  rw [extList_lin α β x y h, lin_getD α β _ _ hel, scaleStates_lin,
    C24_linear α β _ _ (scaleStates_coeffs _ _ _) _ _ hel]
  simp only
  have hf : ∀ u v : F, (sosfiltDyn (extList x n) (scaleStates u r)).1.length =
      (sosfiltDyn (extList y n) (scaleStates v r)).1.length := by
    intro u v; rw [(C24_length _ _).1, (C24_length _ _).1, hel]
  rw [lin_reverse _ _ _ _ (hf _ _), lin_getD α β _ _ (by simpa using hf _ _), scaleStates_lin,
    C24_linear α β _ _ (scaleStates_coeffs _ _ _) _ _ (by simpa using hf _ _)]
  simp only
  rw [lin_drop_take, lin_length α β x y h, lin_reverse]
  · rw [← h]
  · simp [(C24_length _ _).1, hel, h]

/-- `states` (with the coefficients of `sos`) are the states that a constant input `c` leaves
unchanged. -/
def SteadyFor (c : F) (sos states : List (Sos F)) : Prop :=
  states.map coeffs = sos.map coeffs ∧
    ∀ n, (cascade states (List.replicate n c)).2 = states

/-- **C31** What the call computes, in terms of the cascade specification: extend the signal by
`e = 3·ntaps` samples on both sides, run the cascade forwards from the states that are steady for the
first extended sample, run it over the reversed result from the states that are steady for that
result's first sample, reverse, and cut off the `e` extension samples at both ends. -/
theorem C31_forward_backward (y : List F) (sos : List (Sos F)) (hs : ∀ s ∈ sos, Normal s)
    (hl : 3 * sosNtaps sos < y.length) :
    ∃ sx sy : List (Sos F),
      let e := 3 * sosNtaps sos
      let ext := (List.range (y.length + 2 * e)).map (oddExt y.length e (fun k => y.getD k 0))
      let f := (cascade sx ext).1
      let g := (cascade sy f.reverse).1.reverse
      SteadyFor (ext.getD 0 0) sos sx ∧ SteadyFor (f.getLastD 0) sos sy ∧
      sosfiltfiltDyn y sos = .ok ((g.drop e).take y.length) := by
  obtain ⟨r, h1, h2, h3⟩ := C28_no_transient sos hs
  have hst : ∀ c, SteadyFor c sos (scaleStates c r) := by
    intro c
    refine ⟨?_, fun n => ?_⟩
    · rw [← h2]; simp [scaleStates, coeffs]
    · rw [← C20_sosfilt_dyn_eq_cascade, h3]
  refine ⟨scaleStates ((extList y (3 * sosNtaps sos)).getD 0 0) r, scaleStates
    (((cascade (scaleStates ((extList y (3 * sosNtaps sos)).getD 0 0) r)
      (extList y (3 * sosNtaps sos))).1).getLastD 0) r, hst _, hst _, ?_⟩
  rw [sosfiltfilt_ok y sos r hl h1]
  congr 1
  simp only [ffOut, C20_sosfilt_dyn_eq_cascade]
  generalize hf : (cascade (scaleStates ((extList y (3 * sosNtaps sos)).getD 0 0) r)
      (extList y (3 * sosNtaps sos))).1 = f
  have hfl : f.length = y.length + 2 * (3 * sosNtaps sos) := by
    rw [← hf, ← C20_sosfilt_dyn_eq_cascade, (C24_length _ _).1]
    simp [extList]
  have hlast : f.reverse.getD 0 0 = f.getLastD 0 := by
    have hne : f ≠ [] := by rw [← List.length_pos_iff]; omega
    have := getLast?_eq_reverse 0 f hne
    rw [List.getLastD_eq_getLast?, this]; rfl
  have hf' : (cascade (scaleStates (((List.range (y.length + 2 * (3 * sosNtaps sos))).map
      (oddExt y.length (3 * sosNtaps sos) (fun k => y.getD k 0))).getD 0 0) r)
      ((List.range (y.length + 2 * (3 * sosNtaps sos))).map
      (oddExt y.length (3 * sosNtaps sos) (fun k => y.getD k 0)))).1 = f := hf
  simp only [extList, hf', hlast]
  generalize hg : (cascade (scaleStates (f.getLastD 0) r) f.reverse).1 = g
  have hgl : g.length = y.length + 2 * (3 * sosNtaps sos) := by
    rw [← hg, ← C20_sosfilt_dyn_eq_cascade, (C24_length _ _).1, List.length_reverse, hfl]
  rw [List.reverse_take, List.length_drop, hgl, List.reverse_drop, List.drop_take, hgl]
  congr 1
  · omega
  · congr 1; omega

end SciRs.Props

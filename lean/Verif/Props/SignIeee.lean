import Verif.Props.Scaling
import Verif.Props.IeeeFiltfilt

/-!
# C114 with infinities and NaN: turning the signal upside down

On IEEE numbers, overflow, infinities and NaN included, changing the sign of every sample changes the sign of what is
odd in the signal and leaves alone what is even.  Only the sign of a zero can differ (`x - x` is `+0` whatever the
sign of `x`), which `Same` and `Opposite` ignore.
-/

namespace SciRs.Props

open SciRs SciRs.Spec SciRs.Spec.Ieee SciRs.Stats

variable {f : Format}

section arithmetic

theorem opp_iff {a b : Ieee f} : Opposite a b ↔ Same (negate a) b := Iff.rfl

theorem opp_zero : Opposite (0 : Ieee f) 0 := by
  show Same (negate (fin 0 false)) (fin 0 false)
  simp [negate, Same]

theorem same_refl (a : Ieee f) : Same a a := by cases a <;> simp [Same]

theorem opp_neg (a : Ieee f) : Opposite a (-a) := same_refl _

/-- Rounding results of opposite value. -/
theorem pack_opp (hr : f.r.Nearest) (ht : 0 ≤ f.top) (x : ℝ) (s t : Bool) : Opposite (pack f x s) (pack f (-x) t) := by
  unfold pack
  rw [hr.odd, abs_neg, opp_iff]
  by_cases h : f.top < |f.r.rnd x|
  · rw [if_pos h, if_pos h]
    have hx : x ≠ 0 := by
      rintro rfl
      have h0 : f.r.rnd 0 = 0 := by have := hr.odd 0; rw [neg_zero] at this; linarith
      rw [h0, abs_zero] at h
      linarith
    rcases lt_or_gt_of_ne hx with h1 | h1
    · simp [negate, Same, h1, h1.le]
    · simp [negate, Same, h1, h1.le]
  · rw [if_neg h, if_neg h]
    simp [negate, Same]

/-- The sign of an exact zero does not matter. -/
theorem pack_same (x : ℝ) (s t : Bool) : Same (pack f x s) (pack f x t) := by
  unfold pack
  split <;> simp [Same]

theorem opp_add (hr : f.r.Nearest) (ht : 0 ≤ f.top) {a a' b b' : Ieee f} (ha : Opposite a a') (hb : Opposite b b') :
    Opposite (a + b) (a' + b') := by
  show Opposite (add a b) (add a' b')
  rw [opp_iff] at ha hb
  match a, a', ha, b, b', hb with
  | nan, nan, _, _, _, _ => trivial
  | inf s, inf t, _, nan, nan, _ => trivial
  | fin _ _, fin _ _, _, nan, nan, _ => trivial
  | inf s, inf t, h, inf s', inf t', h' =>
    simp only [negate, Same] at h h'
    subst h h'
    simp only [add]
    cases s <;> cases s' <;> simp [opp_iff, Same, negate]
  | inf s, inf t, h, fin _ _, fin _ _, _ => exact h
  | fin _ _, fin _ _, _, inf s, inf t, h => exact h
  | fin v s, fin v' s', h, fin w t, fin w' t', h' =>
    simp only [negate, Same] at h h'
    subst h h'
    have := pack_opp hr ht (v + w) (s && t) (s' && t')
    simp only [add]
    rwa [neg_add] at this

theorem opp_negate {a a' : Ieee f} (ha : Opposite a a') : Opposite (-a) (-a') := by
  rw [opp_iff] at ha
  show Same (negate (negate a)) (negate a')
  match a, a', ha with
  | nan, nan, _ => trivial
  | inf s, inf t, h => simp only [negate, Same] at h ⊢; rw [h]
  | fin v s, fin w t, h => simp only [negate, Same] at h ⊢; rw [h]

theorem opp_sub (hr : f.r.Nearest) (ht : 0 ≤ f.top) {a a' b b' : Ieee f} (ha : Opposite a a') (hb : Opposite b b') :
    Opposite (a - b) (a' - b') := opp_add hr ht ha (opp_negate hb)

theorem sign_ne_zero {v : ℝ} {s : Bool} (hv : v ≠ 0) : (fin v s : Ieee f).sign = decide (v < 0) := by
  simp [sign, hv]

theorem decide_neg {v : ℝ} (hv : v ≠ 0) : decide (-v < 0) = !decide (v < 0) := by
  rcases lt_or_gt_of_ne hv with h | h <;> simp [h, h.le]

theorem opp_mul (hr : f.r.Nearest) (ht : 0 ≤ f.top) (k : Ieee f) {a a' : Ieee f} (ha : Opposite a a') :
    Opposite (k * a) (k * a') := by
  show Opposite (mul k a) (mul k a')
  rw [opp_iff] at ha
  match k, a, a', ha with
  | nan, _, _, _ => trivial
  | inf _, nan, nan, _ => trivial
  | fin _ _, nan, nan, _ => trivial
  | inf u, inf s, inf t, h =>
    simp only [negate, Same] at h
    subst h
    simp only [mul, opp_iff, negate, Same]
    cases u <;> cases s <;> rfl
  | inf u, fin v s, fin w t, h =>
    simp only [negate, Same] at h
    subst h
    simp only [mul]
    by_cases hv : v = 0
    · simp [hv, opp_iff, Same, negate]
    · rw [if_neg hv, if_neg (neg_ne_zero.mpr hv), sign_ne_zero hv, sign_ne_zero (neg_ne_zero.mpr hv), decide_neg hv]
      simp only [opp_iff, negate, Same]
      cases u <;> cases decide (v < 0) <;> rfl
  | fin u q, inf s, inf t, h =>
    simp only [negate, Same] at h
    subst h
    simp only [mul]
    by_cases hu : u = 0
    · simp [hu, opp_iff, Same, negate]
    · rw [if_neg hu, if_neg hu]
      simp only [opp_iff, negate, Same]
      cases (fin u q : Ieee f).sign <;> cases s <;> rfl
  | fin u q, fin v s, fin w t, h =>
    simp only [negate, Same] at h
    subst h
    simp only [mul]
    have := pack_opp hr ht (u * v) ((fin u q : Ieee f).sign != (fin v s : Ieee f).sign)
      ((fin u q : Ieee f).sign != (fin (-v) t : Ieee f).sign)
    rwa [← mul_neg] at this

theorem mul_comm_ieee (a b : Ieee f) : a * b = b * a := by
  show mul a b = mul b a
  cases a <;> cases b <;> simp only [mul] <;> try rfl
  · rw [bne_comm]
  · rw [bne_comm]
  · rw [bne_comm]
  · rw [mul_comm, bne_comm]

theorem opp_mul' (hr : f.r.Nearest) (ht : 0 ≤ f.top) (k : Ieee f) {a a' : Ieee f} (ha : Opposite a a') :
    Opposite (a * k) (a' * k) := by
  rw [mul_comm_ieee a, mul_comm_ieee a']
  exact opp_mul hr ht k ha

/-- Squares do not see the sign, not even the sign of a zero. -/
theorem opp_sq {a a' : Ieee f} (ha : Opposite a a') : a' * a' = a * a := by
  show mul a' a' = mul a a
  rw [opp_iff] at ha
  match a, a', ha with
  | nan, nan, _ => rfl
  | inf s, inf t, h => simp only [mul]; cases s <;> cases t <;> rfl
  | fin v s, fin w t, h =>
    simp only [negate, Same] at h
    subst h
    simp only [mul, bne_self_eq_false, neg_mul_neg]

theorem opp_mul_opp {a a' b b' : Ieee f} (ha : Opposite a a') (hb : Opposite b b') : Same (a * b) (a' * b') := by
  show Same (mul a b) (mul a' b')
  rw [opp_iff] at ha hb
  match a, a', ha, b, b', hb with
  | nan, nan, _, _, _, _ => trivial
  | inf s, inf t, _, nan, nan, _ => trivial
  | fin _ _, fin _ _, _, nan, nan, _ => trivial
  | inf s, inf t, h, inf s', inf t', h' =>
    simp only [negate, Same] at h h'
    subst h h'
    simp only [mul, Same]
    cases s <;> cases s' <;> rfl
  | inf s, inf t, h, fin v q, fin v' q', h' =>
    simp only [negate, Same] at h h'
    subst h h'
    simp only [mul]
    by_cases hv : v = 0
    · simp [hv, Same]
    · rw [if_neg hv, if_neg (neg_ne_zero.mpr hv), sign_ne_zero hv, sign_ne_zero (neg_ne_zero.mpr hv), decide_neg hv]
      simp only [Same]
      cases s <;> cases decide (v < 0) <;> rfl
  | fin v q, fin v' q', h', inf s, inf t, h =>
    simp only [negate, Same] at h h'
    subst h h'
    simp only [mul]
    by_cases hv : v = 0
    · simp [hv, Same]
    · rw [if_neg hv, if_neg (neg_ne_zero.mpr hv), sign_ne_zero hv, sign_ne_zero (neg_ne_zero.mpr hv), decide_neg hv]
      simp only [Same]
      cases s <;> cases decide (v < 0) <;> rfl
  | fin v s, fin v' s', h, fin w t, fin w' t', h' =>
    simp only [negate, Same] at h h'
    subst h h'
    simp only [mul]
    rw [neg_mul_neg]
    exact pack_same _ _ _

theorem same_add {a a' b b' : Ieee f} (ha : Same a a') (hb : Same b b') : Same (a + b) (a' + b') := by
  show Same (add a b) (add a' b')
  match a, a', ha, b, b', hb with
  | nan, nan, _, _, _, _ => trivial
  | inf s, inf t, _, nan, nan, _ => trivial
  | fin _ _, fin _ _, _, nan, nan, _ => trivial
  | inf s, inf t, h, inf s', inf t', h' =>
    simp only [Same] at h h'
    subst h h'
    exact same_refl _
  | inf s, inf t, h, fin _ _, fin _ _, _ => exact h
  | fin _ _, fin _ _, _, inf s, inf t, h => exact h
  | fin v s, fin v' s', h, fin w t, fin w' t', h' =>
    simp only [Same] at h h'
    subst h h'
    simp only [add]
    exact pack_same _ _ _

theorem opp_div (hr : f.r.Nearest) (ht : 0 ≤ f.top) (k : Ieee f) {a a' : Ieee f} (ha : Opposite a a') :
    Opposite (a / k) (a' / k) := by
  show Opposite (div a k) (div a' k)
  rw [opp_iff] at ha
  match k, a, a', ha with
  | _, nan, nan, _ => trivial
  | nan, inf _, inf _, _ => trivial
  | nan, fin _ _, fin _ _, _ => trivial
  | inf u, inf s, inf t, h => trivial
  | inf u, fin v s, fin w t, h => simp [div, opp_iff, Same, negate]
  | fin u q, inf s, inf t, h =>
    simp only [negate, Same] at h
    subst h
    simp only [div, opp_iff, negate, Same]
    cases (fin u q : Ieee f).sign <;> cases s <;> rfl
  | fin u q, fin v s, fin w t, h =>
    simp only [negate, Same] at h
    subst h
    simp only [div]
    by_cases hu : u = 0
    · rw [if_pos hu, if_pos hu]
      by_cases hv : v = 0
      · simp [hv, opp_iff, Same, negate]
      · rw [if_neg hv, if_neg (neg_ne_zero.mpr hv), sign_ne_zero hv, sign_ne_zero (neg_ne_zero.mpr hv), decide_neg hv]
        simp only [opp_iff, negate, Same]
        cases q <;> cases decide (v < 0) <;> rfl
    · rw [if_neg hu, if_neg hu, neg_div]
      exact pack_opp hr ht _ _ _

theorem same_div (k : Ieee f) {a a' : Ieee f} (ha : Same a a') : Same (a / k) (a' / k) := by
  show Same (div a k) (div a' k)
  match k, a, a', ha with
  | _, nan, nan, _ => trivial
  | nan, inf _, inf _, _ => trivial
  | nan, fin _ _, fin _ _, _ => trivial
  | inf u, inf s, inf t, h => trivial
  | inf u, fin v s, fin w t, h => simp [div, Same]
  | fin u q, inf s, inf t, h =>
    simp only [Same] at h
    subst h
    exact same_refl _
  | fin u q, fin v s, fin w t, h =>
    simp only [Same] at h
    subst h
    simp only [div]
    by_cases hu : u = 0
    · rw [if_pos hu, if_pos hu]
      by_cases hv : v = 0
      · simp [hv, Same]
      · rw [if_neg hv, if_neg hv, sign_ne_zero hv, sign_ne_zero hv]
        exact same_refl _
    · rw [if_neg hu, if_neg hu]
      exact pack_same _ _ _

theorem respects_opposite (hr : f.r.Nearest) (ht : 0 ≤ f.top) : Respects (Opposite (f := f)) :=
  ⟨opp_add hr ht, opp_sub hr ht, opp_mul hr ht⟩

theorem forall₂_opp (y : List (Ieee f)) : List.Forall₂ Opposite y (y.map fun v => -v) := by
  rw [List.forall₂_map_right_iff, List.forall₂_same]
  exact fun _ _ => same_refl _

theorem foldl_rel {A : Type} {R : A → A → Prop} [Add A] (h : ∀ {a a' b b'}, R a a' → R b b' → R (a + b) (a' + b'))
    {l l' : List A} (hl : List.Forall₂ R l l') {a a' : A} (ha : R a a') :
    R (l.foldl (· + ·) a) (l'.foldl (· + ·) a') := by
  induction hl generalizing a a' with
  | nil => exact ha
  | cons hv _ ih => exact ih (h ha hv)

end arithmetic

section stats

/-- **C114** Turning the signal upside down changes the sign of the mean. -/
theorem C114_ieee_mean (hr : f.r.Nearest) (ht : 0 ≤ f.top) (y : List (Ieee f)) :
    Opposite (mean y).1 (mean (y.map fun v => -v)).1 ∧ (mean (y.map fun v => -v)).2 = (mean y).2 := by
  rw [mean_closed, mean_closed, List.length_map]
  split
  · exact ⟨opp_div hr ht _ (foldl_rel (opp_add hr ht) (forall₂_opp y) opp_zero), rfl⟩
  · exact ⟨opp_zero, rfl⟩

/-- **C114** The variance does not change. -/
theorem C114_ieee_variance (hr : f.r.Nearest) (ht : 0 ≤ f.top) (y : List (Ieee f)) :
    variance (y.map fun v => -v) = variance y := by
  have hm := C114_ieee_mean hr ht y
  unfold variance
  dsimp only
  rw [hm.2, List.map_map]
  have : (fun f => (f - (mean (y.map fun v => -v)).1) * (f - (mean (y.map fun v => -v)).1)) ∘ (fun v => -v) =
      fun f => (f - (mean y).1) * (f - (mean y).1) := by
    funext v
    exact opp_sq (opp_sub hr ht (opp_neg v) hm.1)
  rw [this]

/-- **C114** The standard deviation does not change. -/
theorem C114_ieee_stdev (hr : f.r.Nearest) (ht : 0 ≤ f.top) (y : List (Ieee f)) :
    stdev Ieee.sqrt (y.map fun v => -v) = stdev Ieee.sqrt y := by
  unfold stdev
  rw [C114_ieee_variance hr ht]

/-- **C114** The z-scores change sign. -/
theorem C114_ieee_zscore (hr : f.r.Nearest) (ht : 0 ≤ f.top) (y : List (Ieee f)) :
    List.Forall₂ Opposite (zscore Ieee.sqrt y) (zscore Ieee.sqrt (y.map fun v => -v)) := by
  have hm := C114_ieee_mean hr ht y
  unfold zscore
  dsimp only
  rw [C114_ieee_stdev hr ht, List.map_map, List.forall₂_map_left_iff, List.forall₂_map_right_iff, List.forall₂_same]
  exact fun v _ => opp_div hr ht _ (opp_sub hr ht (opp_neg v) hm.1)

/-- **C114** The differences of neighbours change sign. -/
theorem C114_ieee_lag_diff (hr : f.r.Nearest) (ht : 0 ≤ f.top) (y : List (Ieee f)) :
    List.Forall₂ Opposite (lagDiff y) (lagDiff (y.map fun v => -v)) := by
  unfold lagDiff
  rw [← List.map_drop, List.zip_map, List.map_map, List.forall₂_map_left_iff, List.forall₂_map_right_iff,
    List.forall₂_same]
  exact fun v _ => opp_sub hr ht (opp_neg _) (opp_neg _)

/-- **C114** The autocorrelation does not change. -/
theorem C114_ieee_autocorr (hr : f.r.Nearest) (ht : 0 ≤ f.top) (y : List (Ieee f)) (k : ℕ) :
    Same (autocorr y k) (autocorr (y.map fun v => -v) k) := by
  have hm := C114_ieee_mean hr ht y
  unfold autocorr
  dsimp only
  rw [C114_ieee_variance hr ht, hm.2, ← List.map_drop, List.zip_map, List.map_map]
  refine same_div _ (same_div _ (foldl_rel same_add ?_ (same_refl _)))
  rw [List.forall₂_map_left_iff, List.forall₂_map_right_iff, List.forall₂_same]
  exact fun v _ => opp_mul_opp (opp_sub hr ht (opp_neg _) hm.1) (opp_sub hr ht (opp_neg _) hm.1)

end stats

section filters

/-- **C114** Filtering the upside-down signal with the upside-down state: output and state come out upside down. -/
theorem C114_ieee_sosfilt (hr : f.r.Nearest) (ht : 0 ≤ f.top) (x : List (Ieee f)) (sos : List (Sos (Ieee f))) :
    List.Forall₂ Opposite (sosfiltDyn x sos).1
      (sosfiltDyn (x.map fun v => -v) (sos.map fun s => { s with zi0 := -s.zi0, zi1 := -s.zi1 })).1 ∧
    List.Forall₂ (RelSection Opposite) (sosfiltDyn x sos).2
      (sosfiltDyn (x.map fun v => -v) (sos.map fun s => { s with zi0 := -s.zi0, zi1 := -s.zi1 })).2 :=
  (respects_opposite hr ht).sosfilt (by
    rw [List.forall₂_map_right_iff, List.forall₂_same]
    exact fun s _ => ⟨rfl, rfl, rfl, rfl, rfl, rfl, opp_neg _, opp_neg _⟩) (forall₂_opp x)

/-- **C114** Zero-phase filtering of the upside-down signal gives the output upside down. -/
theorem C114_ieee_sosfiltfilt [DecidableEq (Ieee f)] (hr : f.r.Nearest) (ht : 0 ≤ f.top) (x z : List (Ieee f))
    (sos : List (Sos (Ieee f))) (h : sosfiltfiltDyn x sos = .ok z) :
    ∃ z', sosfiltfiltDyn (x.map fun v => -v) sos = .ok z' ∧ List.Forall₂ Opposite z z' :=
  (respects_opposite hr ht).filtfilt opp_zero (forall₂_opp x) h

open Savgol in
/-- **C114** Savitzky-Golay filtering of the upside-down signal gives the output upside down. -/
theorem C114_ieee_savgol [SavNum (Ieee f)] (hr : f.r.Nearest) (ht : 0 ≤ f.top) (cfg : Cfg) (solve : Solver (Ieee f))
    (x : List (Ieee f)) (w p : ℕ) (deriv : Option ℕ) (delta : Option (Ieee f)) (out : List (Ieee f))
    (h : savgolFilterDyn cfg solve x w p deriv delta = .ok out) :
    ∃ out', savgolFilterDyn cfg solve (x.map fun v => -v) w p deriv delta = .ok out' ∧
      List.Forall₂ Opposite out out' := by
  unfold savgolFilterDyn at h ⊢
  split at h
  · cases h
  rename_i hw
  rw [if_neg hw]
  cases hs : cfg.usizeAdd p 2 with
  | error e => rw [hs] at h; cases h
  | ok s =>
    rw [hs, ok_bind] at h
    rw [ok_bind]
    split at h
    · cases h
    rename_i hws
    rw [if_neg hws]
    cases hf : savgolCoeffsDyn cfg solve w p deriv delta with
    | error e => rw [hf] at h; cases h
    | ok fir =>
      rw [hf, ok_bind] at h
      rw [ok_bind]
      cases x with
      | nil => cases h; exact ⟨[], rfl, .nil⟩
      | cons x0 xs =>
        cases h
        rw [List.map_cons]
        refine ⟨_, rfl, ?_⟩
        have hrep : ∀ n, ∀ a a' : Ieee f, Opposite a a' →
            List.Forall₂ Opposite (List.replicate n a) (List.replicate n a') := by
          intro n a a' ha
          induction n with
          | zero => exact .nil
          | succ n ih => exact .cons ha ih
        have hpad : List.Forall₂ Opposite (padNearest w x0 xs) (padNearest w (-x0) (xs.map fun v => -v)) := by
          have h1 := List.rel_append (hrep (w / 2 + 1) x0 (-x0) (opp_neg _)) (forall₂_opp xs)
          have hlast : ∀ l l' : List (Ieee f), List.Forall₂ Opposite l l' → Opposite (l.getLastD 0) (l'.getLastD 0) := by
            intro l l' hl
            rw [List.getLastD_eq_getLast?, List.getLastD_eq_getLast?, List.getLast?_eq_getElem?, List.getLast?_eq_getElem?,
              ← hl.length_eq, ← List.getD_eq_getElem?_getD, ← List.getD_eq_getElem?_getD]
            exact rel_getD opp_zero hl _
          exact List.rel_append h1 (hrep _ _ _ (hlast _ _ h1))
        generalize padNearest w x0 xs = l at *
        generalize padNearest w (-x0) (xs.map fun v => -v) = l' at *
        unfold windows
        rw [← hpad.length_eq, List.map_map, List.map_map, List.forall₂_map_left_iff, List.forall₂_map_right_iff,
          List.forall₂_same]
        intro k _
        have hwin := List.forall₂_take w (List.forall₂_drop k hpad)
        simp only [Function.comp_apply]
        generalize (l.drop k).take w = u at *
        generalize (l'.drop k).take w = u' at *
        unfold Savgol.dot sumIter
        refine foldl_rel (opp_add hr ht) ?_ opp_zero
        generalize fir.reverse = g
        clear hpad
        induction hwin generalizing g with
        | nil => exact .nil
        | cons hv _ ih =>
          cases g with
          | nil => exact .nil
          | cons b g => exact .cons (opp_mul' hr ht b hv) (ih g)

end filters

/-! ### The hypotheses hold -/

/-- `f64` and `f32` round to nearest. -/
theorem C114_formats : (f64.r.Nearest ∧ 0 ≤ f64.top) ∧ (f32.r.Nearest ∧ 0 ≤ f32.top) :=
  ⟨⟨SciRs.Rounded.binary64_nearest, mul_nonneg (by norm_num) (by positivity)⟩,
    ⟨SciRs.Rounded.binary32_nearest, mul_nonneg (by norm_num) (by positivity)⟩⟩

/-- An infinite sample: the sum of the signal is infinite, that of the upside-down signal too, with the other sign. -/
example : Stats.sum [(inf false : Ieee f64), 1] = inf false ∧
    Stats.sum ([(inf false : Ieee f64), 1].map fun v => -v) = inf true := ⟨rfl, rfl⟩

open Classical in
/-- A zero-phase call that returns, with a NaN in it. -/
example : ∃ z : List (Ieee f64), sosfiltfiltDyn (nan :: List.replicate 9 1) [Sos.new 1 1 1 1 0 1] = .ok z := by
  have h01 : (1 : Ieee f64) ≠ 0 := by
    intro h
    have : (fin 1 false : Ieee f64) = fin 0 false := h
    injection this with h1
    exact one_ne_zero h1
  have hnp : ¬ Panics (sosfiltfiltDyn (nan :: List.replicate 9 (1 : Ieee f64)) [Sos.new 1 1 1 1 0 1]) := by
    rw [(C30_panics_iff _ _).1]
    simp [sosNtaps, NoDenominator, Sos.new, h01]
  have hub := (C30_panics_iff (nan :: List.replicate 9 (1 : Ieee f64)) [Sos.new 1 1 1 1 0 1]).2
  cases h : sosfiltfiltDyn (nan :: List.replicate 9 (1 : Ieee f64)) [Sos.new 1 1 1 1 0 1] with
  | error e =>
    rw [h] at hnp hub
    rw [panics_error] at hnp
    exact absurd (by rw [not_not.mp hnp]) hub
  | ok z => exact ⟨z, rfl⟩

end SciRs.Props

import Verif.Props.IeeeSos
import Verif.Props.Sosfiltfilt
import Verif.Lemmas.Savgol

/-!
# C99: infinities and NaN in zero-phase and Savitzky-Golay filtering

`Ieee f` (Spec/Ieee.lean) is floating-point arithmetic with the special values of IEEE 754.  Where the code compares
coefficients with zero, the equality used here tells the two zeros apart; the theorems hold for any way of deciding
it, and it only affects the length of the padding.
-/

namespace SciRs.Props

open SciRs SciRs.Spec SciRs.Spec.Ieee SciRs.Savgol

section Filtfilt

variable {f : Format} [DecidableEq (Ieee f)]

/-- A property of samples that a cascade hands on to all later outputs spreads over the whole zero-phase output. -/
theorem filtfilt_poison (P : Ieee f → Prop)
    (hP : ∀ sos : List (Sos (Ieee f)), sos ≠ [] → ∀ (x : List (Ieee f)) (i j : ℕ) (_ : i ≤ j) (hj : j < x.length),
      P (x[i]'(by omega)) → P ((sosfiltDyn x sos).1[j]'(by rw [(C24_length x sos).1]; exact hj)))
    (y : List (Ieee f)) (sos : List (Sos (Ieee f))) (hne : sos ≠ []) (z : List (Ieee f))
    (h : sosfiltfiltDyn y sos = .ok z) (hy : ∃ v ∈ y, P v) : ∀ v ∈ z, P v := by
  have hnp : ¬ Panics (sosfiltfiltDyn y sos) := by rw [h]; simp
  rw [(C30_panics_iff y sos).1, not_or] at hnp
  obtain ⟨r, hr⟩ := (sosfiltZiLoop_total sos 1).2 hnp.2
  rw [sosfiltfilt_ok y sos r (by omega) hr] at h
  obtain rfl : ffOut y (sosNtaps sos) r = z := by simpa using h
  have hrne : r ≠ [] := by
    rintro rfl
    rcases sos with _ | ⟨s, ss⟩
    · exact hne rfl
    · have h1 : sosfiltZiLoop 1 (s :: ss) = .ok [] := hr
      rw [sosfiltZiLoop] at h1
      cases h2 : lfilterZiDyn [s.b0, s.b1, s.b2] [s.a0, s.a1, s.a2] with
      | error e => rw [h2] at h1; cases h1
      | ok zi =>
        rw [h2] at h1
        simp only [ok_bind] at h1
        cases h3 : vecGet zi 0 with
        | error e => rw [h3] at h1; cases h1
        | ok z0 =>
          cases h4 : vecGet zi 1 with
          | error e => rw [h3, h4] at h1; cases h1
          | ok z1 =>
            rw [h3, h4] at h1
            simp only [ok_bind] at h1
            generalize sosfiltZiLoop _ ss = w at h1
            cases w with
            | error e => cases h1
            | ok l => simp [pure, Except.pure] at h1
  have hsc : ∀ c : Ieee f, scaleStates c r ≠ [] := fun c hc => hrne (by simpa [scaleStates] using hc)
  obtain ⟨v, hv, hPv⟩ := hy
  obtain ⟨i, hi, rfl⟩ := List.getElem_of_mem hv
  obtain ⟨n, hn⟩ : ∃ n, n = 3 * sosNtaps sos := ⟨_, rfl⟩
  intro w hw
  simp only [ffOut, ← hn] at hw
  obtain ⟨ext, hext⟩ : ∃ ext, ext = extList y n := ⟨_, rfl⟩
  rw [← hext] at hw
  have hel : ext.length = y.length + 2 * n := by rw [hext]; simp [extList]
  have hei : ext[n + i]'(by omega) = y[i] := by
    simp only [hext, extList, List.getElem_map, List.getElem_range]
    have e1 : oddExt y.length n (fun k => y.getD k 0) (n + i) = y.getD i 0 := by
      unfold oddExt
      rw [if_neg (by omega), if_pos (by omega), Nat.add_sub_cancel_left]
    rw [e1, List.getD_eq_getElem _ _ hi]
  obtain ⟨F, hF⟩ : ∃ F, F = (sosfiltDyn ext (scaleStates (ext.getD 0 0) r)).1 := ⟨_, rfl⟩
  rw [← hF] at hw
  have hFl : F.length = y.length + 2 * n := by rw [hF, (C24_length _ _).1, hel]
  have hlast : P (F.reverse[0]'(by rw [List.length_reverse]; omega)) := by
    rw [List.getElem_reverse]
    have := hP _ (hsc (ext.getD 0 0)) ext (n + i) (F.length - 1 - 0) (by omega) (by omega) (by rw [hei]; exact hPv)
    simpa only [hF] using this
  have hw1 := List.mem_of_mem_drop (List.mem_of_mem_take (List.mem_reverse.mp hw))
  obtain ⟨j, hj, rfl⟩ := List.getElem_of_mem hw1
  have hj' : j < F.reverse.length := by rwa [(C24_length _ _).1] at hj
  exact hP _ (hsc _) F.reverse 0 j (Nat.zero_le j) hj' hlast

/-- **C99** One NaN in the signal makes every sample of the zero-phase output NaN: before it as well as after it. -/
theorem C99_filtfilt_nan (y : List (Ieee f)) (sos : List (Sos (Ieee f))) (hne : sos ≠ []) (z : List (Ieee f))
    (h : sosfiltfiltDyn y sos = .ok z) (hy : nan ∈ y) : z = List.replicate y.length nan := by
  rw [List.eq_replicate_iff]
  refine ⟨C30_length y sos z h, filtfilt_poison (fun v => v = nan) ?_ y sos hne z h ⟨nan, hy, rfl⟩⟩
  intro sos hne x i j hij hj hx
  exact C81_nan sos hne x i j hij hj hx

/-- **C99** One infinite sample leaves no finite sample in the zero-phase output. -/
theorem C99_filtfilt_nonfinite (y : List (Ieee f)) (sos : List (Sos (Ieee f))) (hne : sos ≠ []) (z : List (Ieee f))
    (h : sosfiltfiltDyn y sos = .ok z) (hy : ∃ v ∈ y, ¬ v.Finite) : ∀ v ∈ z, ¬ v.Finite :=
  filtfilt_poison (fun v => ¬ v.Finite) (fun sos hne x i j hij hj hx => C81_nonfinite_poisons sos hne x i j hij hj hx)
    y sos hne z h hy

open Classical in
/-- The call does return: ten samples, one of them NaN, through one section. -/
example : ∃ z : List (Ieee f64), sosfiltfiltDyn (nan :: List.replicate 9 1) [Sos.new 1 1 1 1 0 1] = .ok z ∧
    z = List.replicate 10 nan := by
  have h01 : (1 : Ieee f64) ≠ 0 := by
    intro h
    have : (fin 1 false : Ieee f64) = fin 0 false := h
    injection this with h1
    exact one_ne_zero h1
  have hnp : ¬ Panics (sosfiltfiltDyn (nan :: List.replicate 9 (1 : Ieee f64)) [Sos.new 1 1 1 1 0 1]) := by
    rw [(C30_panics_iff _ _).1]
    simp [sosNtaps, NoDenominator, Sos.new, h01]
  have hub := (C30_panics_iff (nan :: List.replicate 9 (1 : Ieee f64)) [Sos.new 1 1 1 1 0 1]).2
  cases h : sosfiltfiltDyn (nan :: List.replicate 9 (1 : Ieee f64)) [Sos.new 1 1 1 1 0 1] with
  | error e =>
    rw [h] at hnp hub
    rw [panics_error] at hnp
    exact absurd (by rw [not_not.mp hnp]) hub
  | ok z => exact ⟨z, rfl, by simpa using C99_filtfilt_nan _ _ (by simp) z h (by simp)⟩

end Filtfilt

section Savgol

theorem padNearest_getElem? {F : Type} [Zero F] (h : ℕ) (y0 : F) (ys : List F) (k : ℕ)
    (hk : k < (y0 :: ys).length + 2 * h) :
    (padNearest (2 * h + 1) y0 ys)[k]? = (y0 :: ys)[min (k - h) ys.length]? := by
  have hw : (2 * h + 1) / 2 = h := by omega
  have hlen : (y0 :: ys).length = ys.length + 1 := rfl
  rw [hlen] at hk
  unfold padNearest
  dsimp only
  rw [hw, getLastD_pad]
  by_cases h1 : k < h + 1
  · rw [List.getElem?_append_left (by simp; omega), List.getElem?_append_left (by simpa using h1),
      List.getElem?_replicate, if_pos h1, show min (k - h) ys.length = 0 by omega]
    rfl
  · by_cases h2 : k < h + 1 + ys.length
    · rw [List.getElem?_append_left (by simp; omega), List.getElem?_append_right (by simp; omega),
        List.length_replicate, show min (k - h) ys.length = (k - (h + 1)) + 1 by omega, List.getElem?_cons_succ]
    · rw [List.getElem?_append_right (by simp; omega), List.getElem?_replicate, if_pos (by simp; omega),
        show min (k - h) ys.length = ys.length by omega, List.getLastD_eq_getLast?, List.getLast?_eq_getElem?, hlen,
        Nat.add_sub_cancel, List.getElem?_eq_getElem (show ys.length < (y0 :: ys).length by simp)]
      rfl

/-- The call, its window and its output. -/
theorem savgol_out {F : Type} [Zero F] [One F] [Add F] [Sub F] [Mul F] [Div F] [SavNum F] {c : Cfg} {lstsq : Solver F}
    {y : List F} {w p : ℕ} {deriv : Option ℕ} {delta : Option F} {o : List F}
    (ho : savgolFilterDyn c lstsq y w p deriv delta = .ok o) :
    w % 2 = 1 ∧ ∃ fir, savgolCoeffsDyn c lstsq w p deriv delta = .ok fir ∧ ∀ j, j < y.length →
      ∃ win : List F, o[j]? = some (dot win fir.reverse) ∧ win.length = w ∧
        ∀ k, k < w → win[k]? = y[min (j + k - w / 2) (y.length - 1)]? := by
  unfold savgolFilterDyn at ho
  split at ho
  · cases ho
  rename_i hw
  cases h1 : c.usizeAdd p 2 with
  | error e => rw [h1] at ho; cases ho
  | ok s =>
    rw [h1] at ho
    simp only [ok_bind] at ho
    split at ho
    · cases ho
    cases h2 : savgolCoeffsDyn c lstsq w p deriv delta with
    | error e => rw [h2] at ho; cases ho
    | ok fir =>
      rw [h2] at ho
      simp only [ok_bind] at ho
      refine ⟨by omega, fir, rfl, fun j hj => ?_⟩
      cases y with
      | nil => simp at hj
      | cons y0 ys =>
        obtain ⟨h, rfl⟩ : ∃ h, w = 2 * h + 1 := ⟨w / 2, by omega⟩
        have ho : (windows (2 * h + 1) (padNearest (2 * h + 1) y0 ys)).map (fun w => dot w fir.reverse) = o := by
          simpa using ho
        have hpl := padNearest_length h y0 ys
        have hlen : (y0 :: ys).length = ys.length + 1 := rfl
        rw [hlen] at hj
        refine ⟨((padNearest (2 * h + 1) y0 ys).drop j).take (2 * h + 1), ?_, ?_, fun k hk => ?_⟩
        · rw [← ho, List.getElem?_map, windows, List.getElem?_map, List.getElem?_range (by omega)]
          rfl
        · rw [List.length_take, List.length_drop, hpl]; omega
        · rw [List.getElem?_take_of_lt hk, List.getElem?_drop, padNearest_getElem? _ _ _ _ (by omega)]
          rw [hlen, Nat.add_sub_cancel, show (2 * h + 1) / 2 = h by omega]

/-- **C99** Savitzky-Golay filtering is local, in any arithmetic: an output sample depends on the input samples
inside its window only, so a bad sample can spoil at most one window length of the output. -/
theorem C99_savgol_local {F : Type} [Zero F] [One F] [Add F] [Sub F] [Mul F] [Div F] [SavNum F] (c : Cfg)
    (lstsq : Solver F) (x y : List F) (w p : ℕ) (deriv : Option ℕ) (delta : Option F) (ox oy : List F)
    (hx : savgolFilterDyn c lstsq x w p deriv delta = .ok ox)
    (hy : savgolFilterDyn c lstsq y w p deriv delta = .ok oy) (hl : x.length = y.length) (j : ℕ) (hj : j < x.length)
    (hag : ∀ i, i ≤ j + w / 2 → j ≤ i + w / 2 → x[i]? = y[i]?) : ox[j]? = oy[j]? := by
  obtain ⟨hw, fir, hf, Hx⟩ := savgol_out hx
  obtain ⟨-, fir', hf', Hy⟩ := savgol_out hy
  obtain rfl : fir = fir' := by rw [hf] at hf'; simpa using hf'
  obtain ⟨wx, ex, lx, gx⟩ := Hx j hj
  obtain ⟨wy, ey, ly, gy⟩ := Hy j (hl ▸ hj)
  have : wx = wy := by
    refine List.ext_getElem? fun k => ?_
    by_cases hk : k < w
    · rw [gx k hk, gy k hk, ← hl]
      exact hag _ (by omega) (by omega)
    · rw [List.getElem?_eq_none (by omega), List.getElem?_eq_none (by omega)]
  rw [ex, ey, this]

variable {f : Format}

theorem foldl_add_poison (P : Ieee f → Prop) (ha : ∀ a b, P a ∨ P b → P (a + b)) (l : List (Ieee f)) :
    ∀ a : Ieee f, (P a ∨ ∃ v ∈ l, P v) → P (l.foldl (· + ·) a) := by
  induction l with
  | nil =>
    rintro a (h | ⟨v, hv, -⟩)
    · exact h
    · simp at hv
  | cons b l ih =>
    rintro a (h | ⟨v, hv, hP⟩)
    · exact ih _ (.inl (ha _ _ (.inl h)))
    · rcases List.mem_cons.mp hv with rfl | hv
      · exact ih _ (.inl (ha _ _ (.inr hP)))
      · exact ih _ (.inr ⟨v, hv, hP⟩)

theorem dot_poison (P : Ieee f → Prop) (ha : ∀ a b, P a ∨ P b → P (a + b)) (hm : ∀ a b, P a → P (a * b))
    (a b : List (Ieee f)) (hl : a.length = b.length) (h : ∃ v ∈ a, P v) : P (dot a b) := by
  obtain ⟨v, hv, hP⟩ := h
  obtain ⟨i, hi, rfl⟩ := List.getElem_of_mem hv
  refine foldl_add_poison P ha _ _ (.inr ⟨a[i] * b[i]'(hl ▸ hi), ?_, hm _ _ hP⟩)
  refine List.mem_map.mpr ⟨(a[i], b[i]'(hl ▸ hi)), ?_, rfl⟩
  exact List.mem_iff_getElem.mpr ⟨i, by rw [List.length_zip]; omega, by simp⟩

theorem savgol_poison [SavNum (Ieee f)] (P : Ieee f → Prop) (ha : ∀ a b, P a ∨ P b → P (a + b))
    (hm : ∀ a b, P a → P (a * b)) (c : Cfg) (lstsq : Solver (Ieee f))
    (hsol : ∀ m n A b, (lstsq m n A b).length = n) (y : List (Ieee f)) (w p : ℕ) (deriv : Option ℕ)
    (delta : Option (Ieee f)) (o : List (Ieee f)) (ho : savgolFilterDyn c lstsq y w p deriv delta = .ok o) (i j : ℕ)
    (v : Ieee f) (hi : y[i]? = some v) (hv : P v) (hj : j < y.length) (h1 : i ≤ j + w / 2) (h2 : j ≤ i + w / 2) :
    ∃ v', o[j]? = some v' ∧ P v' := by
  obtain ⟨hw, fir, hf, H⟩ := savgol_out ho
  obtain ⟨win, e, l, g⟩ := H j hj
  refine ⟨_, e, dot_poison P ha hm _ _ ?_ ?_⟩
  · rw [List.length_reverse, l]
    unfold savgolCoeffsDyn at hf
    split at hf
    · cases hf
    dsimp only at hf
    split at hf
    · obtain rfl : _ = fir := by simpa using hf
      simp
    · cases hk : Savgol.factorial c (deriv.getD 0) with
      | error e => rw [hk] at hf; cases hf
      | ok q =>
        rw [hk] at hf
        simp only [ok_bind, pure, Except.pure, Except.ok.injEq] at hf
        rw [← hf, hsol]
  · have hil : i < y.length := (List.getElem?_eq_some_iff.mp hi).1
    have := g (i + w / 2 - j) (by omega)
    rw [show min (j + (i + w / 2 - j) - w / 2) (y.length - 1) = i by omega, hi] at this
    exact ⟨v, List.mem_of_getElem? this, hv⟩

/-- **C99** A NaN makes every output sample NaN whose window contains it (and no other one changes, by
`C99_savgol_local`). -/
theorem C99_savgol_nan [SavNum (Ieee f)] (c : Cfg) (lstsq : Solver (Ieee f))
    (hsol : ∀ m n A b, (lstsq m n A b).length = n) (y : List (Ieee f)) (w p : ℕ) (deriv : Option ℕ)
    (delta : Option (Ieee f)) (o : List (Ieee f)) (ho : savgolFilterDyn c lstsq y w p deriv delta = .ok o) (i j : ℕ)
    (hi : y[i]? = some nan) (hj : j < y.length) (h1 : i ≤ j + w / 2) (h2 : j ≤ i + w / 2) : o[j]? = some nan := by
  obtain ⟨v, e, rfl⟩ := savgol_poison (fun v => v = nan) (by rintro a b (rfl | rfl) <;> simp) (by rintro a b rfl; simp)
    c lstsq hsol y w p deriv delta o ho i j nan hi rfl hj h1 h2
  exact e

/-- **C99** An infinite sample leaves no finite output sample whose window contains it: a vanishing coefficient does
not hide it. -/
theorem C99_savgol_nonfinite [SavNum (Ieee f)] (c : Cfg) (lstsq : Solver (Ieee f))
    (hsol : ∀ m n A b, (lstsq m n A b).length = n) (y : List (Ieee f)) (w p : ℕ) (deriv : Option ℕ)
    (delta : Option (Ieee f)) (o : List (Ieee f)) (ho : savgolFilterDyn c lstsq y w p deriv delta = .ok o) (i j : ℕ)
    (v : Ieee f) (hi : y[i]? = some v) (hv : ¬ v.Finite) (hj : j < y.length) (h1 : i ≤ j + w / 2)
    (h2 : j ≤ i + w / 2) : ∃ v', o[j]? = some v' ∧ ¬ v'.Finite :=
  savgol_poison (fun v => ¬ v.Finite) (fun a b h hab => by
    have := finite_add hab
    tauto) (fun a b h hab => h (finite_mul hab).1) c lstsq hsol y w p deriv delta o ho i j v hi hv hj h1 h2

/-- A call that returns: a window of three samples over five, with a solver that answers zeros. -/
example [SavNum (Ieee f64)] (c : Cfg) (hc : c.usizeAdd 1 2 = .ok 3) :
    ∃ o, savgolFilterDyn c (fun _ n _ _ => List.replicate n (0 : Ieee f64)) [1, 1, nan, 1, 1] 3 1 none none = .ok o ∧
      o[1]? = some nan ∧ o[2]? = some nan ∧ o[3]? = some nan := by
  obtain ⟨o, ho⟩ : ∃ o, savgolFilterDyn c (fun _ n _ _ => List.replicate n (0 : Ieee f64)) [1, 1, nan, 1, 1] 3 1 none
      none = .ok o := by
    simp [savgolFilterDyn, hc, savgolCoeffsDyn, Savgol.factorial]
  refine ⟨o, ho, ?_, ?_, ?_⟩ <;>
    exact C99_savgol_nan c _ (fun m n A b => by simp) _ _ _ _ _ o ho 2 _ (by simp) (by simp) (by simp) (by simp)

end Savgol

end SciRs.Props

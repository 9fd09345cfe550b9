import Verif.Model.SquareIeee
import Verif.Lemmas.IeeeExact
import Verif.Props.SquareFloat

/-!
# C125: the square wave for infinite and NaN times and duty cycles, in every build
-/

namespace SciRs.Props

open SciRs SciRs.Wave SciRs.Spec SciRs.Spec.Ieee SciRs.IeeeDesign

variable {f : Format}

theorem Is.lt_iff {a b : Ieee f} {x y : ℝ} (ha : Is a x) (hb : Is b y) : a < b ↔ x < y := by
  obtain ⟨s, rfl⟩ := ha
  obtain ⟨t, rfl⟩ := hb
  change (∃ p q : EReal, some (x : EReal) = some p ∧ some (y : EReal) = some q ∧ p < q) ↔ _
  constructor
  · rintro ⟨p, q, hp, hq, h⟩
    cases hp; cases hq
    exact EReal.coe_lt_coe_iff.mp h
  · exact fun h => ⟨_, _, rfl, rfl, EReal.coe_lt_coe_iff.mpr h⟩

theorem Is.le_iff {a b : Ieee f} {x y : ℝ} (ha : Is a x) (hb : Is b y) : a ≤ b ↔ x ≤ y := by
  obtain ⟨s, rfl⟩ := ha
  obtain ⟨t, rfl⟩ := hb
  change (∃ p q : EReal, some (x : EReal) = some p ∧ some (y : EReal) = some q ∧ p ≤ q) ↔ _
  constructor
  · rintro ⟨p, q, hp, hq, h⟩
    cases hp; cases hq
    exact EReal.coe_le_coe_iff.mp h
  · exact fun h => ⟨_, _, rfl, rfl, EReal.coe_le_coe_iff.mpr h⟩

/-- Every comparison with NaN is false. -/
theorem nan_lt (b : Ieee f) : ¬ (nan : Ieee f) < b := by
  rintro ⟨p, q, hp, -⟩
  cases hp

theorem le_nan (a : Ieee f) : ¬ a ≤ (nan : Ieee f) := by
  rintro ⟨p, q, -, hq, -⟩
  cases hq

/-- A duty cycle passes the check exactly when it is a number from 0 to 1: NaN and the infinities do not. -/
theorem duty_ok {duty : Ieee f} : (0 ≤ duty ∧ duty ≤ 1) ↔ ∃ d, Is duty d ∧ 0 ≤ d ∧ d ≤ 1 := by
  cases duty with
  | nan => exact ⟨fun h => absurd h.1 (le_nan _), fun ⟨d, ⟨s, hs⟩, _⟩ => by cases hs⟩
  | inf s =>
    refine ⟨fun ⟨h, k⟩ => ?_, fun ⟨d, ⟨s, hs⟩, _⟩ => by cases hs⟩
    cases s with
    | false =>
      obtain ⟨p, q, hp, hq, k⟩ := k
      cases hp; cases hq
      have k' : (⊤ : EReal) ≤ ((1 : ℝ) : EReal) := k
      exact absurd k' (not_le.mpr (EReal.coe_lt_top 1))
    | true =>
      obtain ⟨p, q, hp, hq, h⟩ := h
      cases hp; cases hq
      simp at h
  | fin v s =>
    have hv : Is (fin v s : Ieee f) v := ⟨s, rfl⟩
    rw [Is.le_iff is_zero hv, Is.le_iff hv is_one]
    exact ⟨fun h => ⟨v, hv, h⟩, fun ⟨d, hd, h⟩ => by rwa [← Is.val_unique hd hv]⟩

section

variable {P : Ieee f} {p : ℝ} (hP : Is P p) (hp : 0 < p) (hr : f.r.rnd p = p) (ht : p ≤ f.top)
include hP hp hr ht

/-- A finite time is treated as in C78, in every build. -/
theorem squareIeeeAt_fin (debug : Bool) {thr t : Ieee f} {h v : ℝ} (hh : Is thr h) (hv : Is t v) :
    squareIeeeAt debug P thr t = .ok (if computedPhase f.r p v < h then 1 else -1) := by
  obtain ⟨s, rfl⟩ := hP
  obtain ⟨s', rfl⟩ := hv
  have hP' : Is (fin p s : Ieee f) p := ⟨s, rfl⟩
  have hR : Is (rem (fin v s') (fin p s) : Ieee f) (fmod v p) := by
    refine ⟨s', ?_⟩
    change (if p = 0 then nan else fin (fmod v p) s' : Ieee f) = _
    rw [if_neg hp.ne']
  obtain ⟨x, hx⟩ := phaseMod_exists f.r p hp hr v
  have hb := computedPhase_bounds f.r p hp hr v x hx
  have hX : Is (f := f) (if rem (fin v s') (fin p s : Ieee f) < 0 then rem (fin v s') (fin p s : Ieee f) + fin p s
      else rem (fin v s') (fin p s)) (computedPhase f.r p v) := by
    unfold computedPhase at hb ⊢
    by_cases hn : fmod v p < 0
    · rw [if_pos ((Is.lt_iff hR is_zero).mpr hn), if_pos hn]
      rw [if_pos hn] at hb
      exact Is.add hR hP' (by rw [abs_of_nonneg hb.1]; linarith [hb.2.1])
    · rw [if_neg (fun h => hn ((Is.lt_iff hR is_zero).mp h)), if_neg hn]
      exact hR
  unfold squareIeeeAt
  dsimp only
  rw [check_true (.inr ⟨(Is.le_iff is_zero hX).mpr hb.1, (Is.le_iff hX hP').mpr hb.2.1⟩)]
  change Except.ok _ = _
  congr 1
  by_cases hc : computedPhase f.r p v < h
  · rw [if_pos hc, if_pos ((Is.lt_iff hX hh).mpr hc)]
  · rw [if_neg hc, if_neg (fun k => hc ((Is.lt_iff hX hh).mp k))]

omit hp hr ht in
/-- A time that is not finite has no phase: the assertion fires in a debug build, and a release build returns `-1`. -/
theorem squareIeeeAt_not_finite (debug : Bool) (thr : Ieee f) {t : Ieee f} (h : ¬ t.Finite) :
    squareIeeeAt debug P thr t = if debug then .error .assert else .ok (-1) := by
  have e : rem t P = nan := by
    obtain ⟨s, rfl⟩ := hP
    cases t with
    | nan => rfl
    | inf s => rfl
    | fin v s => exact absurd ⟨v, s, rfl⟩ h
  unfold squareIeeeAt
  dsimp only
  rw [e, if_neg (nan_lt _)]
  cases debug with
  | false =>
    rw [check_true (.inl rfl)]
    change Except.ok _ = _
    rw [if_neg (nan_lt _)]
    rfl
  | true =>
    rw [check_false (by rintro (h | ⟨h, -⟩); exacts [by simp at h, le_nan _ h])]
    rfl

/-- The threshold is finite, and the one of C78. -/
theorem threshold_is {duty : Ieee f} {d : ℝ} (hd : Is duty d) (h0 : 0 ≤ d) (h1 : d ≤ 1) :
    Is (P * duty) (f.r.rnd (p * d)) := by
  refine Is.mul hP hd ?_
  have a : 0 ≤ f.r.rnd (p * d) := by
    have := f.r.mono 0 (p * d) (by positivity)
    rwa [f.r.zero] at this
  have b : f.r.rnd (p * d) ≤ p := by
    have := f.r.mono (p * d) p (by nlinarith)
    rwa [hr] at this
  rw [abs_of_nonneg a]
  linarith

/-- The value at each time. -/
theorem squareIeee_release {duty : Ieee f} {d : ℝ} (hd : Is duty d) (h0 : 0 ≤ d) (h1 : d ≤ 1) (t : List (Ieee f)) :
    squareIeee false P t duty = .ok (t.map fun a => match a with
      | .fin v _ => if computedPhase f.r p v < f.r.rnd (p * d) then 1 else -1
      | _ => -1) := by
  unfold squareIeee
  rw [check_true (duty_ok.mpr ⟨d, hd, h0, h1⟩), ok_bind]
  dsimp only
  induction t with
  | nil => rfl
  | cons a t ih =>
    rw [List.mapM_cons, ih]
    have e : squareIeeeAt false P (P * duty) a = .ok (match a with
      | .fin v _ => if computedPhase f.r p v < f.r.rnd (p * d) then 1 else -1
      | _ => -1) := by
      cases a with
      | nan => exact squareIeeeAt_not_finite hP false _ (by rintro ⟨v, s, h⟩; cases h)
      | inf s => exact squareIeeeAt_not_finite hP false _ (by rintro ⟨v, s, h⟩; cases h)
      | fin v s => exact squareIeeeAt_fin hP hp hr ht false (threshold_is hP hp hr ht hd h0 h1) ⟨s, rfl⟩
    rw [e]
    rfl

theorem squareIeee_debug {duty : Ieee f} {d : ℝ} (hd : Is duty d) (h0 : 0 ≤ d) (h1 : d ≤ 1) (t : List (Ieee f)) :
    ((∀ a ∈ t, a.Finite) → squareIeee true P t duty = squareIeee false P t duty) ∧
    ((∃ a ∈ t, ¬ a.Finite) → Panics (squareIeee true P t duty)) := by
  have hth := threshold_is hP hp hr ht hd h0 h1
  unfold squareIeee
  rw [check_true (duty_ok.mpr ⟨d, hd, h0, h1⟩), ok_bind, ok_bind]
  dsimp only
  induction t with
  | nil => exact ⟨fun _ => rfl, by simp⟩
  | cons a t ih =>
    rw [List.mapM_cons, List.mapM_cons]
    by_cases ha : a.Finite
    · obtain ⟨v, s, rfl⟩ := ha
      rw [squareIeeeAt_fin hP hp hr ht true hth ⟨s, rfl⟩, squareIeeeAt_fin hP hp hr ht false hth ⟨s, rfl⟩, ok_bind,
        ok_bind]
      refine ⟨fun h => by rw [ih.1 fun b hb => h b (List.mem_cons_of_mem _ hb)], ?_⟩
      rintro ⟨b, hb, hb'⟩
      rcases List.mem_cons.mp hb with rfl | hb
      · exact absurd ⟨v, s, rfl⟩ hb'
      · have := ih.2 ⟨b, hb, hb'⟩
        generalize List.mapM (squareIeeeAt true P (P * duty)) t = R at this ⊢
        cases R with
        | ok y => simp at this
        | error e => simpa using this
    · refine ⟨fun h => absurd (h a (by simp)) ha, fun _ => ?_⟩
      rw [squareIeeeAt_not_finite hP true _ ha]
      simp

/-- **C125** When `square` panics.  In a release build: exactly when the duty cycle is not a number from 0 to 1 (NaN and
the infinities are refused, a negative zero is accepted), whatever the times.  In a debug build: also when some time is
NaN or infinite. -/
theorem C125_panics (t : List (Ieee f)) (duty : Ieee f) :
    (Panics (squareIeee false P t duty) ↔ ¬ ∃ d, Is duty d ∧ 0 ≤ d ∧ d ≤ 1) ∧
    (Panics (squareIeee true P t duty) ↔ (¬ ∃ d, Is duty d ∧ 0 ≤ d ∧ d ≤ 1) ∨ ∃ a ∈ t, ¬ a.Finite) := by
  by_cases h : ∃ d, Is duty d ∧ 0 ≤ d ∧ d ≤ 1
  · obtain ⟨d, hd, h0, h1⟩ := h
    have h' : ∃ d, Is duty d ∧ 0 ≤ d ∧ d ≤ 1 := ⟨d, hd, h0, h1⟩
    have e := squareIeee_release hP hp hr ht hd h0 h1 t
    refine ⟨by rw [e]; simpa using h', ?_⟩
    by_cases hf : ∃ a ∈ t, ¬ a.Finite
    · exact ⟨fun _ => .inr hf, fun _ => (squareIeee_debug hP hp hr ht hd h0 h1 t).2 hf⟩
    · rw [(squareIeee_debug hP hp hr ht hd h0 h1 t).1 (by push Not at hf; exact hf), e]
      simp only [panics_ok, false_iff, not_or, not_not]
      exact ⟨h', hf⟩
  · have e : ∀ b, Panics (squareIeee b P t duty) := fun b => by
      unfold squareIeee
      rw [check_false (fun k => h (duty_ok.mp k))]
      simp
    exact ⟨⟨fun _ => h, fun _ => e _⟩, ⟨fun _ => .inl h, fun _ => e _⟩⟩

/-- **C125** What a release build returns: as many values as times, each `1` or `-1`, and `-1` at every time that is NaN or
infinite. -/
theorem C125_release (t : List (Ieee f)) (duty : Ieee f) (d : ℝ) (hd : Is duty d) (h0 : 0 ≤ d) (h1 : d ≤ 1) :
    ∃ y, squareIeee false P t duty = .ok y ∧ y.length = t.length ∧
      (∀ v ∈ y, v = 1 ∨ v = -1) ∧ ∀ i (hi : i < t.length), ¬ t[i].Finite → y[i]? = some (-1) := by
  refine ⟨_, squareIeee_release hP hp hr ht hd h0 h1 t, by simp, fun v hv => ?_, fun i hi hf => ?_⟩
  · obtain ⟨a, -, rfl⟩ := List.mem_map.mp hv
    split
    · split <;> simp
    · simp
  · rw [List.getElem?_map, List.getElem?_eq_getElem hi, Option.map_some]
    congr 1
    split
    · rename_i v s e
      exact absurd ⟨v, s, e⟩ hf
    · rfl

/-- **C125** Finite times are not affected by the other ones, and nothing overflows: in a release build the values at the
finite times are those of the calculation without overflow of C78, and in a debug build the whole result is. -/
theorem C125_finite (t : List (Ieee f)) (duty : Ieee f) (d : ℝ) (hd : Is duty d) (h0 : 0 ≤ d) (h1 : d ≤ 1) :
    (∃ y, squareIeee false P t duty = .ok y ∧ ∀ i (hi : i < t.length) v, Is t[i] v →
      ∃ w, squareFl f.r p [v] d = .ok [w] ∧ ∃ a, y[i]? = some a ∧ Is a w) ∧
    ∀ (debug : Bool) (tv : List ℝ), List.Forall₂ Is t tv → ∃ y w, squareIeee debug P t duty = .ok y ∧
      squareFl f.r p tv d = .ok w ∧ List.Forall₂ Is y w := by
  have hsel : ∀ v : ℝ, Is ((if computedPhase f.r p v < f.r.rnd (p * d) then 1 else -1 : Ieee f))
      (if computedPhase f.r p v < f.r.rnd (p * d) then 1 else -1) := by
    intro v
    split
    · exact is_one
    · exact Is.neg is_one
  constructor
  · refine ⟨_, squareIeee_release hP hp hr ht hd h0 h1 t, fun i hi v hv => ?_⟩
    refine ⟨_, squareFl_ok f.r p hp hr [v] d h0 h1, ?_⟩
    obtain ⟨s, hs⟩ := hv
    rw [List.getElem?_map, List.getElem?_eq_getElem hi, Option.map_some]
    refine ⟨_, rfl, ?_⟩
    rw [hs]
    exact hsel v
  · intro debug tv htv
    have hfin : ∀ a ∈ t, a.Finite := by
      intro a ha
      clear hsel
      induction htv with
      | nil => simp at ha
      | cons h _ ih =>
        rcases List.mem_cons.mp ha with rfl | ha
        · exact Is.finite h
        · exact ih ha
    have e := squareIeee_release hP hp hr ht hd h0 h1 t
    have e' : squareIeee debug P t duty = squareIeee false P t duty := by
      cases debug with
      | false => rfl
      | true => exact (squareIeee_debug hP hp hr ht hd h0 h1 t).1 hfin
    refine ⟨_, _, e'.trans e, squareFl_ok f.r p hp hr tv d h0 h1, ?_⟩
    clear hfin e e'
    induction htv with
    | nil => exact .nil
    | cons h _ ih =>
      obtain ⟨s, rfl⟩ := h
      exact .cons (hsel _) ih

end

/-- **C125** for `f64` and its constant `2π`; the constant meets the hypotheses. -/
theorem C125_f64 (debug : Bool) (t : List (Ieee f64)) (duty : Ieee f64) :
    Panics (squareIeee debug (.fin twoPi64 false) t duty) ↔
      (¬ ∃ d, Is duty d ∧ 0 ≤ d ∧ d ≤ 1) ∨ (debug = true ∧ ∃ a ∈ t, ¬ a.Finite) := by
  obtain ⟨a, b⟩ := twoPi64_bounds
  have h := C125_panics (f := f64) (P := .fin twoPi64 false) ⟨false, rfl⟩ (by linarith) twoPi64_rnd (by
    have : (7 : ℝ) ≤ (2 ^ 53 - 1) * 2 ^ 971 := by
      have h1 : (1 : ℝ) ≤ 2 ^ 971 := one_le_pow₀ (by norm_num)
      obtain ⟨B, hB⟩ : ∃ B : ℝ, B = 2 ^ 971 := ⟨_, rfl⟩
      rw [← hB] at h1 ⊢
      clear hB
      norm_num
      linarith
    exact b.le.trans this) t duty
  cases debug
  · simpa using h.1
  · simpa using h.2

/-- A NaN time: the debug build panics, the release build answers. -/
example : Panics (squareIeee true (.fin twoPi64 false) [.fin 1 false, .nan] (1 : Ieee f64)) ∧
    ¬ Panics (squareIeee false (.fin twoPi64 false) [.fin 1 false, .nan] (1 : Ieee f64)) := by
  rw [C125_f64, C125_f64]
  refine ⟨.inr ⟨rfl, .nan, by simp, by rintro ⟨v, s, h⟩; cases h⟩, ?_⟩
  simp only [Bool.false_eq_true, false_and, or_false, not_not]
  exact ⟨1, is_one, by norm_num, le_rfl⟩

end SciRs.Props

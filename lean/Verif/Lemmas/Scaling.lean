import Verif.Spec.Scaling
import Verif.Lemmas.Sosfilt
import Verif.Props.Sosfiltfilt

/-! # Lemmas for C114: rounding with unbounded exponents, and relations that filters respect -/

namespace SciRs.Spec.Binary

variable (p : ℕ)

/-- Without underflow the least exponent does not matter. -/
theorem rnd_eq_unbounded {e : ℤ} {x : ℝ} (h : e ≤ Int.log 2 |x| + 1 - p) : rnd p e x = rndUnbounded p x := by
  unfold rndUnbounded rnd lastPlace
  rw [max_eq_left h, max_self]

theorem rndUnbounded_zero : rndUnbounded p 0 = 0 := rnd_zero p _

theorem rndUnbounded_err (x : ℝ) : |rndUnbounded p x - x| ≤ (2 : ℝ) ^ (-(p : ℤ)) * |x| + 0 := by
  rw [add_zero]
  refine le_of_forall_pos_le_add fun ε hε => ?_
  obtain ⟨n, hn⟩ := exists_pow_lt_of_lt_one hε (by norm_num : (1 / 2 : ℝ) < 1)
  have h := rnd_err p (min (Int.log 2 |x| + 1 - p) (1 - n)) x
  rw [rnd_eq_unbounded p (min_le_left _ _)] at h
  refine h.trans (add_le_add_right ?_ _)
  refine le_trans (zpow_le_zpow_right₀ (by norm_num) (by omega : _ ≤ (-n : ℤ))) ?_
  rw [zpow_neg, zpow_natCast, ← inv_pow]
  rw [one_div] at hn
  exact hn.le

theorem rndUnbounded_mono (hp : 1 ≤ p) (x y : ℝ) (h : x ≤ y) : rndUnbounded p x ≤ rndUnbounded p y := by
  rw [← rnd_eq_unbounded p (min_le_left (Int.log 2 |x| + 1 - (p : ℤ)) (Int.log 2 |y| + 1 - (p : ℤ))),
    ← rnd_eq_unbounded p (min_le_right (Int.log 2 |x| + 1 - (p : ℤ)) (Int.log 2 |y| + 1 - (p : ℤ)))]
  exact rnd_mono p _ hp x y h

theorem log_two_mul {x : ℝ} (hx : 0 < x) (k : ℤ) : Int.log 2 ((2 : ℝ) ^ k * x) = k + Int.log 2 x := by
  have h2 : (0 : ℝ) < 2 ^ k := by positivity
  refine le_antisymm ?_ ?_
  · have := (Int.lt_zpow_iff_log_lt (R := ℝ) (b := 2) (by norm_num) (x := k + Int.log 2 x + 1) (mul_pos h2 hx)).mp (by
      have := Int.lt_zpow_succ_log_self (R := ℝ) (b := 2) (by norm_num) x
      rw [add_assoc, zpow_add₀ (by norm_num)]
      push_cast at this ⊢
      exact mul_lt_mul_of_pos_left this h2)
    omega
  · refine (Int.zpow_le_iff_le_log (R := ℝ) (b := 2) (by norm_num) (mul_pos h2 hx)).mp ?_
    have := Int.zpow_log_le_self (R := ℝ) (b := 2) (by norm_num) hx
    rw [zpow_add₀ (by norm_num)]
    push_cast at this ⊢
    exact mul_le_mul_of_nonneg_left this h2.le

theorem rndUnbounded_mul (k : ℤ) (x : ℝ) : rndUnbounded p ((2 : ℝ) ^ k * x) = 2 ^ k * rndUnbounded p x := by
  by_cases h0 : x = 0
  · subst h0
    rw [mul_zero, rndUnbounded_zero, mul_zero]
  have h2 : (0 : ℝ) < 2 ^ k := by positivity
  unfold rndUnbounded rnd lastPlace
  rw [abs_mul, abs_of_pos h2, log_two_mul (abs_pos.mpr h0), max_self, max_self,
    show k + Int.log 2 |x| + 1 - (p : ℤ) = k + (Int.log 2 |x| + 1 - p) by ring, zpow_add₀ (by norm_num),
    mul_div_mul_left _ _ h2.ne']
  ring

theorem rndUnbounded_neg (x : ℝ) : rndUnbounded p (-x) = -rndUnbounded p x := by
  unfold rndUnbounded
  rw [abs_neg, rnd_neg]

/-- Rounding to `p` bits with unbounded exponents. -/
noncomputable def unbounded (hp : 1 ≤ p) : Rounding where
  u := 2 ^ (-(p : ℤ))
  t := 0
  rnd := rndUnbounded p
  u_nonneg := by positivity
  t_nonneg := le_rfl
  err := rndUnbounded_err p
  mono := rndUnbounded_mono p hp
  zero := rndUnbounded_zero p

end SciRs.Spec.Binary

namespace SciRs.Props

open SciRs SciRs.Spec

section relation

variable {F : Type} [Add F] [Sub F] [Mul F]

/-- A relation between numbers that the operations of a filter with fixed coefficients respect. -/
structure Respects (R : F → F → Prop) : Prop where
  add : ∀ {a a' b b'}, R a a' → R b b' → R (a + b) (a' + b')
  sub : ∀ {a a' b b'}, R a a' → R b b' → R (a - b) (a' - b')
  mul : ∀ k {a a'}, R a a' → R (k * a) (k * a')

/-- Same coefficients, related delays. -/
def RelSection (R : F → F → Prop) (s s' : Sos F) : Prop :=
  s.b0 = s'.b0 ∧ s.b1 = s'.b1 ∧ s.b2 = s'.b2 ∧ s.a0 = s'.a0 ∧ s.a1 = s'.a1 ∧ s.a2 = s'.a2 ∧ R s.zi0 s'.zi0 ∧
    R s.zi1 s'.zi1

variable {R : F → F → Prop}

theorem Respects.tdf2 (h : Respects R) (b0 b1 b2 a1 a2 : F) {x x' : List F} (hx : List.Forall₂ R x x') :
    ∀ {z0 z0' z1 z1' : F}, R z0 z0' → R z1 z1' →
      List.Forall₂ R (tdf2 b0 b1 b2 a1 a2 z0 z1 x).1 (tdf2 b0 b1 b2 a1 a2 z0' z1' x').1 ∧
      R (tdf2 b0 b1 b2 a1 a2 z0 z1 x).2.1 (tdf2 b0 b1 b2 a1 a2 z0' z1' x').2.1 ∧
      R (tdf2 b0 b1 b2 a1 a2 z0 z1 x).2.2 (tdf2 b0 b1 b2 a1 a2 z0' z1' x').2.2 := by
  induction hx with
  | nil => intro z0 z0' z1 z1' h0 h1; exact ⟨.nil, h0, h1⟩
  | cons hv _ ih =>
    intro z0 z0' z1 z1' h0 h1
    have hy := h.add (h.mul b0 hv) h0
    obtain ⟨i1, i2⟩ := ih (h.add (h.sub (h.mul b1 hv) (h.mul a1 hy)) h1) (h.sub (h.mul b2 hv) (h.mul a2 hy))
    exact ⟨.cons hy i1, i2⟩

theorem Respects.cascade (h : Respects R) {sos sos' : List (Sos F)} (hs : List.Forall₂ (RelSection R) sos sos') :
    ∀ {x x' : List F}, List.Forall₂ R x x' →
      List.Forall₂ R (cascade sos x).1 (cascade sos' x').1 ∧
      List.Forall₂ (RelSection R) (cascade sos x).2 (cascade sos' x').2 := by
  induction hs with
  | nil => intro x x' hx; exact ⟨hx, .nil⟩
  | cons hv _ ih =>
    intro x x' hx
    obtain ⟨e0, e1, e2, e3, e4, e5, e6, e7⟩ := hv
    obtain ⟨i1, i2, i3⟩ := h.tdf2 _ _ _ _ _ hx e6 e7
    simp only [Spec.cascade]
    rw [← e0, ← e1, ← e2, ← e4, ← e5]
    obtain ⟨j1, j2⟩ := ih i1
    exact ⟨j1, .cons ⟨rfl, rfl, rfl, e3, rfl, rfl, i2, i3⟩ j2⟩

theorem Respects.sosfilt (h : Respects R) {sos sos' : List (Sos F)} (hs : List.Forall₂ (RelSection R) sos sos')
    {x x' : List F} (hx : List.Forall₂ R x x') :
    List.Forall₂ R (sosfiltDyn x sos).1 (sosfiltDyn x' sos').1 ∧
      List.Forall₂ (RelSection R) (sosfiltDyn x sos).2 (sosfiltDyn x' sos').2 := by
  rw [sosfiltDyn_eq, sosfiltDyn_eq, mapMut_item_eq_cascade, mapMut_item_eq_cascade]
  exact h.cascade hs hx

end relation

section filtfilt

variable {F : Type} [Zero F] [One F] [Add F] [Sub F] [Neg F] [Mul F] [Div F] [DecidableEq F] {R : F → F → Prop}

omit [One F] [Add F] [Sub F] [Neg F] [Mul F] [Div F] [DecidableEq F] in
theorem rel_getD (h0 : R 0 0) {x x' : List F} (hx : List.Forall₂ R x x') (i : ℕ) : R (x.getD i 0) (x'.getD i 0) := by
  induction hx generalizing i with
  | nil => simpa using h0
  | cons hv _ ih =>
    cases i with
    | zero => simpa using hv
    | succ i => simpa using ih i

omit [Neg F] [Div F] [DecidableEq F] in
theorem Respects.ext (h : Respects R) (h0 : R 0 0) {x x' : List F} (hx : List.Forall₂ R x x') (n : ℕ) :
    List.Forall₂ R (extList x n) (extList x' n) := by
  unfold extList
  rw [← hx.length_eq]
  rw [List.forall₂_map_left_iff, List.forall₂_map_right_iff, List.forall₂_same]
  intro k _
  unfold oddExt
  split
  · exact h.sub (h.mul _ (rel_getD h0 hx _)) (rel_getD h0 hx _)
  · split
    · exact rel_getD h0 hx _
    · exact h.sub (h.mul _ (rel_getD h0 hx _)) (rel_getD h0 hx _)

omit [Zero F] [One F] [Neg F] [Div F] [DecidableEq F] [Add F] [Sub F] in
theorem rel_states (hm : ∀ k {a a'}, R a a' → R (k * a) (k * a')) {a a' : F} (ha : R a a') (sos : List (Sos F)) :
    List.Forall₂ (RelSection R) (scaleStates a sos) (scaleStates a' sos) := by
  unfold scaleStates
  rw [List.forall₂_map_left_iff, List.forall₂_map_right_iff, List.forall₂_same]
  intro s _
  exact ⟨rfl, rfl, rfl, rfl, rfl, rfl, hm _ ha, hm _ ha⟩

/-- Zero-phase filtering respects the relation. -/
theorem Respects.filtfilt (h : Respects R) (h0 : R 0 0) {sos : List (Sos F)} {x x' z : List F}
    (hx : List.Forall₂ R x x') (hz : sosfiltfiltDyn x sos = .ok z) :
    ∃ z', sosfiltfiltDyn x' sos = .ok z' ∧ List.Forall₂ R z z' := by
  have hp : ¬ Panics (sosfiltfiltDyn x sos) := by rw [hz]; simp
  rw [(C30_panics_iff x sos).1, not_or, not_le] at hp
  obtain ⟨hl, hd⟩ := hp
  obtain ⟨r, hr⟩ := (sosfiltZiLoop_total sos 1).2 hd
  rw [sosfiltfilt_ok x sos r hl hr] at hz
  cases hz
  refine ⟨_, sosfiltfilt_ok x' sos r (by rw [← hx.length_eq]; exact hl) hr, ?_⟩
  unfold ffOut
  dsimp only
  rw [← hx.length_eq]
  have he := h.ext h0 hx (3 * sosNtaps sos)
  have hf := (h.sosfilt (rel_states h.mul (rel_getD h0 he 0) r) he).1
  have hf' := List.rel_reverse hf
  have hg := (h.sosfilt (rel_states h.mul (rel_getD h0 hf' 0) r) hf').1
  exact List.rel_reverse (List.forall₂_take _ (List.forall₂_drop _ hg))

end filtfilt

end SciRs.Props

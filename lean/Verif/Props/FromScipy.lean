import Verif.Model.Sos
import Mathlib.Data.List.Basic
import Mathlib.Algebra.Group.Nat.Defs

/-!
# C53: `Sos::from_scipy_dyn`
-/

namespace SciRs.Props

open SciRs

variable {F : Type}

/-- A section written back as a row of six numbers. -/
def row (s : Sos F) : List F := [s.b0, s.b1, s.b2, s.a0, s.a1, s.a2]

theorem tuples6_length (n : ℕ) (l : List F) (h : l.length = 6 * n) : (tuples6 l).length = n := by
  induction n generalizing l with
  | zero => have : l = [] := List.length_eq_zero_iff.mp (by omega); subst this; rfl
  | succ n ih =>
    match l, h with
    | a :: b :: c :: d :: e :: f :: rest, h =>
      simp only [List.length_cons] at h
      simp [tuples6, ih rest (by omega)]

/-- A section from one group of six. -/
def mk6 [Zero F] (t : F × F × F × F × F × F) : Sos F :=
  Sos.new t.1 t.2.1 t.2.2.1 t.2.2.2.1 t.2.2.2.2.1 t.2.2.2.2.2

theorem tuples6_flatten [Zero F] (n : ℕ) (l : List F) (h : l.length = 6 * n) :
    (((tuples6 l).map mk6).map row).flatten = l := by
  induction n generalizing l with
  | zero => have : l = [] := List.length_eq_zero_iff.mp (by omega); subst this; rfl
  | succ n ih =>
    match l, h with
    | a :: b :: c :: d :: e :: f :: rest, h =>
      simp only [List.length_cons] at h
      have := ih rest (by omega)
      simp only [tuples6, List.map_cons, List.flatten_cons, this]
      rfl

/-- **C53** In a build with overflow checks `from_scipy_dyn` panics exactly when the number of values
is not `6 · order` (the number of values always fits a `usize`). -/
theorem C53_panics_iff [Zero F] (usizeMax order : ℕ) (data : List F) (h : data.length ≤ usizeMax) :
    Panics (fromScipyDyn usizeMax true order data) ↔ data.length ≠ 6 * order := by
  unfold fromScipyDyn
  by_cases h1 : order * 6 ≤ usizeMax
  · by_cases h2 : order * 6 = data.length
    · simp only [h1, if_true, ok_bind, check_true h2, pure, Except.pure, panics_ok, false_iff]
      omega
    · simp [h1, h2]; omega
  · simp [h1]; omega

example : Panics (fromScipyDyn (2 ^ 64 - 1) true 2 (List.replicate 11 (0 : ℕ))) :=
  (C53_panics_iff _ _ _ (by simp)).mpr (by simp)

/-- **C53** With `6 · order` values it returns `order` sections with zero delays whose rows, written
one after the other, are the given values: section `i` holds the entries `6i … 6i+5` in order
`b0 b1 b2 a0 a1 a2`. -/
theorem C53_rows [Zero F] (usizeMax order : ℕ) (checked : Bool) (data : List F)
    (h : data.length = 6 * order) (hfit : data.length ≤ usizeMax) :
    ∃ sos, fromScipyDyn usizeMax checked order data = .ok sos ∧ sos.length = order ∧
      (sos.map row).flatten = data ∧ ∀ s ∈ sos, s.zi0 = 0 ∧ s.zi1 = 0 := by
  have hl := tuples6_length order data h
  refine ⟨(tuples6 data).map mk6, ?_, by simpa using hl, tuples6_flatten order data h, ?_⟩
  · unfold fromScipyDyn
    have h1 : order * 6 ≤ usizeMax := by omega
    have h2 : order * 6 = data.length := by omega
    simp only [h1, if_true, ok_bind, check_true h2]
    rw [List.take_of_length_le (by omega)]
    rfl
  · intro s hs
    obtain ⟨t, _, rfl⟩ := List.mem_map.mp hs
    exact ⟨rfl, rfl⟩

example : (List.replicate 12 (1 : ℕ)).length = 6 * 2 ∧
    (List.replicate 12 (1 : ℕ)).length ≤ 2 ^ 64 - 1 := by decide

/-- **C53** Without overflow checks the length test can be fooled: on a 64-bit machine
`order = 2^63 + 2` with twelve values is accepted and returns two sections. -/
theorem C53_unchecked_wraps :
    ∃ sos : List (Sos ℕ), fromScipyDyn (2 ^ 64 - 1) false (2 ^ 63 + 2) (List.replicate 12 1) =
      .ok sos ∧ sos.length = 2 :=
  ⟨[Sos.new 1 1 1 1 1 1, Sos.new 1 1 1 1 1 1], by decide +kernel, rfl⟩

end SciRs.Props

/-!
# Panics as values

The Rust code signals failure by panicking.  In the model a function that can panic returns
`Except Err α`; the constructor records which kind of panic is reached.  `Err.ub` is not a panic:
it marks an unchecked (`unsafe`) memory access outside the allocation.
-/

namespace SciRs

/-- The ways in which a modelled call can fail. -/
inductive Err where
  /-- `assert!` failed -/
  | assert
  /-- `panic!("…")` -/
  | panic
  /-- `unreachable!()` was reached -/
  | unreachable
  /-- `unwrap`/`expect` on `None` -/
  | unwrap
  /-- checked indexing or slicing outside the bounds -/
  | index
  /-- arithmetic overflow in a build with overflow checks -/
  | overflow
  /-- integer division by zero -/
  | divZero
  /-- out-of-bounds access through `get_unchecked*` (undefined behaviour, not a panic) -/
  | ub
  deriving DecidableEq, Repr

/-- A modelled call. -/
abbrev Res (α : Type _) := Except Err α

/-- `assert!(c)`. -/
def check (c : Prop) [Decidable c] (e : Err := Err.assert) : Res Unit :=
  if c then .ok () else .error e

/-- The call ends in a panic (any kind that is not undefined behaviour). -/
def Panics {α : Type _} (r : Res α) : Prop := ∃ e, e ≠ Err.ub ∧ r = .error e

/-- The call returns normally. -/
def Returns {α : Type _} (r : Res α) : Prop := ∃ v, r = .ok v

@[simp] theorem check_true {c : Prop} [Decidable c] (h : c) (e : Err) : check c e = .ok () := by
  simp [check, h]

@[simp] theorem check_false {c : Prop} [Decidable c] (h : ¬ c) (e : Err) :
    check c e = .error e := by
  simp [check, h]

@[simp] theorem panics_ok {α : Type _} (v : α) : ¬ Panics (.ok v : Res α) := by
  rintro ⟨e, _, h⟩; cases h

@[simp] theorem panics_error {α : Type _} (e : Err) :
    Panics (.error e : Res α) ↔ e ≠ Err.ub := by
  constructor
  · rintro ⟨e', h, h'⟩; cases h'; exact h
  · intro h; exact ⟨e, h, rfl⟩

@[simp] theorem returns_ok {α : Type _} (v : α) : Returns (.ok v : Res α) := ⟨v, rfl⟩

@[simp] theorem returns_error {α : Type _} (e : Err) : ¬ Returns (.error e : Res α) := by
  rintro ⟨v, h⟩; cases h

@[simp] theorem ok_bind {α β : Type _} (v : α) (f : α → Res β) :
    ((.ok v : Res α) >>= f) = f v := rfl

@[simp] theorem error_bind {α β : Type _} (e : Err) (f : α → Res β) :
    ((.error e : Res α) >>= f) = .error e := rfl

end SciRs

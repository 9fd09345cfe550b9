import Mathlib.Data.Real.Sqrt

/-!
# Rounded arithmetic

The usual model of floating-point arithmetic without overflow: every operation returns the rounding of
the exact result, rounding is monotone, keeps zero, and has a relative error of at most `u` plus an
absolute error of at most `t` (the latter covers gradual underflow).  For `f64`, `u = 2⁻⁵³` and
`t = 2⁻¹⁰⁷⁵`; for `f32`, `u = 2⁻²⁴` and `t = 2⁻¹⁵⁰`.
-/

namespace SciRs.Spec

/-- A rounding of the real numbers. -/
structure Rounding where
  /-- the unit roundoff -/
  u : ℝ
  /-- the largest absolute error of an underflowing result -/
  t : ℝ
  /-- the rounding map -/
  rnd : ℝ → ℝ
  u_nonneg : 0 ≤ u
  t_nonneg : 0 ≤ t
  err : ∀ x, |rnd x - x| ≤ u * |x| + t
  mono : ∀ x y, x ≤ y → rnd x ≤ rnd y
  zero : rnd 0 = 0

/-- Numbers on which the arithmetic operations round; zero, one and the change of sign are exact. -/
structure Fl (r : Rounding) where
  /-- the number -/
  val : ℝ

namespace Fl

variable {r : Rounding}

noncomputable instance : Zero (Fl r) := ⟨⟨0⟩⟩
noncomputable instance : One (Fl r) := ⟨⟨1⟩⟩
noncomputable instance : Neg (Fl r) := ⟨fun a => ⟨-a.val⟩⟩
noncomputable instance : Add (Fl r) := ⟨fun a b => ⟨r.rnd (a.val + b.val)⟩⟩
noncomputable instance : Sub (Fl r) := ⟨fun a b => ⟨r.rnd (a.val - b.val)⟩⟩
noncomputable instance : Mul (Fl r) := ⟨fun a b => ⟨r.rnd (a.val * b.val)⟩⟩
noncomputable instance : Div (Fl r) := ⟨fun a b => ⟨r.rnd (a.val / b.val)⟩⟩
noncomputable instance : NatCast (Fl r) := ⟨fun n => ⟨r.rnd n⟩⟩
noncomputable instance : LinearOrder (Fl r) :=
  LinearOrder.lift' Fl.val (fun a b h => by cases a; cases b; simpa using h)

/-- The rounded square root. -/
noncomputable def sqrt (a : Fl r) : Fl r := ⟨r.rnd (Real.sqrt a.val)⟩

@[simp] theorem val_zero : (0 : Fl r).val = 0 := rfl
@[simp] theorem val_one : (1 : Fl r).val = 1 := rfl
@[simp] theorem val_neg (a : Fl r) : (-a).val = -a.val := rfl
@[simp] theorem val_add (a b : Fl r) : (a + b).val = r.rnd (a.val + b.val) := rfl
@[simp] theorem val_sub (a b : Fl r) : (a - b).val = r.rnd (a.val - b.val) := rfl
@[simp] theorem val_mul (a b : Fl r) : (a * b).val = r.rnd (a.val * b.val) := rfl
@[simp] theorem val_div (a b : Fl r) : (a / b).val = r.rnd (a.val / b.val) := rfl
@[simp] theorem val_natCast (n : ℕ) : (n : Fl r).val = r.rnd n := rfl
@[simp] theorem val_ofNat (n : ℕ) [n.AtLeastTwo] :
    (OfNat.ofNat n : Fl r).val = r.rnd (n : ℕ) := rfl
@[simp] theorem val_sqrt (a : Fl r) : (sqrt a).val = r.rnd (Real.sqrt a.val) := rfl

theorem le_iff (a b : Fl r) : a ≤ b ↔ a.val ≤ b.val := Iff.rfl

end Fl

end SciRs.Spec

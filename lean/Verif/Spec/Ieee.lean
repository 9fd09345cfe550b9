import Verif.Spec.BinaryRounding
import Mathlib.Data.EReal.Basic

/-!
# IEEE 754 numbers with infinities and NaN

The carrier `Ieee f` has the special values and the overflow rule of IEEE 754: an operation on finite numbers
returns the rounding of the exact result, or an infinity if that exceeds the largest finite number.  Zeros carry a
sign, which only matters for the sign of an infinite quotient.  Comparisons with NaN are false.  The payload of a NaN
is not modelled.
-/

namespace SciRs.Spec

/-- A floating-point format: a rounding and the largest finite number. -/
structure Format where
  /-- rounding with unbounded exponents -/
  r : Rounding
  /-- the largest finite number -/
  top : ℝ

/-- `f64`: the largest finite number is `(2 - 2⁻⁵²)·2¹⁰²³`. -/
noncomputable def f64 : Format := ⟨binary64, (2 ^ 53 - 1) * 2 ^ 971⟩

/-- `f32`: the largest finite number is `(2 - 2⁻²³)·2¹²⁷`. -/
noncomputable def f32 : Format := ⟨binary32, (2 ^ 24 - 1) * 2 ^ 104⟩

/-- A floating-point datum.  `neg` is the sign bit; of a finite number other than zero the sign is that of its
value. -/
inductive Ieee (f : Format) where
  | nan
  | inf (neg : Bool)
  | fin (val : ℝ) (neg : Bool)

namespace Ieee

variable {f : Format}

/-- Neither an infinity nor NaN. -/
def Finite (a : Ieee f) : Prop := ∃ v s, a = fin v s

/-- A real number as a datum (zero gets a positive sign). -/
noncomputable def ofReal (f : Format) (v : ℝ) : Ieee f := fin v (decide (v < 0))

open Classical in
/-- The sign bit. -/
noncomputable def sign : Ieee f → Bool
  | nan => false
  | inf s => s
  | fin v s => if v = 0 then s else decide (v < 0)

open Classical in
/-- The result of an operation with exact value `x`; `s` is the sign of an exact zero. -/
noncomputable def pack (f : Format) (x : ℝ) (s : Bool) : Ieee f :=
  if f.top < |f.r.rnd x| then inf (decide (x < 0))
  else fin (f.r.rnd x) (if x = 0 then s else decide (x < 0))

/-- Negation flips the sign bit. -/
noncomputable def negate : Ieee f → Ieee f
  | nan => nan
  | inf s => inf (!s)
  | fin v s => fin (-v) (!s)

/-- The absolute value clears the sign bit. -/
noncomputable def abs : Ieee f → Ieee f
  | nan => nan
  | inf _ => inf false
  | fin v _ => fin |v| false

noncomputable def add : Ieee f → Ieee f → Ieee f
  | nan, _ => nan
  | _, nan => nan
  | inf s, inf t => if s = t then inf s else nan
  | inf s, fin _ _ => inf s
  | fin _ _, inf t => inf t
  | fin v s, fin w t => pack f (v + w) (s && t)

open Classical in
noncomputable def mul : Ieee f → Ieee f → Ieee f
  | nan, _ => nan
  | _, nan => nan
  | inf s, inf t => inf (s != t)
  | inf s, fin w t => if w = 0 then nan else inf (s != (fin w t : Ieee f).sign)
  | fin v s, inf t => if v = 0 then nan else inf ((fin v s : Ieee f).sign != t)
  | fin v s, fin w t => pack f (v * w) ((fin v s : Ieee f).sign != (fin w t : Ieee f).sign)

open Classical in
noncomputable def div : Ieee f → Ieee f → Ieee f
  | nan, _ => nan
  | _, nan => nan
  | inf _, inf _ => nan
  | inf s, fin w t => inf (s != (fin w t : Ieee f).sign)
  | fin v s, inf t => fin 0 ((fin v s : Ieee f).sign != t)
  | fin v s, fin w t =>
    if w = 0 then if v = 0 then nan else inf ((fin v s : Ieee f).sign != t)
    else pack f (v / w) ((fin v s : Ieee f).sign != (fin w t : Ieee f).sign)

open Classical in
/-- The correctly rounded square root. -/
noncomputable def sqrt : Ieee f → Ieee f
  | nan => nan
  | inf s => if s then nan else inf false
  | fin v s => if v < 0 then nan else if v = 0 then fin 0 s else pack f (Real.sqrt v) false

/-- The extended real number an operand stands for in comparisons. -/
noncomputable def toE : Ieee f → Option EReal
  | nan => none
  | inf s => some (if s then ⊥ else ⊤)
  | fin v _ => some (v : EReal)

noncomputable instance : Zero (Ieee f) := ⟨fin 0 false⟩
noncomputable instance : One (Ieee f) := ⟨fin 1 false⟩
noncomputable instance : Add (Ieee f) := ⟨add⟩
noncomputable instance : Neg (Ieee f) := ⟨negate⟩
noncomputable instance : Sub (Ieee f) := ⟨fun a b => add a (negate b)⟩
noncomputable instance : Mul (Ieee f) := ⟨mul⟩
noncomputable instance : Div (Ieee f) := ⟨div⟩
noncomputable instance : NatCast (Ieee f) := ⟨fun n => pack f n false⟩
instance : LT (Ieee f) := ⟨fun a b => ∃ x y, a.toE = some x ∧ b.toE = some y ∧ x < y⟩
instance : LE (Ieee f) := ⟨fun a b => ∃ x y, a.toE = some x ∧ b.toE = some y ∧ x ≤ y⟩
noncomputable instance : DecidableLT (Ieee f) := fun _ _ => Classical.propDecidable _
noncomputable instance : DecidableLE (Ieee f) := fun _ _ => Classical.propDecidable _

end Ieee

end SciRs.Spec

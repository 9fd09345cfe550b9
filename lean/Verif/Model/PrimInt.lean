import Verif.Basic
import Mathlib.Algebra.Group.Int.Defs
import Mathlib.Algebra.Order.Group.Int

/-!
# Rust's primitive integers and machine configuration

A value of an integer type is an `Int` in the range of the type.  Arithmetic that leaves the range
panics in a build with overflow checks and wraps otherwise.  All twelve types of the two `impl` macros
are instances of `IntTy`: `usize`/`isize` are those whose width is the pointer width.
-/

namespace SciRs

/-- A primitive integer type: `u8` … `u128`, `i8` … `i128`.  The types of the instances of `factorial.rs:140` and
`combinatorics.rs:122`. -/
structure IntTy where
  bits : Nat
  signed : Bool
  h8 : 8 ≤ bits
  h128 : bits ≤ 128

/-- Largest value.  For the instances of `factorial.rs:140` and `combinatorics.rs:122`. -/
def IntTy.hi (t : IntTy) : Int := if t.signed then 2 ^ (t.bits - 1) - 1 else 2 ^ t.bits - 1

/-- Smallest value.  For the instances of `factorial.rs:140` and `combinatorics.rs:122`. -/
def IntTy.lo (t : IntTy) : Int := if t.signed then -2 ^ (t.bits - 1) else 0

/-- `v` is a value of the type.  For the instances of `factorial.rs:140` and `combinatorics.rs:122`. -/
def IntTy.In (t : IntTy) (v : Int) : Prop := t.lo ≤ v ∧ v ≤ t.hi

/-- Whether `v` is a value of the type can be decided (types of `factorial.rs:140`). -/
instance (t : IntTy) (v : Int) : Decidable (t.In v) := inferInstanceAs (Decidable (_ ∧ _))

/-- Two's complement wrap-around.  For the arithmetic of the instances of `factorial.rs:140` and
`combinatorics.rs:122` without overflow checks. -/
def IntTy.wrap (t : IntTy) (v : Int) : Int :=
  if t.signed then (v + 2 ^ (t.bits - 1)) % 2 ^ t.bits - 2 ^ (t.bits - 1) else v % 2 ^ t.bits

/-- Build and target: pointer width and whether overflow checks are on.  For the instances of `factorial.rs:140`
and `combinatorics.rs:122`; the code itself does not depend on it. -/
structure Cfg where
  ptrBits : Nat
  checked : Bool
  h16 : 16 ≤ ptrBits

/-- `usize::MAX`.  For `factorial.rs:273-276` and `combinatorics.rs:132, 156-157`. -/
def Cfg.usizeMax (c : Cfg) : Int := 2 ^ c.ptrBits - 1

/-- Deliver the result `v` of an arithmetic operation of type `t`.  For the arithmetic of `factorial.rs:163-288`
and `combinatorics.rs:124-183`. -/
def Cfg.norm (c : Cfg) (t : IntTy) (v : Int) : Res Int :=
  if t.In v then .ok v else if c.checked then .error Err.overflow else .ok (t.wrap v)

/-- `a + b`.  Used in `factorial.rs:189, 285` and `combinatorics.rs:131-157`. -/
def Cfg.add (c : Cfg) (t : IntTy) (a b : Int) : Res Int := c.norm t (a + b)
/-- `a - b`.  Used in `factorial.rs:250` and `combinatorics.rs:132-182`. -/
def Cfg.sub (c : Cfg) (t : IntTy) (a b : Int) : Res Int := c.norm t (a - b)
/-- `a * b`.  Used in `factorial.rs:175, 192, 195, 250, 278, 284` and `combinatorics.rs:134, 159, 182`. -/
def Cfg.mul (c : Cfg) (t : IntTy) (a b : Int) : Res Int := c.norm t (a * b)
/-- `a / b`: truncated; panics for `b = 0` and for `MIN / -1` in every build.  Used in `factorial.rs:250` and
`combinatorics.rs:134`. -/
def Cfg.div (_ : Cfg) (t : IntTy) (a b : Int) : Res Int :=
  if b = 0 then .error Err.divZero
  else if t.In (a.tdiv b) then .ok (a.tdiv b) else .error Err.overflow

/-- `x.to_usize().unwrap()`.  Used in `factorial.rs:171, 186, 273-274` and `combinatorics.rs:132, 156-157`. -/
def Cfg.toUsize (c : Cfg) (v : Int) : Res Nat :=
  if 0 ≤ v ∧ v ≤ c.usizeMax then .ok v.toNat else .error Err.unwrap

/-- `Int::from_usize(n).unwrap()` and `Int::from_u128(n).unwrap()`.  Used in `factorial.rs:170-195, 277` and
`combinatorics.rs:134, 159`. -/
def IntTy.fromNat (t : IntTy) (n : Nat) : Res Int :=
  if (n : Int) ≤ t.hi then .ok n else .error Err.unwrap

/-- `a + b` on `usize`.  Used in `factorial.rs:276`. -/
def Cfg.usizeAdd (c : Cfg) (a b : Nat) : Res Nat :=
  if ((a + b : Nat) : Int) ≤ c.usizeMax then .ok (a + b)
  else if c.checked then .error Err.overflow else .ok ((a + b) % 2 ^ c.ptrBits)

/-! ### Loops that may not end

A call that contains a `while` loop or recursion gets a step budget; `Run.more` means that the budget
was used up.  -/

/-- Outcome of a call with a step budget.  Used for the loop `factorial.rs:283-286` and the recursion
`combinatorics.rs:182`. -/
inductive Run (α : Type) where
  | ret (v : α)
  | err (e : Err)
  | more
  deriving DecidableEq, Repr

namespace Run
variable {α β : Type}

/-- Sequencing.  Used for `factorial.rs:283-286` and `combinatorics.rs:182`. -/
def bind (r : Run α) (f : α → Run β) : Run β :=
  match r with
  | .ret v => f v
  | .err e => .err e
  | .more => .more

/-- Sequencing and equations of budgeted calls (`factorial.rs:283-286`, `combinatorics.rs:182`). -/
instance : Monad Run where
  pure := .ret
  bind := bind

/-- An ordinary call inside a budgeted one.  Used for `factorial.rs:284-285` and `combinatorics.rs:182`. -/
def lift : Res α → Run α
  | .ok v => .ret v
  | .error e => .err e

/-- Sequencing and equations of budgeted calls (`factorial.rs:283-286`, `combinatorics.rs:182`). -/
instance : MonadLift (Except Err) Run where
  monadLift := lift

@[simp] theorem ret_bind (v : α) (f : α → Run β) : (Run.ret v >>= f) = f v := rfl
@[simp] theorem err_bind (e : Err) (f : α → Run β) : (Run.err e >>= f) = Run.err e := rfl
@[simp] theorem more_bind (f : α → Run β) : ((Run.more : Run α) >>= f) = Run.more := rfl
@[simp] theorem pure_eq (v : α) : (pure v : Run α) = Run.ret v := rfl
@[simp] theorem lift_ok (v : α) : (liftM (m := Except Err) (n := Run) (.ok v)) = Run.ret v := rfl
@[simp] theorem lift_error (e : Err) :
    (liftM (m := Except Err) (n := Run) (.error e : Except Err α)) = Run.err e := rfl

end Run

/-- With a large enough budget the call ends with outcome `r`.  Used for `factorial.rs:265-288` and
`combinatorics.rs:163-183`. -/
def EndsWith {α : Type} (f : Nat → Run α) (r : Res α) : Prop :=
  ∃ n, ∀ fuel, n ≤ fuel → f fuel = Run.lift r

/-- The call returns `v`.  Used for `factorial.rs:265-288` and `combinatorics.rs:163-183`. -/
def RunReturns {α : Type} (f : Nat → Run α) (v : α) : Prop := EndsWith f (.ok v)

/-- The call panics.  Used for `factorial.rs:265-288` and `combinatorics.rs:163-183`. -/
def RunPanics {α : Type} (f : Nat → Run α) : Prop := ∃ e, e ≠ Err.ub ∧ EndsWith f (.error e)

/-- The call does not end, whatever the budget.  Used for `factorial.rs:265-288` and `combinatorics.rs:163-183`. -/
def Diverges {α : Type} (f : Nat → Run α) : Prop := ∀ fuel, f fuel = Run.more

end SciRs

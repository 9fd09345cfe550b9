import Verif.Model.BesselTables
import Mathlib.Analysis.SpecialFunctions.Exp
import Mathlib.Data.Real.Sqrt

/-!
# Model of `sci-rs/src/special/xsf/chbevl.rs`, `xsf/i0.rs` and `special/bessel.rs`
-/

namespace SciRs.Bessel

section
variable {F : Type} [Zero F] [Add F] [Sub F] [Mul F] [Div F] [OfNat F 2]

/-- The fold step of `chbevl` (xsf/chbevl.rs 24). -/
def chbStep (x : F) (acc : F × F × F) (e : F) : F × F × F :=
  (x * acc.1 - acc.2.1 + e, acc.1, acc.2.1)

/-- `chbevl` (xsf/chbevl.rs 8-28).  The accumulator starts with the first coefficient and the fold runs over
all coefficients, the first one included.  `unwrap_unchecked` on `first()` is reached for a non-empty slice
only. -/
def chbevl (x : F) (coef : List F) : F :=
  match coef with
  | [] => 0
  | c0 :: cs =>
    let b := (c0 :: cs).foldl (chbStep x) (c0, 0, 0)
    (b.1 - b.2.2) / 2

variable [LE F] [DecidableLE F] [OfNat F 8] [OfNat F 32]

/-- The primitives and tables used by one instance (`f64` or `f32`).  Used in `xsf/i0.rs:76-94, 167-185` and
`xsf/chbevl.rs:8-28`. -/
structure Env (F : Type) where
  abs : F → F
  exp : F → F
  sqrt : F → F
  tableA : List F
  tableB : List F

/-- `i0` (xsf/i0.rs 77-84 for `f64`, 168-175 for `f32`). -/
def i0 (env : Env F) (self : F) : F :=
  let x := env.abs self
  if x ≤ 8 then
    let y := x / 2 - 2
    env.exp x * chbevl y env.tableA
  else env.exp x * chbevl (32 / x - 2) env.tableB / env.sqrt x

/-- `i0e` (xsf/i0.rs 86-93 for `f64`, 177-184 for `f32`). -/
def i0e (env : Env F) (self : F) : F :=
  let x := env.abs self
  if x ≤ 8 then
    let y := x / 2 - 2
    chbevl y env.tableA
  else chbevl (32 / x - 2) env.tableB / env.sqrt x

/-- `i0` on `Vec<T>` (special/bessel.rs 34-36). -/
def i0Vec (env : Env F) (v : List F) : List F := v.map (i0 env)

/-- `i0e` on `Vec<T>` (special/bessel.rs 38-40). -/
def i0eVec (env : Env F) (v : List F) : List F := v.map (i0e env)

/-- `i0` on `ArrayD<T>` (special/bessel.rs 48-50): an array of a given shape is a function on its index
set. -/
def i0Array {ι : Type} (env : Env F) (a : ι → F) : ι → F := fun i => i0 env (a i)

/-- `i0e` on `ArrayD<T>` (special/bessel.rs 52-54). -/
def i0eArray {ι : Type} (env : Env F) (a : ι → F) : ι → F := fun i => i0e env (a i)

end

/-- The instance with exact real arithmetic.  Models the operations of `xsf/i0.rs:76-94` and `xsf/chbevl.rs:8-28`
without rounding. -/
noncomputable def realEnv : Env ℝ where
  abs := fun x => |x|
  exp := Real.exp
  sqrt := Real.sqrt
  tableA := tableA
  tableB := tableB

end SciRs.Bessel

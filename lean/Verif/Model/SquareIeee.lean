import Verif.Model.Square
import Verif.Spec.Ieee

/-!
# Model of `sci-rs/src/signal/wave/mod.rs` on IEEE 754 numbers

Overflow, infinities and NaN; builds with and without debug assertions.  `P` is the constant `F::two_pi()`.
-/

namespace SciRs.Wave

open SciRs.Spec SciRs.Spec.Ieee

open Classical in
/-- The remainder `%` of IEEE 754 numbers (C's `fmod`, which `F: RealField` inherits from the primitive types):
exact on finite numbers, with the sign of the dividend; NaN for an infinite dividend and for divisor zero.  Used in
`wave/mod.rs:61`. -/
noncomputable def rem {f : Format} : Ieee f → Ieee f → Ieee f
  | .nan, _ => .nan
  | _, .nan => .nan
  | .inf _, _ => .nan
  | .fin v s, .inf _ => .fin v s
  | .fin v s, .fin w _ => if w = 0 then .nan else .fin (fmod v w) s

/-- The closure of `square` (wave/mod.rs 60-70); its `debug_assert!` is evaluated in a build with debug assertions. -/
noncomputable def squareIeeeAt {f : Format} (debug : Bool) (P dutyThreshold t : Ieee f) : Res (Ieee f) := do
  let x := rem t P
  let x := if x < 0 then x + P else x
  check (debug = false ∨ 0 ≤ x ∧ x ≤ P)
  return if x < dutyThreshold then 1 else -1

/-- `square` (wave/mod.rs 52-71).  The array is the list of its elements in memory order; `mapv` (ndarray) gives the
result the same shape, and the first failing element aborts. -/
noncomputable def squareIeee {f : Format} (debug : Bool) (P : Ieee f) (t : List (Ieee f)) (duty : Ieee f) :
    Res (List (Ieee f)) := do
  check (0 ≤ duty ∧ duty ≤ 1)
  let dutyThreshold := P * duty
  t.mapM (squareIeeeAt debug P dutyThreshold)

end SciRs.Wave

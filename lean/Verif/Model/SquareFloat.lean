import Verif.Model.Square
import Verif.Spec.BinaryRounding

/-!
# Model of `sci-rs/src/signal/wave/mod.rs` in rounded arithmetic

Numbers are reals; the sum `x + two_pi` and the product `two_pi * duty` are rounded.  The remainder `%` is
exact, as IEEE 754 prescribes.  `P` is the constant `F::two_pi()`.  Times are finite.
-/

namespace SciRs.Wave

open SciRs.Spec

/-- The closure of `square` (wave/mod.rs 60-70), with its `debug_assert!` (which a release build omits). -/
noncomputable def squareFlAt (r : Rounding) (P dutyThreshold t : ℝ) : Res ℝ := do
  let x := fmod t P
  let x := if x < 0 then r.rnd (x + P) else x
  check (0 ≤ x ∧ x ≤ P)
  return if x < dutyThreshold then 1 else -1

/-- `square` (wave/mod.rs 52-71) in the arithmetic `r`. -/
noncomputable def squareFl (r : Rounding) (P : ℝ) (t : List ℝ) (duty : ℝ) : Res (List ℝ) := do
  check (0 ≤ duty ∧ duty ≤ 1)
  mapv (squareFlAt r P (r.rnd (P * duty))) t

/-- `f64::two_pi()`, 6.283185307179586 (bits `0x401921FB54442D18`).  Used in `wave/mod.rs:59, 61, 63`. -/
noncomputable def twoPi64 : ℝ := 7074237752028440 * 2 ^ (-50 : ℤ)

end SciRs.Wave

import Verif.Basic
import Mathlib.Analysis.SpecialFunctions.Trigonometric.Basic

/-! # Model of `sci-rs/src/signal/wave/mod.rs`, in exact real arithmetic -/

namespace SciRs.Wave

/-- Rust's `%` on floats (C's `fmod`): the remainder of the division truncated toward zero.  Used in
`wave/mod.rs:61`. -/
noncomputable def fmod (t m : ℝ) : ℝ :=
  t - m * (if 0 ≤ t / m then (⌊t / m⌋ : ℝ) else (⌈t / m⌉ : ℝ))

/-- The closure of `square` (wave/mod.rs 60-70), with its `debug_assert!` (which a release build omits). -/
noncomputable def squareAt (dutyThreshold t : ℝ) : Res ℝ := do
  let x := fmod t (2 * Real.pi)
  let x := if x < 0 then x + 2 * Real.pi else x
  check (0 ≤ x ∧ x ≤ 2 * Real.pi)
  return if x < dutyThreshold then 1 else -1

/-- Element-wise map over an array in memory order; the first failing element aborts.  Used in `wave/mod.rs:60`. -/
def mapv (f : ℝ → Res ℝ) : List ℝ → Res (List ℝ)
  | [] => .ok []
  | t :: ts => do
    let y ← f t
    let ys ← mapv f ts
    return y :: ys

/-- `square` (wave/mod.rs 52-71).  The array is the list of its elements in memory order; `mapv` gives the
result the same shape. -/
noncomputable def square (t : List ℝ) (duty : ℝ) : Res (List ℝ) := do
  check (0 ≤ duty ∧ duty ≤ 1)
  mapv (squareAt (2 * Real.pi * duty)) t

end SciRs.Wave

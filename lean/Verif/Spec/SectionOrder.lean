import Verif.Spec.Sections
import Mathlib.Analysis.Complex.Norm

/-!
# Specification of the order of second-order sections

The rule `scipy.signal.zpk2sos` documents: the poles closest to the unit circle go into the last section, with the
zeros closest to them, and so on backwards.
-/

namespace SciRs.Spec

/-- `p` is a pole of the section. -/
def IsPole (s : Sos ℝ) (p : ℂ) : Prop := coeffVal [s.a0, s.a1, s.a2] p = 0

/-- `z` is a zero of the section. -/
def IsZero (s : Sos ℝ) (z : ℂ) : Prop := coeffVal [s.b0, s.b1, s.b2] z = 0

/-- How far a pole is from instability: the distance from the unit circle of a digital filter, from the imaginary
axis of an analog one. -/
noncomputable def stabilityMargin (analog : Bool) (p : ℂ) : ℝ := if analog then |p.re| else |1 - ‖p‖|

/-- The section `s` has the poles `q, r` and the zeros `w, v`, chosen in preference to those of the sections
`before` it: `q` has the smallest margin; `r` completes `q` to a real polynomial, and is the real pole with the
smallest margin if `q` is real; `w` is the zero closest to `q`; `v` completes `w`, and is the real zero closest to
`q` if `w` is real. -/
structure Greedy (margin : ℂ → ℝ) (before : List (Sos ℝ)) (s : Sos ℝ) (q r w v : ℂ) : Prop where
  poles : ∀ x, coeffVal [s.a0, s.a1, s.a2] x = (x - q) * (x - r)
  zeros : ∃ c : ℂ, c ≠ 0 ∧ ∀ x, coeffVal [s.b0, s.b1, s.b2] x = c * ((x - w) * (x - v))
  worst : margin q ≤ margin r ∧ ∀ t ∈ before, ∀ p, IsPole t p → margin q ≤ margin p
  pole_pair : q.im ≠ 0 → r = (starRingEnd ℂ) q
  pole_real : q.im = 0 → r.im = 0 ∧ ∀ t ∈ before, ∀ p, IsPole t p → p.im = 0 → margin r ≤ margin p
  nearest : ‖w - q‖ ≤ ‖v - q‖ ∧ ∀ t ∈ before, ∀ z, IsZero t z → ‖w - q‖ ≤ ‖z - q‖
  zero_pair : w.im ≠ 0 → v = (starRingEnd ℂ) w
  zero_real : w.im = 0 → v.im = 0 ∧ ∀ t ∈ before, ∀ z, IsZero t z → z.im = 0 → ‖v - q‖ ≤ ‖z - q‖

end SciRs.Spec

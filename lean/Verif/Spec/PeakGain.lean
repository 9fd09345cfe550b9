import Verif.Model.Sosfilt
import Mathlib.Analysis.Complex.Norm

/-!
# Specification vocabulary: poles and zeros of sections
-/

namespace SciRs.Spec

/-- `z` is a pole of the cascade: a root of `z² + a1 z + a2` of some section. -/
def HasPole (sos : List (Sos ℝ)) (z : ℂ) : Prop := ∃ s ∈ sos, z ^ 2 + s.a1 * z + s.a2 = 0

/-- `z` is a zero of the cascade: a root of `b0 z² + b1 z + b2` of some section. -/
def HasZero (sos : List (Sos ℝ)) (z : ℂ) : Prop := ∃ s ∈ sos, s.b0 * z ^ 2 + s.b1 * z + s.b2 = 0

/-- Bounded input, bounded output: one bound for the outputs of all signals of size at most one. -/
def Bibo (sos : List (Sos ℝ)) : Prop :=
  ∃ K : ℝ, ∀ x : List ℝ, (∀ v ∈ x, |v| ≤ 1) → ∀ w ∈ (sosfiltDyn x sos).1, |w| ≤ K

end SciRs.Spec

import Verif.Model.Sos
import Mathlib.Data.Real.Basic
import Mathlib.Data.List.Forall2

/-!
# Specification vocabulary: two copies of a filter in nearby states
-/

namespace SciRs.Spec

/-- Two cascades with the same coefficients, section by section, whose delay values differ by at most `M`. -/
def StatesWithin (M : ℝ) (l l' : List (Sos ℝ)) : Prop :=
  List.Forall₂ (fun s t : Sos ℝ => (s.b0, s.b1, s.b2, s.a0, s.a1, s.a2) = (t.b0, t.b1, t.b2, t.a0, t.a1, t.a2) ∧
    |s.zi0 - t.zi0| ≤ M ∧ |s.zi1 - t.zi1| ≤ M) l l'

/-- Two signals of the same length that differ by at most `D`, and not at all at distance less than `r` of the
sample `i`. -/
structure AgreeNear (D : ℝ) (r i : ℕ) (x y : List ℝ) : Prop where
  length : x.length = y.length
  bound : ∀ j, |x.getD j 0 - y.getD j 0| ≤ D
  near : ∀ j, i < j + r → j < i + r → x.getD j 0 = y.getD j 0

end SciRs.Spec

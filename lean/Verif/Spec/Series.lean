import Mathlib.RingTheory.PowerSeries.Basic
import Verif.Model.Sos

/-!
# Specification vocabulary: signals and sections as formal power series in `z⁻¹`
-/

namespace SciRs.Spec

open PowerSeries

/-- A finite signal as a power series in `z⁻¹` (the indeterminate `X`), zero after its end. -/
noncomputable def signal {R : Type} [CommRing R] (x : List R) : PowerSeries R :=
  PowerSeries.mk fun n => x.getD n 0

/-- Numerator `b0 + b1 z⁻¹ + b2 z⁻²` of a section. -/
noncomputable def num {R : Type} [CommRing R] (s : Sos R) : PowerSeries R :=
  C s.b0 + C s.b1 * X + C s.b2 * X ^ 2

/-- Denominator `1 + a1 z⁻¹ + a2 z⁻²` of a section (the code assumes `a0 = 1` and never reads it). -/
noncomputable def den {R : Type} [CommRing R] (s : Sos R) : PowerSeries R :=
  1 + C s.a1 * X + C s.a2 * X ^ 2

/-- All delay values are zero. -/
def AtRest {R : Type} [Zero R] (sos : List (Sos R)) : Prop :=
  ∀ s ∈ sos, s.zi0 = 0 ∧ s.zi1 = 0

end SciRs.Spec

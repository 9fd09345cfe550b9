import Verif.Model.Sos
import Verif.Spec.Coeffs

/-!
# Specification of the transfer function of a list of second-order sections

Only the record `Sos` is taken from the model.
-/

namespace SciRs.Spec

/-- The product of the numerators `b0 x² + b1 x + b2`. -/
noncomputable def sosNum (sos : List (Sos ℝ)) (x : ℂ) : ℂ :=
  (sos.map (fun s => coeffVal [s.b0, s.b1, s.b2] x)).prod

/-- The product of the denominators `a0 x² + a1 x + a2`. -/
noncomputable def sosDen (sos : List (Sos ℝ)) (x : ℂ) : ℂ :=
  (sos.map (fun s => coeffVal [s.a0, s.a1, s.a2] x)).prod

end SciRs.Spec

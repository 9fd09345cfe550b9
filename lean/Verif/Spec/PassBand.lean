import Verif.Spec.DesignRequest

/-!
# Specification vocabulary: the pass band of a request

The angular frequency `ω` is in radians per sample, the edges are fractions of the Nyquist frequency `π`.
-/

namespace SciRs.Spec

open Design

/-- The frequencies that the request asks to pass, the edges included. -/
def InBand (band : Band) (e : List ℝ) (ω : ℝ) : Prop :=
  match band, e with
  | .lowpass, [W] => |ω| ≤ Real.pi * W
  | .highpass, [W] => Real.pi * W ≤ |ω|
  | .bandpass, [A, B] => Real.pi * A ≤ |ω| ∧ |ω| ≤ Real.pi * B
  | .bandstop, [A, B] => |ω| ≤ Real.pi * A ∨ Real.pi * B ≤ |ω|
  | _, _ => False

/-- The least power a family promises inside the pass band: half the power for Butterworth, `10^(-rp/10)` for
Chebyshev I with a ripple of `rp` decibels. -/
noncomputable def bandFloor (ftype : FType) (rp : Option ℝ) : ℝ :=
  match ftype with
  | .chebyshevI => 1 / (10 : ℝ) ^ (rp.getD 0 / 10)
  | _ => 1 / 2

end SciRs.Spec

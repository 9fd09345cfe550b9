import Verif.Spec.DesignRequest

/-!
# Specification vocabulary: reflecting the frequency axis

The frequency `f` (as a fraction of the Nyquist frequency) is reflected to `1 - f`.
-/

namespace SciRs.Spec

open Design

/-- Low-pass and high-pass are exchanged. -/
def mirrorBand : Band → Band
  | .lowpass => .highpass
  | .highpass => .lowpass
  | .bandpass => .bandpass
  | .bandstop => .bandstop

/-- The reflected edges, again in increasing order. -/
def mirrorEdges (e : List ℝ) : List ℝ := (e.map fun w => 1 - w).reverse

/-- Every second sample of a signal with its sign changed: `(-1)^n x_n`. -/
def alternate (x : List ℝ) : List ℝ := x.mapIdx fun n v => (-1) ^ n * v

end SciRs.Spec

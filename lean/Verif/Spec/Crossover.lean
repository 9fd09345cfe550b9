import Verif.Spec.DesignRequest
import Verif.Spec.Energy

/-!
# Specification vocabulary: splitting a signal into two bands
-/

namespace SciRs.Spec

open Design

/-- The band that the other filter of a crossover passes. -/
def complementBand : Band → Band
  | .lowpass => .highpass
  | .highpass => .lowpass
  | .bandpass => .bandstop
  | .bandstop => .bandpass

/-- The mix `x + c y` of two signals, sample by sample. -/
def mix (c : ℝ) (x y : List ℝ) : List ℝ := List.zipWith (fun u v => u + c * v) x y

/-- A signal followed by `k` samples of silence. -/
def padded (x : List ℝ) (k : ℕ) : List ℝ := x ++ List.replicate k 0

/-- `E k` is at most `e` for every `k`, and tends to `e`. -/
def IncreasesTo (E : ℕ → ℝ) (e : ℝ) : Prop := (∀ k, E k ≤ e) ∧ ∀ δ > 0, ∃ k0, ∀ k ≥ k0, e - δ ≤ E k

end SciRs.Spec

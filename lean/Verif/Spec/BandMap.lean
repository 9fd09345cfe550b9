import Verif.Model.Design.Iirfilter
import Mathlib.RingTheory.Polynomial.Chebyshev

/-!
# Specification of the frequency transformations of a low-pass prototype

Only the enumeration of bands is taken from the model.  The textbook substitutions, for a low-pass or
high-pass filter with cut-off `a` and for a band filter with edges `a < b`, and the response of the Chebyshev I filters.
-/

namespace SciRs.Spec

open Design

/-- The point of the prototype's plane that the point `s` is mapped to. -/
noncomputable def bandMap (band : Band) (e : List ℝ) (s : ℂ) : ℂ :=
  match band, e with
  | .lowpass, [a] => s / a
  | .highpass, [a] => a / s
  | .bandpass, [a, b] => (s ^ 2 + a * b) / ((b - a) * s)
  | .bandstop, [a, b] => (b - a) * s / (s ^ 2 + a * b)
  | _, _ => 0

/-- The points at which the substitution is defined. -/
def BandDefined (band : Band) (e : List ℝ) (s : ℂ) : Prop :=
  match band, e with
  | .lowpass, [_] => True
  | .highpass, [_] => s ≠ 0
  | .bandpass, [_, _] => s ≠ 0
  | .bandstop, [a, b] => s ^ 2 + (a : ℂ) * b ≠ 0
  | _, _ => False

/-- The power of a Chebyshev I filter with ripple `rp` decibels at the prototype frequency `v`:
`1 / (1 + ε² T_N(v)²)` with `ε² = 10^(rp/10) - 1`. -/
noncomputable def cheb1Power (N : ℕ) (rp v : ℝ) : ℝ :=
  1 / (1 + ((10 : ℝ) ^ (rp / 10) - 1) * ((Polynomial.Chebyshev.T ℝ N).eval v) ^ 2)

/-- The power of the two families as a function of the prototype's frequency: Butterworth `1/(1+v^(2N))`,
Chebyshev I `1/(1+(10^(rp/10)-1) T_N(v)²)`. -/
noncomputable def familyPower (ftype : FType) (N : ℕ) (rp : Option ℝ) (v : ℝ) : ℝ :=
  match ftype with
  | .chebyshevI => cheb1Power N (rp.getD 0) v
  | _ => 1 / (1 + v ^ (2 * N))

/-- The power of a digital filter at the angular frequency `ω` (radians per sample), from that of its prototype:
with `t = tan(ω/2)` and the pre-warped edges `tan(πW/2)`. -/
noncomputable def designPower (P : ℝ → ℝ) (band : Band) (e : List ℝ) (ω : ℝ) : ℝ :=
  match band, e.map (fun W => Real.tan (Real.pi * W / 2)) with
  | .lowpass, [T] => P (Real.tan (ω / 2) / T)
  | .highpass, [T] => if ω = 0 then 0 else P (T / Real.tan (ω / 2))
  | .bandpass, [a, b] => if ω = 0 then 0 else
      P ((Real.tan (ω / 2) ^ 2 - a * b) / (Real.tan (ω / 2) * (b - a)))
  | .bandstop, [a, b] => if Real.tan (ω / 2) ^ 2 = a * b then 0 else
      P (Real.tan (ω / 2) * (b - a) / (a * b - Real.tan (ω / 2) ^ 2))
  | _, _ => 0

end SciRs.Spec

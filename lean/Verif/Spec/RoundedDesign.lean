import Verif.Model.Rounded.Arith
import Verif.Spec.DesignRequest

/-!
# Specification of a design in floating-point arithmetic
-/

namespace SciRs.Rounded

open SciRs.Design SciRs.Spec

/-- The edges as fractions of the Nyquist frequency, as the arithmetic computes them. -/
def edges (A : Arith) (wn : List ℝ) (fs : Option ℝ) : List ℝ :=
  match fs with
  | none => wn
  | some fs => wn.map (fun w => A.div (A.mul 2 w) fs)

/-- A request that makes sense: the computed edges are positive, increasing and, for a digital filter, below the
Nyquist frequency; a sampling rate is given for digital filters only. -/
def Valid (A : Arith) (wn : List ℝ) (rp rs : Option ℝ) (band : Band) (ftype : FType) (analog : Bool)
    (fs : Option ℝ) : Prop :=
  ValidRequest (edges A wn fs) rp rs band ftype analog none ∧ (fs.isSome → analog = false)

/-- The designs whose transformations keep conjugate pairs: all Butterworth and Chebyshev I ones, and the
Chebyshev II low-pass and band-pass ones.  (The Chebyshev II high-pass and band-stop transformations are wrong,
see C44.) -/
def KeepsPairs (band : Band) (ftype : FType) : Prop :=
  ftype = .chebyshevII → band = .lowpass ∨ band = .bandpass

/-- The number of poles of a design. -/
def poleCount (order : ℕ) (band : Band) : ℕ :=
  if band = .lowpass ∨ band = .highpass then order else 2 * order

/-- A complex number that passes for real: the imaginary part is not zero, but at most `100 * epsilon` times the
real part (computed as the square root of the square). -/
def NearReal (A : Arith) (x : ℂ) : Prop :=
  x.im ≠ 0 ∧ |x.im| ≤ A.mul (A.mul A.eps 100) (A.csqrt (A.cmul x x)).re

end SciRs.Rounded

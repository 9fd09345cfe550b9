import Verif.Model.PrimInt
import Mathlib.Analysis.SpecialFunctions.Complex.Circle
import Mathlib.Algebra.BigOperators.Group.Finset.Basic

/-!
# Model of `sci-rs/src/signal/convolve.rs` and `sci-rs/src/signal/resample.rs`

The operations the code uses are fields of a structure, so that the same model runs in exact arithmetic
(`FftArith.exact`) and in rounded arithmetic (`Verif/Spec/RoundedFft.lean`).  `rustfft` is an external crate: in
exact arithmetic a planned transform of length `N` is taken to be the exact unnormalised discrete Fourier
transform of a buffer of length `N`, and its inverse the unnormalised inverse transform.
-/

namespace SciRs.Signal

open Complex

/-- `∑_j l_j ζ^{jk}` for `k` below the length: an unnormalised DFT with kernel `ζ`.  What the plans of
`convolve.rs:50-52, 62-63` and `resample.rs:31-32` compute. -/
noncomputable def dftWith (ζ : ℂ) (l : List ℂ) : List ℂ :=
  (List.range l.length).map (fun k => ∑ j ∈ Finset.range l.length, l.getD j 0 * ζ ^ (j * k))

/-- `plan_fft_forward(len).process(buf)` of `rustfft` for a buffer of that length.  Used in `convolve.rs:50-52` and
`resample.rs:31, 43`. -/
noncomputable def fft (l : List ℂ) : List ℂ := dftWith (exp (2 * Real.pi * I / l.length))⁻¹ l

/-- `plan_fft_inverse(len).process(buf)` of `rustfft` (not normalised).  Used in `convolve.rs:62-63` and
`resample.rs:32, 53`. -/
noncomputable def ifft (l : List ℂ) : List ℂ := dftWith (exp (2 * Real.pi * I / l.length)) l

/-- The operations of `F`, of `Complex<F>` and of the planned transforms.  Used in `convolve.rs:37-71` and
`resample.rs:38-57`. -/
structure FftArith where
  /-- `plan_fft_forward(len).process(buf)` -/
  fwd : List ℂ → List ℂ
  /-- `plan_fft_inverse(len).process(buf)` -/
  inv : List ℂ → List ℂ
  /-- `a * b` on `Complex<F>` -/
  cmul : ℂ → ℂ → ℂ
  /-- `a * b` on `F` -/
  mul : ℝ → ℝ → ℝ
  /-- `a / b` on `F` -/
  div : ℝ → ℝ → ℝ
  /-- `F::from(n).unwrap()` for a `usize` -/
  ofUsize : ℕ → ℝ
  /-- `F::from(1.0 / n as f64).unwrap()` -/
  invLen : ℕ → ℝ

/-- Exact arithmetic.  The operations of `convolve.rs:37-71` and `resample.rs:38-57` without rounding. -/
noncomputable def FftArith.exact : FftArith where
  fwd := fft
  inv := ifft
  cmul := fun a b => a * b
  mul := fun a b => a * b
  div := fun a b => a / b
  ofUsize := fun n => n
  invLen := fun n => 1 / (n : ℝ)

/-- `a - b` on `usize`.  Used in `convolve.rs:33, 78, 84`. -/
def usizeSubW (c : Cfg) (a b : ℕ) : Res ℕ :=
  if b ≤ a then .ok (a - b)
  else if c.checked then .error Err.overflow else .ok (a + 2 ^ c.ptrBits - b)

/-- The smallest power of two that is at least `n`.  Used for `convolve.rs:34`. -/
def pow2Above (n : ℕ) : ℕ := 2 ^ Nat.clog 2 n

/-- `usize::next_power_of_two`: panics on overflow with overflow checks, gives 0 otherwise.  Used in
`convolve.rs:34`. -/
def nextPowerOfTwo (c : Cfg) (n : ℕ) : Res ℕ :=
  if ((pow2Above n : ℕ) : ℤ) ≤ c.usizeMax then .ok (pow2Above n)
  else if c.checked then .error Err.overflow else .ok 0

/-- A slice expression `l[start..stop]`: panics if `start > stop` or `stop > len`.  Used in `convolve.rs:78, 86`.
-/
def slice {F : Type} (l : List F) (start stop : ℕ) : Res (List F) :=
  if start ≤ stop ∧ stop ≤ l.length then .ok ((l.drop start).take (stop - start))
  else .error Err.index

/-- `ConvolveMode` (convolve.rs 6-13). -/
inductive ConvolveMode where
  | full
  | valid
  | same
  deriving DecidableEq

/-- A zero buffer of length `size` into which the samples are copied (convolve.rs 37-46). -/
def padded (size : ℕ) (l : List ℝ) : List ℂ := (List.range size).map (fun i => ((l.getD i 0 : ℝ) : ℂ))

/-- The first part of `fftconvolve` (convolve.rs 37-71): everything before the extraction of the window. -/
def fullConvolutionIn (A : FftArith) (in1 in2 : List ℝ) (n fftSize : ℕ) : List ℝ :=
  let p1 := A.fwd (padded fftSize in1)
  let p2 := A.fwd (padded fftSize in2)
  let freq := (p1.zip p2).map (fun p => A.cmul p.1 p.2)
  let r := A.inv freq
  let size := A.ofUsize fftSize
  (r.take n).map (fun v => A.div v.re size)

/-- The match on the mode (convolve.rs 74-88). -/
def window (c : Cfg) (n1 n2 : ℕ) (full : List ℝ) : ConvolveMode → Res (List ℝ)
  | .full => .ok full
  | .valid =>
    if n1 ≥ n2 then do
      let start ← usizeSubW c n2 1
      slice full start n1
    else .ok []
  | .same => do
    let d ← usizeSubW c n2 1
    let start := d / 2
    let stop ← c.usizeAdd start n1
    slice full start stop

/-- `fftconvolve` (convolve.rs 29-89).  Running out of memory is not modelled. -/
def fftconvolveIn (A : FftArith) (c : Cfg) (in1 in2 : List ℝ) (mode : ConvolveMode) : Res (List ℝ) := do
  let s ← c.usizeAdd in1.length in2.length
  let n ← usizeSubW c s 1
  let fftSize ← nextPowerOfTwo c n
  window c in1.length in2.length (fullConvolutionIn A in1 in2 n fftSize) mode

/-- `convolve` (convolve.rs 100-102). -/
def convolveIn (A : FftArith) (c : Cfg) (in1 in2 : List ℝ) (mode : ConvolveMode) : Res (List ℝ) :=
  fftconvolveIn A c in1 in2 mode

/-- `correlate` (convolve.rs 116-121). -/
def correlateIn (A : FftArith) (c : Cfg) (in1 in2 : List ℝ) (mode : ConvolveMode) : Res (List ℝ) :=
  fftconvolveIn A c in1 in2.reverse mode

/-- `dst[start..stop].copy_from_slice(src)`: the bounds of the slice and the length of `src` are checked.  Used in
`resample.rs:49-50`. -/
def copyAt (dst : List ℂ) (start stop : ℕ) (src : List ℂ) : Res (List ℂ) :=
  if start ≤ stop ∧ stop ≤ dst.length then
    if stop - start = src.length then .ok (dst.take start ++ src ++ dst.drop stop)
    else .error Err.panic
  else .error Err.index

/-- `resample` (resample.rs 19-60).  For an empty input the scale is infinite; that case is excluded in the
theorems.  The scratch buffers have no effect on the result. -/
def resampleIn (A : FftArith) (x : List ℝ) (n : ℕ) : Res (List ℝ) := do
  let X := A.fwd (x.map (fun v : ℝ => (v : ℂ)))
  let y := List.replicate n (0 : ℂ)
  let bins := min X.length n
  let half := bins / 2
  let src1 ← slice X 0 half
  let y ← copyAt y 0 half src1
  if n < half ∨ X.length < half then .error Err.overflow
  else
    let src2 ← slice X (X.length - half) X.length
    let y ← copyAt y (n - half) n src2
    let y := A.inv y
    let scale : ℝ := A.invLen X.length
    return y.map (fun v => A.mul v.re scale)

/-! ### In exact arithmetic -/

/-- The full convolution in exact arithmetic (convolve.rs 37-71). -/
noncomputable def fullConvolution : List ℝ → List ℝ → ℕ → ℕ → List ℝ := fullConvolutionIn .exact

/-- `fftconvolve` (convolve.rs 29-89) in exact arithmetic. -/
noncomputable def fftconvolve : Cfg → List ℝ → List ℝ → ConvolveMode → Res (List ℝ) := fftconvolveIn .exact

/-- `convolve` (convolve.rs 100-102) in exact arithmetic. -/
noncomputable def convolve : Cfg → List ℝ → List ℝ → ConvolveMode → Res (List ℝ) := convolveIn .exact

/-- `correlate` (convolve.rs 116-121) in exact arithmetic. -/
noncomputable def correlate : Cfg → List ℝ → List ℝ → ConvolveMode → Res (List ℝ) := correlateIn .exact

/-- `resample` (resample.rs 19-60) in exact arithmetic. -/
noncomputable def resample : List ℝ → ℕ → Res (List ℝ) := resampleIn .exact

end SciRs.Signal

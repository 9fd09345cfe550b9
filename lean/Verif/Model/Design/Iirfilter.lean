import Verif.Model.Design.Prototype
import Verif.Model.Design.Zpk2sos
import Mathlib.Analysis.SpecialFunctions.Trigonometric.Basic

/-!
# Model of `iirfilter_dyn`, `butter_dyn`, `cheby1_dyn` and `cheby2_dyn`, in exact arithmetic

With `fs = Some(0)` the code divides by zero and then rejects an infinite edge; here the quotient is `0`,
which is rejected as well.  `2 * order` does not overflow for any order whose vectors fit in memory.
-/

namespace SciRs.Design

open Complex Classical

/-- `FilterBandType` (filter_type.rs 33-48). -/
inductive Band
  | lowpass
  | highpass
  | bandpass
  | bandstop
  deriving DecidableEq

/-- `FilterType` (filter_type.rs 2-18); the normalisation of the Bessel filter is never read. -/
inductive FType
  | butterworth
  | chebyshevI
  | chebyshevII
  | cauerElliptic
  | besselThomson
  deriving DecidableEq

/-- `FilterOutputType` (filter_output.rs 10-18). -/
inductive Output
  | ba
  | zpk
  | sos
  deriving DecidableEq

/-- `DigitalFilter` (filter_output.rs 54-61). -/
inductive Filter
  | ba (t : Ba)
  | zpk (f : Zpk)
  | sos (l : List (Sos ℝ))

/-- The analog prototype (iirfilter.rs 98-127); `todo!()` panics. -/
noncomputable def prototype (order : ℕ) (ftype : FType) (rp rs : Option ℝ) : Res Zpk :=
  match ftype with
  | .butterworth => .ok (buttap order)
  | .chebyshevI =>
    match rp with
    | none => .error Err.panic
    | some rp => .ok (cheb1ap order rp)
  | .chebyshevII =>
    match rp with
    | none => .error Err.panic
    | some _ =>
      match rs with
      | none => .error Err.unwrap
      | some rs => .ok (cheb2ap order rs)
  | .cauerElliptic => .error Err.panic
  | .besselThomson => .error Err.panic

/-- Division of the critical frequencies by the sampling rate (iirfilter.rs 68-76). -/
noncomputable def scaleEdges (wn : List ℝ) (analog : Bool) (fs : Option ℝ) : Res (List ℝ) :=
  match fs with
  | none => .ok wn
  | some fs => if analog = true then .error Err.panic else .ok (wn.map (fun wni => 2 * wni / fs))

/-- The checks on the arguments (iirfilter.rs 61-96); returns the critical frequencies after division by
the sampling rate. -/
noncomputable def validate (wn : List ℝ) (rp rs : Option ℝ) (analog : Bool) (fs : Option ℝ) :
    Res (List ℝ) := do
  check (¬ wn.length > 2) Err.panic
  let wn ← scaleEdges wn analog fs
  check (¬ ∃ wi ∈ wn, wi ≤ 0) Err.panic
  check (¬ (wn.length > 1 ∧ wn.getD 0 0 ≥ wn.getD 1 0)) Err.panic
  check (¬ ∃ r, rp = some r ∧ r < 0) Err.panic
  check (¬ ∃ r, rs = some r ∧ r < 0) Err.panic
  return wn

/-- The pre-warped frequencies (iirfilter.rs 129-149). -/
noncomputable def warp (wn : List ℝ) (analog : Bool) : Res (List ℝ) :=
  if analog = false then do
    check (¬ ∃ wi ∈ wn, wi ≤ 0 ∨ wi ≥ 1) Err.panic
    return wn.map (fun wni => 2 * 2 * Real.tan (Real.pi * wni / 2))
  else return wn

/-- The frequency transformation (iirfilter.rs 151-193). -/
noncomputable def bandTransform (btype : Band) (f : Zpk) (warped : List ℝ) : Res Zpk :=
  match btype, warped with
  | .lowpass, [w] => lp2lp f (some w)
  | .highpass, [w] => lp2hp f (some w)
  | .bandpass, [w0, w1] => lp2bp f (some (Real.sqrt (w0 * w1))) (some (w1 - w0))
  | .bandstop, [w0, w1] => lp2bs f (some (Real.sqrt (w0 * w1))) (some (w1 - w0))
  | _, _ => .error Err.panic

/-- The discrete equivalent of a digital filter (iirfilter.rs 195-200). -/
noncomputable def discretise (analog : Bool) (f : Zpk) : Res Zpk :=
  if analog = false then bilinear f 2 else .ok f

/-- The conversion to the requested format (iirfilter.rs 202-208). -/
noncomputable def convert (eps : ℝ) (s : Sorts) (order : ℕ) (analog : Bool) (output : Output) (f : Zpk) :
    Res Filter :=
  match output with
  | .zpk => .ok (.zpk f)
  | .ba => do
    let t ← zpk2tf (2 * order) f.z f.p f.k
    return .ba t
  | .sos => do
    let l ← zpk2sos eps s order f none (some analog)
    return .sos l

/-- `iirfilter_dyn` (iirfilter.rs 45-209).  `warped` has as many entries as `wn`, so the tests on
`wn.len()` are made on `warped`. -/
noncomputable def iirfilter (eps : ℝ) (s : Sorts) (order : ℕ) (wn : List ℝ) (rp rs : Option ℝ)
    (btype : Option Band) (ftype : Option FType) (analog : Option Bool) (output : Option Output)
    (fs : Option ℝ) : Res Filter := do
  let analog := analog.getD false
  let wn ← validate wn rp rs analog fs
  let f ← prototype order (ftype.getD .butterworth) rp rs
  let warped ← warp wn analog
  let f ← bandTransform (btype.getD .bandpass) f warped
  let f ← discretise analog f
  convert eps s order analog (output.getD .ba) f

/-- `butter_dyn` (butter.rs 20-45). -/
noncomputable def butter (eps : ℝ) (s : Sorts) (order : ℕ) (wn : List ℝ) (btype : Option Band)
    (analog : Option Bool) (output : Option Output) (fs : Option ℝ) : Res Filter :=
  iirfilter eps s order wn none none (some (btype.getD .lowpass)) (some .butterworth)
    (some (analog.getD false)) (some (output.getD .ba)) fs

/-- `cheby1_dyn` (iirfilter.rs 350-373). -/
noncomputable def cheby1 (eps : ℝ) (s : Sorts) (n : ℕ) (rp : ℝ) (wn : List ℝ) (btype : Option Band)
    (analog : Option Bool) (output : Option Output) (fs : Option ℝ) : Res Filter :=
  iirfilter eps s n wn (some rp) none btype (some .chebyshevI) analog output fs

/-- `cheby2_dyn` (iirfilter.rs 502-525). -/
noncomputable def cheby2 (eps : ℝ) (s : Sorts) (n : ℕ) (rs : ℝ) (wn : List ℝ) (btype : Option Band)
    (analog : Option Bool) (output : Option Output) (fs : Option ℝ) : Res Filter :=
  iirfilter eps s n wn none (some rs) btype (some .chebyshevII) analog output fs

end SciRs.Design

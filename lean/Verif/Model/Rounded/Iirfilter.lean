import Verif.Model.Rounded.Zpk
import Verif.Model.Rounded.Zpk2sos
import Verif.Model.Design.Iirfilter

/-!
# Model of `iirfilter_dyn`, `butter_dyn`, `cheby1_dyn` and `cheby2_dyn`, in any arithmetic
-/

namespace SciRs.Rounded

open Complex Classical SciRs.Design

variable (A : Arith)

/-- The analog prototype (iirfilter.rs 98-127); `todo!()` panics. -/
noncomputable def prototype (order : ℕ) (ftype : FType) (rp rs : Option ℝ) : Res Zpk :=
  match ftype with
  | .butterworth => .ok (buttap A order)
  | .chebyshevI =>
    match rp with
    | none => .error Err.panic
    | some rp => .ok (cheb1ap A order rp)
  | .chebyshevII =>
    match rp with
    | none => .error Err.panic
    | some _ =>
      match rs with
      | none => .error Err.unwrap
      | some rs => .ok (cheb2ap A order rs)
  | .cauerElliptic => .error Err.panic
  | .besselThomson => .error Err.panic

/-- Division of the critical frequencies by the sampling rate (iirfilter.rs 68-76). -/
def scaleEdges (wn : List ℝ) (analog : Bool) (fs : Option ℝ) : Res (List ℝ) :=
  match fs with
  | none => .ok wn
  | some fs => if analog = true then .error Err.panic else .ok (wn.map (fun wni => A.div (A.mul 2 wni) fs))

/-- The checks on the arguments (iirfilter.rs 61-96); returns the critical frequencies after division by
the sampling rate. -/
noncomputable def validate (wn : List ℝ) (rp rs : Option ℝ) (analog : Bool) (fs : Option ℝ) :
    Res (List ℝ) := do
  check (¬ wn.length > 2) Err.panic
  let wn ← scaleEdges A wn analog fs
  check (¬ ∃ wi ∈ wn, wi ≤ 0) Err.panic
  check (¬ (wn.length > 1 ∧ wn.getD 0 0 ≥ wn.getD 1 0)) Err.panic
  check (¬ ∃ r, rp = some r ∧ r < 0) Err.panic
  check (¬ ∃ r, rs = some r ∧ r < 0) Err.panic
  return wn

/-- The pre-warped frequencies (iirfilter.rs 129-149). -/
noncomputable def warp (wn : List ℝ) (analog : Bool) : Res (List ℝ) :=
  if analog = false then do
    check (¬ ∃ wi ∈ wn, wi ≤ 0 ∨ wi ≥ 1) Err.panic
    return wn.map (fun wni => A.mul (A.mul 2 2) (A.tan (A.div (A.mul A.pi wni) 2)))
  else return wn

/-- The frequency transformation (iirfilter.rs 151-193). -/
def bandTransform (btype : Band) (f : Zpk) (warped : List ℝ) : Res Zpk :=
  match btype, warped with
  | .lowpass, [w] => lp2lp A f (some w)
  | .highpass, [w] => lp2hp A f (some w)
  | .bandpass, [w0, w1] => lp2bp A f (some (A.sqrt (A.mul w0 w1))) (some (A.sub w1 w0))
  | .bandstop, [w0, w1] => lp2bs A f (some (A.sqrt (A.mul w0 w1))) (some (A.sub w1 w0))
  | _, _ => .error Err.panic

/-- The discrete equivalent of a digital filter (iirfilter.rs 195-200). -/
def discretise (analog : Bool) (f : Zpk) : Res Zpk :=
  if analog = false then bilinear A f 2 else .ok f

/-- The conversion to the requested format (iirfilter.rs 202-208). -/
noncomputable def convert (s : Sorts) (order : ℕ) (analog : Bool) (output : Output) (f : Zpk) :
    Res Filter :=
  match output with
  | .zpk => .ok (.zpk f)
  | .ba => do
    let t ← zpk2tf A (2 * order) f.z f.p f.k
    return .ba t
  | .sos => do
    let l ← zpk2sos A s order f none (some analog)
    return .sos l

/-- `iirfilter_dyn` (iirfilter.rs 45-209). -/
noncomputable def iirfilter (s : Sorts) (order : ℕ) (wn : List ℝ) (rp rs : Option ℝ)
    (btype : Option Band) (ftype : Option FType) (analog : Option Bool) (output : Option Output)
    (fs : Option ℝ) : Res Filter := do
  let analog := analog.getD false
  let wn ← validate A wn rp rs analog fs
  let f ← prototype A order (ftype.getD .butterworth) rp rs
  let warped ← warp A wn analog
  let f ← bandTransform A (btype.getD .bandpass) f warped
  let f ← discretise A analog f
  convert A s order analog (output.getD .ba) f

/-- `butter_dyn` (butter.rs 20-45). -/
noncomputable def butter (s : Sorts) (order : ℕ) (wn : List ℝ) (btype : Option Band)
    (analog : Option Bool) (output : Option Output) (fs : Option ℝ) : Res Filter :=
  iirfilter A s order wn none none (some (btype.getD .lowpass)) (some .butterworth)
    (some (analog.getD false)) (some (output.getD .ba)) fs

/-- `cheby1_dyn` (iirfilter.rs 350-373). -/
noncomputable def cheby1 (s : Sorts) (n : ℕ) (rp : ℝ) (wn : List ℝ) (btype : Option Band)
    (analog : Option Bool) (output : Option Output) (fs : Option ℝ) : Res Filter :=
  iirfilter A s n wn (some rp) none btype (some .chebyshevI) analog output fs

/-- `cheby2_dyn` (iirfilter.rs 502-525). -/
noncomputable def cheby2 (s : Sorts) (n : ℕ) (rs : ℝ) (wn : List ℝ) (btype : Option Band)
    (analog : Option Bool) (output : Option Output) (fs : Option ℝ) : Res Filter :=
  iirfilter A s n wn none (some rs) btype (some .chebyshevII) analog output fs

end SciRs.Rounded

import Verif.Model.Sos
import Verif.Model.Design.Cplx

/-!
# Model of `signal/filter/design/zpk2sos.rs`, in exact complex arithmetic

NaN is not modelled, so `partial_cmp(..).unwrap_or(Equal)` is the comparison of real numbers.
-/

namespace SciRs.Design

open Complex Classical

/-- `ZpkPairing` (zpk2sos.rs 25-30). -/
inductive Pairing
  | minimal
  | nearest
  deriving DecidableEq

/-- `WhichNearestComplex` (zpk2sos.rs 32-36). -/
inductive Which
  | real
  | complex
  | any

/-- `min_by` over pairs of a position and a key: the first of the smallest; `none` if there is nothing to choose
from.  Used in `zpk2sos.rs:141, 152, 269, 274, 278`. -/
noncomputable def minBy : List (ℕ × ℝ) → Option ℕ
  | [] => none
  | q :: qs => some (qs.foldl (fun m q => if q.2 < m.2 then q else m) q).1

/-- `.expect(..)`.  Used in `zpk2sos.rs:143, 154, 271, 276, 280`. -/
def expect {α : Type} : Option α → Res α
  | some x => .ok x
  | none => .error Err.unwrap

/-- `Vec::remove`.  Used in `zpk2sos.rs:167, 174, 182, 197, 211, 219, 226`. -/
def removeAt (l : List ℂ) (i : ℕ) : Res (ℂ × List ℂ) :=
  match l[i]? with
  | some x => .ok (x, l.eraseIdx i)
  | none => .error Err.index

/-- `idx_worst` (zpk2sos.rs 134-156): the pole closest to the unit circle (digital) or to the imaginary
axis (analog). -/
noncomputable def idxWorst (analog : Bool) (p : List ℂ) : Res ℕ :=
  expect (minBy (p.zipIdx.map (fun q => (q.2, if analog then |q.1.re| else |1 - ‖q.1‖|))))

/-- `nearest_real_complex_idx_dyn` (zpk2sos.rs 257-282). -/
noncomputable def nearestIdx (fro : List ℂ) (target : ℂ) (which : Which) : Res ℕ :=
  let cand : List (ℂ × ℕ) := match which with
    | .real => fro.zipIdx.filter (fun q => decide (q.1.im = 0))
    | .complex => fro.zipIdx.filter (fun q => !decide (q.1.im = 0))
    | .any => fro.zipIdx
  expect (minBy (cand.map (fun q => (q.2, ‖q.1 - target‖))))

/-- `single_zpksos_dyn` (zpk2sos.rs 286-299). -/
noncomputable def single (z p : List ℂ) (k : ℝ) : Res (Sos ℝ) := do
  let ba ← zpk2tf 2 z p k
  match ba.b, ba.a with
  | [b0, b1, b2], [a0, a1, a2] => return Sos.new b0 b1 b2 a0 a1 a2
  | _, _ => .error Err.panic

/-- How many entries are real: `iter().filter(|x| x.im.is_zero()).count()`.  Used in `zpk2sos.rs:170, 190, 191`. -/
noncomputable def realCount (l : List ℂ) : ℕ := (l.filter (fun x => decide (x.im = 0))).length

/-- The state of the pairing loop: the zeros and poles left, and the sections pushed so far.  The variables of the
loop `zpk2sos.rs:159-239`. -/
structure PairState where
  z : List ℂ
  p : List ℂ
  sos : List (Sos ℝ)

/-- Special case (1), the last real pole (zpk2sos.rs 170-187). -/
noncomputable def stepLastReal (pairing : Pairing) (st : PairState) (p1 : ℂ) : Res PairState :=
  if pairing = .minimal then do
    let i ← nearestIdx st.z p1 .real
    let q ← removeAt st.z i
    let s ← single [q.1, 0] [p1, 0] 1
    return { st with z := q.2, sos := st.sos ++ [s] }
  else if st.z ≠ [] then do
    let i ← nearestIdx st.z p1 .real
    let q ← removeAt st.z i
    let s ← single [q.1] [p1] 1
    return { st with z := q.2, sos := st.sos ++ [s] }
  else do
    let s ← single [] [p1] 1
    return { st with sos := st.sos ++ [s] }

/-- Special case (2), one real pole and one real zero left (zpk2sos.rs 188-199). -/
noncomputable def stepComplex (st : PairState) (p1 : ℂ) : Res PairState := do
  let i ← nearestIdx st.z p1 .complex
  let q ← removeAt st.z i
  let s ← single [q.1, (starRingEnd ℂ) q.1] [p1, (starRingEnd ℂ) p1] 1
  return { st with z := q.2, sos := st.sos ++ [s] }

/-- The second pole of a section (zpk2sos.rs 201-214). -/
noncomputable def secondPole (analog : Bool) (p : List ℂ) (p1 : ℂ) : Res (ℂ × List ℂ) :=
  if p1.im = 0 then do
    let prealIdx := p.zipIdx.filter (fun q => decide (q.1.im = 0))
    let j ← idxWorst analog (prealIdx.map (fun q => q.1))
    let e ← idx prealIdx j
    removeAt p e.2
  else return ((starRingEnd ℂ) p1, p)

/-- The zeros of a section whose poles are `p1, p2` (zpk2sos.rs 216-237). -/
noncomputable def stepZeros (st : PairState) (p1 p2 : ℂ) : Res PairState :=
  if st.z ≠ [] then do
    let i ← nearestIdx st.z p1 .any
    let q ← removeAt st.z i
    if q.1.im ≠ 0 then do
      let s ← single [q.1, (starRingEnd ℂ) q.1] [p1, p2] 1
      return { st with z := q.2, sos := st.sos ++ [s] }
    else if q.2 ≠ [] then do
      let j ← nearestIdx q.2 p1 .real
      let q' ← removeAt q.2 j
      check (q'.1.im = 0)
      let s ← single [q.1, q'.1] [p1, p2] 1
      return { st with z := q'.2, sos := st.sos ++ [s] }
    else do
      let s ← single [q.1] [p1, p2] 1
      return { st with z := q.2, sos := st.sos ++ [s] }
  else do
    let s ← single [] [p1, p2] 1
    return { st with sos := st.sos ++ [s] }

/-- One pass of the loop (zpk2sos.rs 164-239). -/
noncomputable def pairStep (pairing : Pairing) (analog : Bool) (st : PairState) : Res PairState := do
  let i ← idxWorst analog st.p
  let q ← removeAt st.p i
  let st := { st with p := q.2 }
  if q.1.im = 0 ∧ realCount st.p = 0 then stepLastReal pairing st q.1
  else if st.p.length + 1 = st.z.length ∧ q.1.im ≠ 0 ∧ realCount st.p = 1 ∧ realCount st.z = 1 then
    stepComplex st q.1
  else do
    let q2 ← secondPole analog st.p q.1
    stepZeros { st with p := q2.2 } q.1 q2.1

/-- Everything after the padding (zpk2sos.rs 126-252).  `sos[0]` panics when there is no section. -/
noncomputable def pairUp (eps : ℝ) (s : Sorts) (pairing : Pairing) (analog : Bool) (z p : List ℂ) (k : ℝ)
    (nSections : ℕ) : Res (List (Sos ℝ)) := do
  let cz ← cplxreal eps s z none
  let cp ← cplxreal eps s p none
  let st ← (List.range nSections).foldlM (fun st _ => pairStep pairing analog st)
    { z := cz.1 ++ cz.2, p := cp.1 ++ cp.2, sos := [] }
  check (st.p.length = st.z.length)
  check (st.p = [])
  match st.sos.reverse with
  | [] => .error Err.index
  | s0 :: rest => return { s0 with b0 := s0.b0 * k, b1 := s0.b1 * k, b2 := s0.b2 * k } :: rest

/-- `zpk2sos_dyn` (zpk2sos.rs 49-253).  Its argument `order` is never read.  `eps` is the machine epsilon
of the element type and `s` the sorts used by `cplxreal_dyn`. -/
noncomputable def zpk2sos (eps : ℝ) (s : Sorts) (_order : ℕ) (f : Zpk) (pairing : Option Pairing)
    (analog : Option Bool) : Res (List (Sos ℝ)) :=
  let analog := analog.getD false
  let pairing := pairing.getD (if analog then .minimal else .nearest)
  if analog = true ∧ pairing ≠ .minimal then .error Err.panic
  else if f.z = [] ∧ f.p = [] then
    if analog = false then return [Sos.new f.k 0 0 1 0 0]
    else return [Sos.new 0 0 f.k 0 0 1]
  else if pairing ≠ .minimal then
    let p := f.p ++ List.replicate (f.z.length - f.p.length) 0
    let z := f.z ++ List.replicate (p.length - f.z.length) 0
    let n := (max p.length z.length + 1) / 2
    let zp := if p.length % 2 = 1 ∧ pairing = .nearest then (z ++ [0], p ++ [0]) else (z, p)
    do
      check (zp.1.length = zp.2.length)
      pairUp eps s pairing analog zp.1 zp.2 f.k n
  else if f.p.length < f.z.length then .error Err.panic
  else pairUp eps s pairing analog f.z f.p f.k ((f.p.length + 1) / 2)

end SciRs.Design

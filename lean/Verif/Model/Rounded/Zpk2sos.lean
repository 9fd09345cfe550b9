import Verif.Model.Rounded.Arith
import Verif.Model.Design.Zpk2sos

/-!
# Model of `cplxreal_dyn`, `poly_dyn`, `zpk2tf_dyn` and `zpk2sos_dyn`, in any arithmetic

The same code as in `Verif/Model/Design/Cplx.lean`, `Poly.lean` and `Zpk2sos.lean`, with every operation taken from
an `Arith`.  Sorting, choosing and removing do no arithmetic and are shared.
-/

namespace SciRs.Rounded

open Complex Classical SciRs.Design

variable (A : Arith)

/-- `same_real` before the differences (cplx.rs 91-102). -/
noncomputable def sameReal (tol : ℝ) (zp : List ℂ) : List Bool :=
  [false] ++ ((zp.zip (zp.drop 1)).map
    (fun q => decide (A.sub q.2.re q.1.re ≤ A.mul tol (A.cabs q.1))) ++ [false])

/-- The test for a real root (cplx.rs 74-76). -/
noncomputable def isReal (tol : ℝ) (zi : ℂ) : Bool :=
  decide (|zi.im| ≤ A.mul tol (A.csqrt (A.cmul zi zi)).re)

/-- The tolerance used when none is given (cplx.rs 64): `F::epsilon() * 100`. -/
def defaultTol : ℝ := A.mul A.eps 100

/-- `cplxreal_dyn` (cplx.rs 54-168). -/
noncomputable def cplxreal (s : Sorts) (z : List ℂ) (tol : Option ℝ) : Res (List ℂ × List ℂ) :=
  if z = [] then return ([], [])
  else do
    let tol := tol.getD (defaultTol A)
    let z := s.byKey z
    let zr := z.filter (isReal A tol)
    let zc := z.filter (fun zi => !isReal A tol zi)
    if zr.length = z.length then return ([], zr)
    else
      let zp := zc.filter (fun zi => decide (zi.im > 0))
      let zn := zc.filter (fun zi => decide (zi.im < 0))
      if zp.length ≠ zn.length then .error Err.panic
      else
        let d := diffs (sameReal A tol zp)
        let starts := indicesOf (fun x => decide (x > 0)) d
        let stops := indicesOf (fun x => decide (x < 0)) d
        check (starts.length = stops.length)
        let st ← (starts.zip stops).foldlM (fun st q => sortRun s st q.1 (q.2 + 1)) (zp, zn)
        if (st.1.zip st.2).any (fun q =>
            decide (A.cabs (A.csub q.1 ((starRingEnd ℂ) q.2)) > A.mul tol (A.cabs q.2))) then
          .error Err.panic
        else
          return ((st.1.zip st.2).map (fun q => A.cdivReal (A.cadd q.1 ((starRingEnd ℂ) q.2)) 2), zr)

/-- Entry `i` of the convolution in `poly_dyn` (zpk2tf.rs 113-127). -/
def polyEntry (a k : List ℂ) (i : ℕ) : Res ℂ :=
  let ui := if i > a.length then i - 2 else 0
  let uf := min i (a.length - 1)
  if ui = uf then do
    let x ← idx a ui
    let y ← idx k (i - ui)
    return A.cadd 0 (A.cmul x y)
  else
    (List.range' ui (uf + 1 - ui)).foldlM (fun acc u =>
      if i - u < 2 then do
        let x ← idx a u
        let y ← idx k (i - u)
        return A.cadd acc (A.cmul x y)
      else return acc) 0

/-- One pass of the loop over the roots (zpk2tf.rs 109-129). -/
def polyStep (a : List ℂ) (zi : ℂ) : Res (List ℂ) :=
  (List.range (a.length + 2 - 1)).mapM (polyEntry A a [1, -zi])

/-- `poly_dyn` (zpk2tf.rs 101-143). -/
noncomputable def poly (z : List ℂ) : Res (List ℂ) := do
  let a ← z.foldlM (polyStep A) [1]
  let roots := sortCplx z
  let rootConjs := sortCplx (z.map (starRingEnd ℂ))
  if (roots.zip rootConjs).all (fun q => decide (q.1 = q.2)) then
    return a.map (fun ai => ((ai.re : ℝ) : ℂ))
  else return a

/-- `zpk2tf_dyn` (zpk2tf.rs 44-97). -/
noncomputable def zpk2tf (order : ℕ) (z p : List ℂ) (k : ℝ) : Res Ba := do
  let pz ← poly A z
  let b := pz.map (fun bi => A.cmul (k : ℂ) bi)
  let a ← poly A p
  return { b := fillReal order (poly2ba b z), a := fillReal order (poly2ba a p) }

/-- `idx_worst` (zpk2sos.rs 134-156). -/
noncomputable def idxWorst (analog : Bool) (p : List ℂ) : Res ℕ :=
  expect (minBy (p.zipIdx.map (fun q => (q.2, if analog then |q.1.re| else |A.sub 1 (A.cabs q.1)|))))

/-- `nearest_real_complex_idx_dyn` (zpk2sos.rs 257-282). -/
noncomputable def nearestIdx (fro : List ℂ) (target : ℂ) (which : Which) : Res ℕ :=
  let cand : List (ℂ × ℕ) := match which with
    | .real => fro.zipIdx.filter (fun q => decide (q.1.im = 0))
    | .complex => fro.zipIdx.filter (fun q => !decide (q.1.im = 0))
    | .any => fro.zipIdx
  expect (minBy (cand.map (fun q => (q.2, A.cabs (A.csub q.1 target)))))

/-- `single_zpksos_dyn` (zpk2sos.rs 286-299). -/
noncomputable def single (z p : List ℂ) (k : ℝ) : Res (Sos ℝ) := do
  let ba ← zpk2tf A 2 z p k
  match ba.b, ba.a with
  | [b0, b1, b2], [a0, a1, a2] => return Sos.new b0 b1 b2 a0 a1 a2
  | _, _ => .error Err.panic

/-- Special case (1), the last real pole (zpk2sos.rs 170-187). -/
noncomputable def stepLastReal (pairing : Pairing) (st : PairState) (p1 : ℂ) : Res PairState :=
  if pairing = .minimal then do
    let i ← nearestIdx A st.z p1 .real
    let q ← removeAt st.z i
    let s ← single A [q.1, 0] [p1, 0] 1
    return { st with z := q.2, sos := st.sos ++ [s] }
  else if st.z ≠ [] then do
    let i ← nearestIdx A st.z p1 .real
    let q ← removeAt st.z i
    let s ← single A [q.1] [p1] 1
    return { st with z := q.2, sos := st.sos ++ [s] }
  else do
    let s ← single A [] [p1] 1
    return { st with sos := st.sos ++ [s] }

/-- Special case (2), one real pole and one real zero left (zpk2sos.rs 188-199). -/
noncomputable def stepComplex (st : PairState) (p1 : ℂ) : Res PairState := do
  let i ← nearestIdx A st.z p1 .complex
  let q ← removeAt st.z i
  let s ← single A [q.1, (starRingEnd ℂ) q.1] [p1, (starRingEnd ℂ) p1] 1
  return { st with z := q.2, sos := st.sos ++ [s] }

/-- The second pole of a section (zpk2sos.rs 201-214). -/
noncomputable def secondPole (analog : Bool) (p : List ℂ) (p1 : ℂ) : Res (ℂ × List ℂ) :=
  if p1.im = 0 then do
    let prealIdx := p.zipIdx.filter (fun q => decide (q.1.im = 0))
    let j ← idxWorst A analog (prealIdx.map (fun q => q.1))
    let e ← idx prealIdx j
    removeAt p e.2
  else return ((starRingEnd ℂ) p1, p)

/-- The zeros of a section whose poles are `p1, p2` (zpk2sos.rs 216-237). -/
noncomputable def stepZeros (st : PairState) (p1 p2 : ℂ) : Res PairState :=
  if st.z ≠ [] then do
    let i ← nearestIdx A st.z p1 .any
    let q ← removeAt st.z i
    if q.1.im ≠ 0 then do
      let s ← single A [q.1, (starRingEnd ℂ) q.1] [p1, p2] 1
      return { st with z := q.2, sos := st.sos ++ [s] }
    else if q.2 ≠ [] then do
      let j ← nearestIdx A q.2 p1 .real
      let q' ← removeAt q.2 j
      check (q'.1.im = 0)
      let s ← single A [q.1, q'.1] [p1, p2] 1
      return { st with z := q'.2, sos := st.sos ++ [s] }
    else do
      let s ← single A [q.1] [p1, p2] 1
      return { st with z := q.2, sos := st.sos ++ [s] }
  else do
    let s ← single A [] [p1, p2] 1
    return { st with sos := st.sos ++ [s] }

/-- One pass of the loop (zpk2sos.rs 164-239). -/
noncomputable def pairStep (pairing : Pairing) (analog : Bool) (st : PairState) : Res PairState := do
  let i ← idxWorst A analog st.p
  let q ← removeAt st.p i
  let st := { st with p := q.2 }
  if q.1.im = 0 ∧ realCount st.p = 0 then stepLastReal A pairing st q.1
  else if st.p.length + 1 = st.z.length ∧ q.1.im ≠ 0 ∧ realCount st.p = 1 ∧ realCount st.z = 1 then
    stepComplex A st q.1
  else do
    let q2 ← secondPole A analog st.p q.1
    stepZeros A { st with p := q2.2 } q.1 q2.1

/-- Everything after the padding (zpk2sos.rs 126-252).  `sos[0]` panics when there is no section. -/
noncomputable def pairUp (s : Sorts) (pairing : Pairing) (analog : Bool) (z p : List ℂ) (k : ℝ)
    (nSections : ℕ) : Res (List (Sos ℝ)) := do
  let cz ← cplxreal A s z none
  let cp ← cplxreal A s p none
  let st ← (List.range nSections).foldlM (fun st _ => pairStep A pairing analog st)
    { z := cz.1 ++ cz.2, p := cp.1 ++ cp.2, sos := [] }
  check (st.p.length = st.z.length)
  check (st.p = [])
  match st.sos.reverse with
  | [] => .error Err.index
  | s0 :: rest => return { s0 with b0 := A.mul s0.b0 k, b1 := A.mul s0.b1 k, b2 := A.mul s0.b2 k } :: rest

/-- `zpk2sos_dyn` (zpk2sos.rs 49-253).  Its argument `order` is never read; `s` are the sorts used by
`cplxreal_dyn`. -/
noncomputable def zpk2sos (s : Sorts) (_order : ℕ) (f : Zpk) (pairing : Option Pairing)
    (analog : Option Bool) : Res (List (Sos ℝ)) :=
  let analog := analog.getD false
  let pairing := pairing.getD (if analog then .minimal else .nearest)
  if analog = true ∧ pairing ≠ .minimal then .error Err.panic
  else if f.z = [] ∧ f.p = [] then
    if analog = false then return [Sos.new f.k 0 0 1 0 0]
    else return [Sos.new 0 0 f.k 0 0 1]
  else if pairing ≠ .minimal then
    let p := f.p ++ List.replicate (f.z.length - f.p.length) 0
    let z := f.z ++ List.replicate (p.length - f.z.length) 0
    let n := (max p.length z.length + 1) / 2
    let zp := if p.length % 2 = 1 ∧ pairing = .nearest then (z ++ [0], p ++ [0]) else (z, p)
    do
      check (zp.1.length = zp.2.length)
      pairUp A s pairing analog zp.1 zp.2 f.k n
  else if f.p.length < f.z.length then .error Err.panic
  else pairUp A s pairing analog f.z f.p f.k ((f.p.length + 1) / 2)

end SciRs.Rounded

import Verif.Model.IeeeDesign
import Verif.Model.Design.Zpk2sos

/-!
# Model of `cplxreal_dyn`, `poly_dyn`, `zpk2tf_dyn` and `zpk2sos_dyn` on IEEE 754 numbers with infinities and NaN

The same code as in `Verif/Model/Rounded/Zpk2sos.lean`, on the carrier `Ieee f`.  Sorting calls `unwrap` on the result
of a comparison, so it can panic; what is assumed of `sort_unstable_by` is in `SortOf`.
-/

namespace SciRs.IeeeDesign

open Classical SciRs.Spec SciRs.Spec.Ieee SciRs.Design

variable {f : Format}

/-- `partial_cmp`.  Used in `cplx.rs:66-69, 135-138, 173-184` and `zpk2sos.rs:141, 152, 269-278`. -/
noncomputable def pcmp (a b : Ieee f) : Option Ordering :=
  match a.toE, b.toE with
  | some x, some y => some (if x < y then .lt else if x = y then .eq else .gt)
  | _, _ => none

/-- `==` of two numbers: NaN is not equal to itself, and the zeros are equal.  Used in `zpk2tf.rs:74`. -/
def feq (a b : Ieee f) : Prop := ∃ x, a.toE = some x ∧ b.toE = some x

/-- `==` of two complex numbers.  Used in `zpk2tf.rs:74`. -/
def ceq (a b : Cx f) : Prop := feq a.re b.re ∧ feq a.im b.im

/-- `is_zero`.  Used in `zpk2sos.rs:170-227, 268, 273`. -/
def isZero (a : Ieee f) : Prop := feq a 0

/-- The comparison at cplx.rs 67-71; `none` is a failed `unwrap`. -/
noncomputable def cmpKey (a b : Cx f) : Option Ordering :=
  match pcmp a.re b.re with
  | some .eq => pcmp a.im.abs b.im.abs
  | o => o

/-- The comparison at cplx.rs 133-139 on pairs `(zp, zn)`. -/
noncomputable def cmpPair (a b : Cx f × Cx f) : Option Ordering :=
  match pcmp a.2.im.abs b.2.im.abs with
  | some .eq => pcmp a.1.im b.1.im
  | o => o

/-- The comparison of `sort_cplx_dyn` (cplx.rs 172-187). -/
noncomputable def cmpCplx (a b : Cx f) : Option Ordering :=
  match pcmp a.re b.re with
  | some .eq => pcmp a.im b.im
  | o => o

/-- The three uses of `sort_unstable_by` (cplx.rs 67, 133, 172). -/
structure CxSorts (f : Format) where
  byKey : List (Cx f) → Res (List (Cx f))
  byPair : List (Cx f × Cx f) → Res (List (Cx f × Cx f))
  byCplx : List (Cx f) → Res (List (Cx f))

/-- What is assumed of `sort_unstable_by` with the comparison `c`, where `none` stands for a panic.  Used for
`cplx.rs:66-70, 134-140, 172-187`. -/
structure SortOf {α : Type} (c : α → α → Option Ordering) (sort : List α → Res (List α)) : Prop where
  /-- No undefined behaviour: the sort is safe code. -/
  safe : ∀ l : List α, sort l ≠ .error Err.ub
  /-- Fewer than two elements are not compared. -/
  short : ∀ l : List α, l.length ≤ 1 → sort l = .ok l
  /-- Every element of a longer list is compared with another one. -/
  panics : ∀ (l : List α) (a : α), a ∈ l → 2 ≤ l.length → (∀ b ∈ l, c a b = none ∧ c b a = none) → Panics (sort l)
  /-- If all comparisons have a result, a sorted permutation is returned.  Which one depends only on the results of
  the comparisons: two lists whose elements compare in the same way are permuted in the same way. -/
  sorts : ∀ w : List (α × α), (∀ p ∈ w, ∀ q ∈ w, c p.1 q.1 ≠ none ∧ c p.1 q.1 = c p.2 q.2) →
    ∃ w' : List (α × α), w'.Perm w ∧ sort (w.map Prod.fst) = .ok (w'.map Prod.fst) ∧
      sort (w.map Prod.snd) = .ok (w'.map Prod.snd) ∧ w'.Pairwise (fun p q => c p.1 q.1 ≠ some .gt)

/-- The three sorts are correct.  Used for `cplx.rs:66-70, 134-140, 172-187`. -/
structure CxSorts.Correct (S : CxSorts f) : Prop where
  key : SortOf cmpKey S.byKey
  pair : SortOf cmpPair S.byPair
  cplx : SortOf cmpCplx S.byCplx

variable (L : Lib f) (S : CxSorts f)

/-- `same_real` before the differences (cplx.rs 91-102). -/
noncomputable def sameReal (tol : Ieee f) (zp : List (Cx f)) : List Bool :=
  [false] ++ ((zp.zip (zp.drop 1)).map (fun q => decide (q.2.re - q.1.re ≤ tol * L.cabs q.1)) ++ [false])

/-- The test for a real root (cplx.rs 74-76). -/
noncomputable def isReal (tol : Ieee f) (zi : Cx f) : Bool :=
  decide (zi.im.abs ≤ tol * (L.csqrt (zi.mul zi)).re)

/-- The tolerance used when none is given (cplx.rs 64): `F::epsilon() * 100`. -/
noncomputable def defaultTol : Ieee f := L.eps * lit f 100

/-- One pass of the loop at cplx.rs 127-149. -/
def sortRun (st : List (Cx f) × List (Cx f)) (start stop : ℕ) : Res (List (Cx f) × List (Cx f)) := do
  check (start ≤ stop ∧ stop ≤ st.1.length) Err.index
  check (start ≤ stop ∧ stop ≤ st.2.length) Err.index
  let chunk ← S.byPair (((st.1.take stop).drop start).zip ((st.2.take stop).drop start))
  return (st.1.take start ++ chunk.map (fun c => c.1) ++ st.1.drop stop,
          st.2.take start ++ chunk.map (fun c => c.2) ++ st.2.drop stop)

/-- `cplxreal_dyn` (cplx.rs 54-168). -/
noncomputable def cplxreal (z : List (Cx f)) (tol : Option (Ieee f)) : Res (List (Cx f) × List (Cx f)) :=
  if z = [] then return ([], [])
  else do
    let tol := tol.getD (defaultTol L)
    let z ← S.byKey z
    let zr := z.filter (isReal L tol)
    let zc := z.filter (fun zi => !isReal L tol zi)
    if zr.length = z.length then return ([], zr)
    else
      let zp := zc.filter (fun zi => decide (0 < zi.im))
      let zn := zc.filter (fun zi => decide (zi.im < 0))
      if zp.length ≠ zn.length then .error Err.panic
      else
        let d := diffs (sameReal L tol zp)
        let starts := indicesOf (fun x => decide (x > 0)) d
        let stops := indicesOf (fun x => decide (x < 0)) d
        check (starts.length = stops.length)
        let st ← (starts.zip stops).foldlM (fun st q => sortRun S st q.1 (q.2 + 1)) (zp, zn)
        if (st.1.zip st.2).any (fun q => decide (tol * L.cabs q.2 < L.cabs (q.1.sub q.2.conj))) then
          .error Err.panic
        else
          return ((st.1.zip st.2).map (fun q => ⟨(q.1.add q.2.conj).re / lit f 2, (q.1.add q.2.conj).im / lit f 2⟩), zr)

/-- Entry `i` of the convolution in `poly_dyn` (zpk2tf.rs 113-127). -/
noncomputable def polyEntry (a k : List (Cx f)) (i : ℕ) : Res (Cx f) :=
  let ui := if i > a.length then i - 2 else 0
  let uf := min i (a.length - 1)
  if ui = uf then do
    let x ← idx a ui
    let y ← idx k (i - ui)
    return (Cx.ofRe 0).add (x.mul y)
  else
    (List.range' ui (uf + 1 - ui)).foldlM (fun acc u =>
      if i - u < 2 then do
        let x ← idx a u
        let y ← idx k (i - u)
        return acc.add (x.mul y)
      else return acc) (Cx.ofRe 0)

/-- One pass of the loop over the roots (zpk2tf.rs 109-129). -/
noncomputable def polyStep (a : List (Cx f)) (zi : Cx f) : Res (List (Cx f)) :=
  (List.range (a.length + 2 - 1)).mapM (polyEntry a [Cx.ofRe 1, zi.neg])

/-- The real part as a complex number: `ComplexField::from_real(x.real())`.  Used in `zpk2tf.rs:77`. -/
noncomputable def dropIm (a : Cx f) : Cx f := Cx.ofRe a.re

/-- `poly_dyn` (zpk2tf.rs 101-143). -/
noncomputable def poly (z : List (Cx f)) : Res (List (Cx f)) := do
  let a ← z.foldlM polyStep [Cx.ofRe 1]
  let roots ← S.byCplx z
  let rootConjs ← S.byCplx (z.map Cx.conj)
  if (roots.zip rootConjs).all (fun q => decide (ceq q.1 q.2)) then return a.map dropIm
  else return a

/-- The closure `poly2ba` (zpk2tf.rs 58-83). -/
noncomputable def poly2ba (x y : List (Cx f)) : Res (List (Cx f)) :=
  let pos := y.filter (fun i => decide (0 < i.im))
  let neg := (y.filter (fun i => decide (i.im < 0))).map Cx.conj
  if pos.length = neg.length then do
    let pos ← S.byCplx pos
    let neg ← S.byCplx neg
    if (pos.zip neg).all (fun q => decide (ceq q.1 q.2)) then return x.map dropIm
    else return x
  else return x

/-- Real parts written over the start of `order + 1` zeros (zpk2tf.rs 88-95). -/
noncomputable def fillReal (order : ℕ) (v : List (Cx f)) : List (Ieee f) :=
  (v.take (order + 1)).map Cx.re ++ List.replicate (order + 1 - v.length) 0

/-- `BaFormatFilter`.  `filter_output.rs:22-27`. -/
structure BaI (f : Format) where
  b : List (Ieee f)
  a : List (Ieee f)

/-- `zpk2tf_dyn` (zpk2tf.rs 44-97). -/
noncomputable def zpk2tf (order : ℕ) (z p : List (Cx f)) (k : Ieee f) : Res (BaI f) := do
  let pz ← poly S z
  let b := pz.map (fun bi => (Cx.ofRe k).mul bi)
  let a ← poly S p
  let bv ← poly2ba S b z
  let av ← poly2ba S a p
  return { b := fillReal order bv, a := fillReal order av }

/-- `min_by` with `partial_cmp(..).unwrap_or(Equal)`: an element replaces the current one if it is smaller, which
nothing is when NaN takes part.  Used in `zpk2sos.rs:141, 152, 269, 274, 278`. -/
noncomputable def minBy : List (ℕ × Ieee f) → Option ℕ
  | [] => none
  | q :: qs => some (qs.foldl (fun m q => if q.2 < m.2 then q else m) q).1

/-- `Vec::remove`.  Used in `zpk2sos.rs:167, 174, 182, 197, 211, 219, 226`. -/
def removeAt (l : List (Cx f)) (i : ℕ) : Res (Cx f × List (Cx f)) :=
  match l[i]? with
  | some x => .ok (x, l.eraseIdx i)
  | none => .error Err.index

/-- `idx_worst` (zpk2sos.rs 134-156). -/
noncomputable def idxWorst (analog : Bool) (p : List (Cx f)) : Res ℕ :=
  expect (minBy (p.zipIdx.map (fun q => (q.2, if analog then q.1.re.abs else (1 - L.cabs q.1).abs))))

/-- `nearest_real_complex_idx_dyn` (zpk2sos.rs 257-282). -/
noncomputable def nearestIdx (fro : List (Cx f)) (target : Cx f) (which : Which) : Res ℕ :=
  let cand : List (Cx f × ℕ) := match which with
    | .real => fro.zipIdx.filter (fun q => decide (isZero q.1.im))
    | .complex => fro.zipIdx.filter (fun q => !decide (isZero q.1.im))
    | .any => fro.zipIdx
  expect (minBy (cand.map (fun q => (q.2, L.cabs (q.1.sub target)))))

/-- `single_zpksos_dyn` (zpk2sos.rs 286-299). -/
noncomputable def single (z p : List (Cx f)) (k : Ieee f) : Res (Sos (Ieee f)) := do
  let ba ← zpk2tf S 2 z p k
  match ba.b, ba.a with
  | [b0, b1, b2], [a0, a1, a2] => return Sos.new b0 b1 b2 a0 a1 a2
  | _, _ => .error Err.panic

/-- How many entries are real: `iter().filter(|x| x.im.is_zero()).count()`.  Used in `zpk2sos.rs:170, 190, 191`. -/
noncomputable def realCount (l : List (Cx f)) : ℕ := (l.filter (fun x => decide (isZero x.im))).length

/-- The state of the pairing loop: the zeros and poles left, and the sections pushed so far.  The variables of the
loop `zpk2sos.rs:159-239`. -/
structure PairStateI (f : Format) where
  z : List (Cx f)
  p : List (Cx f)
  sos : List (Sos (Ieee f))

/-- Special case (1), the last real pole (zpk2sos.rs 170-187). -/
noncomputable def stepLastReal (pairing : Pairing) (st : PairStateI f) (p1 : Cx f) : Res (PairStateI f) :=
  if pairing = .minimal then do
    let i ← nearestIdx L st.z p1 .real
    let q ← removeAt st.z i
    let s ← single S [q.1, Cx.ofRe 0] [p1, Cx.ofRe 0] 1
    return { st with z := q.2, sos := st.sos ++ [s] }
  else if st.z ≠ [] then do
    let i ← nearestIdx L st.z p1 .real
    let q ← removeAt st.z i
    let s ← single S [q.1] [p1] 1
    return { st with z := q.2, sos := st.sos ++ [s] }
  else do
    let s ← single S [] [p1] 1
    return { st with sos := st.sos ++ [s] }

/-- Special case (2), one real pole and one real zero left (zpk2sos.rs 188-199). -/
noncomputable def stepComplex (st : PairStateI f) (p1 : Cx f) : Res (PairStateI f) := do
  let i ← nearestIdx L st.z p1 .complex
  let q ← removeAt st.z i
  let s ← single S [q.1, q.1.conj] [p1, p1.conj] 1
  return { st with z := q.2, sos := st.sos ++ [s] }

/-- The second pole of a section (zpk2sos.rs 201-214). -/
noncomputable def secondPole (analog : Bool) (p : List (Cx f)) (p1 : Cx f) : Res (Cx f × List (Cx f)) :=
  if isZero p1.im then do
    let prealIdx := p.zipIdx.filter (fun q => decide (isZero q.1.im))
    let j ← idxWorst L analog (prealIdx.map (fun q => q.1))
    let e ← idx prealIdx j
    removeAt p e.2
  else return (p1.conj, p)

/-- The zeros of a section whose poles are `p1, p2` (zpk2sos.rs 216-237). -/
noncomputable def stepZeros (st : PairStateI f) (p1 p2 : Cx f) : Res (PairStateI f) :=
  if st.z ≠ [] then do
    let i ← nearestIdx L st.z p1 .any
    let q ← removeAt st.z i
    if ¬ isZero q.1.im then do
      let s ← single S [q.1, q.1.conj] [p1, p2] 1
      return { st with z := q.2, sos := st.sos ++ [s] }
    else if q.2 ≠ [] then do
      let j ← nearestIdx L q.2 p1 .real
      let q' ← removeAt q.2 j
      check (isZero q'.1.im)
      let s ← single S [q.1, q'.1] [p1, p2] 1
      return { st with z := q'.2, sos := st.sos ++ [s] }
    else do
      let s ← single S [q.1] [p1, p2] 1
      return { st with z := q.2, sos := st.sos ++ [s] }
  else do
    let s ← single S [] [p1, p2] 1
    return { st with sos := st.sos ++ [s] }

/-- One pass of the loop (zpk2sos.rs 164-239). -/
noncomputable def pairStep (pairing : Pairing) (analog : Bool) (st : PairStateI f) : Res (PairStateI f) := do
  let i ← idxWorst L analog st.p
  let q ← removeAt st.p i
  let st := { st with p := q.2 }
  if isZero q.1.im ∧ realCount st.p = 0 then stepLastReal L S pairing st q.1
  else if st.p.length + 1 = st.z.length ∧ ¬ isZero q.1.im ∧ realCount st.p = 1 ∧ realCount st.z = 1 then
    stepComplex L S st q.1
  else do
    let q2 ← secondPole L analog st.p q.1
    stepZeros L S { st with p := q2.2 } q.1 q2.1

/-- The sections before the gain is put into the first one (zpk2sos.rs 126-246). -/
noncomputable def pairAll (pairing : Pairing) (analog : Bool) (z p : List (Cx f)) (nSections : ℕ) :
    Res (List (Sos (Ieee f))) := do
  let cz ← cplxreal L S z none
  let cp ← cplxreal L S p none
  let st ← (List.range nSections).foldlM (fun st _ => pairStep L S pairing analog st)
    { z := cz.1 ++ cz.2, p := cp.1 ++ cp.2, sos := [] }
  check (st.p.length = st.z.length)
  check (st.p = [])
  return st.sos.reverse

/-- The gain (zpk2sos.rs 247-250).  `sos[0]` panics when there is no section. -/
noncomputable def putGain (k : Ieee f) : List (Sos (Ieee f)) → Res (List (Sos (Ieee f)))
  | [] => .error Err.index
  | s0 :: rest => .ok ({ s0 with b0 := s0.b0 * k, b1 := s0.b1 * k, b2 := s0.b2 * k } :: rest)

/-- Everything after the padding (zpk2sos.rs 126-252). -/
noncomputable def pairUp (pairing : Pairing) (analog : Bool) (z p : List (Cx f)) (k : Ieee f) (nSections : ℕ) :
    Res (List (Sos (Ieee f))) := do
  let l ← pairAll L S pairing analog z p nSections
  putGain k l

/-- `zpk2sos_dyn` (zpk2sos.rs 49-253).  Its argument `order` is never read. -/
noncomputable def zpk2sos (_order : ℕ) (q : ZpkI f) (pairing : Option Pairing) (analog : Option Bool) :
    Res (List (Sos (Ieee f))) :=
  let analog := analog.getD false
  let pairing := pairing.getD (if analog then .minimal else .nearest)
  if analog = true ∧ pairing ≠ .minimal then .error Err.panic
  else if q.z = [] ∧ q.p = [] then
    if analog = false then return [Sos.new q.k 0 0 1 0 0]
    else return [Sos.new 0 0 q.k 0 0 1]
  else if pairing ≠ .minimal then
    let p := q.p ++ List.replicate (q.z.length - q.p.length) (Cx.ofRe 0)
    let z := q.z ++ List.replicate (p.length - q.z.length) (Cx.ofRe 0)
    let n := (max p.length z.length + 1) / 2
    let zp := if p.length % 2 = 1 ∧ pairing = .nearest then (z ++ [Cx.ofRe 0], p ++ [Cx.ofRe 0]) else (z, p)
    do
      check (zp.1.length = zp.2.length)
      pairUp L S pairing analog zp.1 zp.2 q.k n
  else if q.p.length < q.z.length then .error Err.panic
  else pairUp L S pairing analog q.z q.p q.k ((q.p.length + 1) / 2)

/-- `DigitalFilter`.  `filter_output.rs:55-62`. -/
inductive FilterI (f : Format)
  | zpk (q : ZpkI f)
  | ba (t : BaI f)
  | sos (l : List (Sos (Ieee f)))

/-- `iirfilter_dyn` (iirfilter.rs 45-209) with every output format (the conversion: iirfilter.rs 202-208). -/
noncomputable def iirfilterAs (order : ℕ) (wn : List (Ieee f)) (rp rs : Option (Ieee f)) (btype : Option Band)
    (ftype : Option FType) (analog : Option Bool) (output : Option Output) (fs : Option (Ieee f)) :
    Res (FilterI f) := do
  let q ← iirfilter L order wn rp rs btype ftype analog fs
  match output.getD .ba with
  | .zpk => return .zpk q
  | .ba => do
    let t ← zpk2tf S (2 * order) q.z q.p q.k
    return .ba t
  | .sos => do
    let l ← zpk2sos L S order q none (some (analog.getD false))
    return .sos l

end SciRs.IeeeDesign

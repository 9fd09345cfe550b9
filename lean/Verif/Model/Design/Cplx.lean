import Verif.Model.Design.Poly

/-!
# Model of `cplxreal_dyn` (`signal/filter/design/cplx.rs`), in exact complex arithmetic

`sort_unstable_by` may order elements that compare equal in any way, so the two sorts are parameters,
and the theorems hold for every pair of sorts that is correct (`Sorts.Correct`).  The `unwrap`s on
`partial_cmp` fail only on NaN, which is not modelled.  `eps` is the machine epsilon of the element type.
-/

namespace SciRs.Design

open Complex Classical

/-- The comparison at cplx.rs 67-71: real part, then magnitude of the imaginary part. -/
def zKeyLe (a b : ℂ) : Prop := a.re < b.re ∨ (a.re = b.re ∧ |a.im| ≤ |b.im|)

/-- The comparison at cplx.rs 133-139 on pairs `(zp, zn)`. -/
def pairKeyLe (a b : ℂ × ℂ) : Prop := |a.2.im| < |b.2.im| ∨ (|a.2.im| = |b.2.im| ∧ a.1.im ≤ b.1.im)

/-- The two uses of `sort_unstable_by`.  `cplx.rs:66-70, 134-140`. -/
structure Sorts where
  byKey : List ℂ → List ℂ
  byPair : List (ℂ × ℂ) → List (ℂ × ℂ)

/-- What the standard library promises: a sorted permutation.  Assumed of `cplx.rs:66-70, 134-140`. -/
structure Sorts.Correct (s : Sorts) : Prop where
  key_perm : ∀ l, (s.byKey l).Perm l
  key_sorted : ∀ l, (s.byKey l).Pairwise zKeyLe
  pair_perm : ∀ l, (s.byPair l).Perm l
  pair_sorted : ∀ l, (s.byPair l).Pairwise pairKeyLe

/-- `same_real` with its differences (cplx.rs 92-111): `1` where a run of equal real parts starts, `-1`
where it stops. -/
def diffs (s : List Bool) : List ℤ :=
  (s.zip (s.drop 1)).map (fun q =>
    match q with
    | (true, true) => 0
    | (true, false) => -1
    | (false, true) => 1
    | (false, false) => 0)

/-- `enumerate().filter(..).map(|(i, _)| i)` (cplx.rs 112-123). -/
def indicesOf (f : ℤ → Bool) (d : List ℤ) : List ℕ :=
  (d.zipIdx.filter (fun q => f q.1)).map (fun q => q.2)

/-- `same_real` before the differences (cplx.rs 91-102). -/
noncomputable def sameReal (tol : ℝ) (zp : List ℂ) : List Bool :=
  [false] ++ ((zp.zip (zp.drop 1)).map (fun q => decide (q.2.re - q.1.re ≤ tol * ‖q.1‖)) ++ [false])

/-- One pass of the loop at cplx.rs 127-149: the slice `start..stop` of both lists is sorted together.
Slicing panics unless `start <= stop <= len`. -/
def sortRun (s : Sorts) (st : List ℂ × List ℂ) (start stop : ℕ) : Res (List ℂ × List ℂ) := do
  check (start ≤ stop ∧ stop ≤ st.1.length) Err.index
  check (start ≤ stop ∧ stop ≤ st.2.length) Err.index
  let chunk := s.byPair (((st.1.take stop).drop start).zip ((st.2.take stop).drop start))
  return (st.1.take start ++ chunk.map (fun c => c.1) ++ st.1.drop stop,
          st.2.take start ++ chunk.map (fun c => c.2) ++ st.2.drop stop)

/-- `cplxreal_dyn` (cplx.rs 54-168). -/
noncomputable def cplxreal (eps : ℝ) (s : Sorts) (z : List ℂ) (tol : Option ℝ) :
    Res (List ℂ × List ℂ) :=
  if z = [] then return ([], [])
  else do
    let tol := tol.getD (eps * 100)
    let z := s.byKey z
    let isReal : ℂ → Bool := fun zi => decide (|zi.im| ≤ tol * (csqrt (zi * zi)).re)
    let zr := z.filter isReal
    let zc := z.filter (fun zi => !isReal zi)
    if zr.length = z.length then return ([], zr)
    else
      let zp := zc.filter (fun zi => decide (zi.im > 0))
      let zn := zc.filter (fun zi => decide (zi.im < 0))
      if zp.length ≠ zn.length then .error Err.panic
      else
        let d := diffs (sameReal tol zp)
        let starts := indicesOf (fun x => decide (x > 0)) d
        let stops := indicesOf (fun x => decide (x < 0)) d
        check (starts.length = stops.length)
        let st ← (starts.zip stops).foldlM (fun st q => sortRun s st q.1 (q.2 + 1)) (zp, zn)
        if (st.1.zip st.2).any (fun q => decide (‖q.1 - (starRingEnd ℂ) q.2‖ > tol * ‖q.2‖)) then
          .error Err.panic
        else
          return ((st.1.zip st.2).map (fun q => (q.1 + (starRingEnd ℂ) q.2) / 2), zr)

end SciRs.Design

import Verif.Model.Design.Zpk
import Mathlib.Data.List.Sort

/-!
# Model of `signal/filter/design/zpk2tf.rs` and `sort_cplx_dyn`, in exact complex arithmetic
-/

namespace SciRs.Design

open Complex Classical

/-- `x[i]` on a slice.  Used in `zpk2tf.rs:116, 120`. -/
def idx {α : Type*} (l : List α) (i : ℕ) : Res α :=
  match l[i]? with
  | some x => .ok x
  | none => .error Err.index

/-- The comparison of `sort_cplx_dyn` (cplx.rs 171-188): real part, then imaginary part. -/
def cplxLe (a b : ℂ) : Prop := a.re < b.re ∨ (a.re = b.re ∧ a.im ≤ b.im)

/-- `sort_cplx_dyn` (cplx.rs 171-188).  The order is total and antisymmetric, so every correct sort,
stable or not, gives the same list.  The two `expect`s fail only on NaN, which is not modelled. -/
noncomputable def sortCplx (l : List ℂ) : List ℂ := l.mergeSort (fun a b => decide (cplxLe a b))

/-- Entry `i` of the convolution in `poly_dyn` (zpk2tf.rs 113-127).  `b[i]` starts at zero and `i` ranges
over the indices of `b`, so its writes are in bounds. -/
def polyEntry (a k : List ℂ) (i : ℕ) : Res ℂ :=
  let ui := if i > a.length then i - 2 else 0
  let uf := min i (a.length - 1)
  if ui = uf then do
    let x ← idx a ui
    let y ← idx k (i - ui)
    return 0 + x * y
  else
    (List.range' ui (uf + 1 - ui)).foldlM (fun acc u =>
      if i - u < 2 then do
        let x ← idx a u
        let y ← idx k (i - u)
        return acc + x * y
      else return acc) 0

/-- One pass of the loop over the roots (zpk2tf.rs 109-129). -/
def polyStep (a : List ℂ) (zi : ℂ) : Res (List ℂ) :=
  (List.range (a.length + 2 - 1)).mapM (polyEntry a [1, -zi])

/-- `poly_dyn` (zpk2tf.rs 101-143). -/
noncomputable def poly (z : List ℂ) : Res (List ℂ) := do
  let a ← z.foldlM polyStep [1]
  let roots := sortCplx z
  let rootConjs := sortCplx (z.map (starRingEnd ℂ))
  if (roots.zip rootConjs).all (fun q => decide (q.1 = q.2)) then
    return a.map (fun ai => ((ai.re : ℝ) : ℂ))
  else return a

/-- The closure `poly2ba` (zpk2tf.rs 58-83). -/
noncomputable def poly2ba (x y : List ℂ) : List ℂ :=
  let pos := y.filter (fun i => decide (i.im > 0))
  let neg := (y.filter (fun i => decide (i.im < 0))).map (starRingEnd ℂ)
  if pos.length = neg.length then
    if ((sortCplx pos).zip (sortCplx neg)).all (fun q => decide (q.1 = q.2)) then
      x.map (fun xi => ((xi.re : ℝ) : ℂ))
    else x
  else x

/-- Real parts written over the start of `order + 1` zeros (zpk2tf.rs 88-95); what does not fit is
dropped by `zip`. -/
def fillReal (order : ℕ) (v : List ℂ) : List ℝ :=
  (v.take (order + 1)).map Complex.re ++ List.replicate (order + 1 - v.length) 0

/-- `BaFormatFilter` (filter_output.rs). -/
structure Ba where
  b : List ℝ
  a : List ℝ

/-- `zpk2tf_dyn` (zpk2tf.rs 44-97). -/
noncomputable def zpk2tf (order : ℕ) (z p : List ℂ) (k : ℝ) : Res Ba := do
  let pz ← poly z
  let b := pz.map (fun bi => (k : ℂ) * bi)
  let a ← poly p
  return { b := fillReal order (poly2ba b z), a := fillReal order (poly2ba a p) }

end SciRs.Design

import Verif.Model.PrimInt
import Verif.Model.Iter
import Mathlib.Data.Real.Basic

/-!
# Model of `sci-rs/src/signal/filter/savgol_filter.rs`

Law-free arithmetic, with the operations in the order of the code.

The external solver `lstsq::lstsq` is a parameter; what is assumed about it is stated in
`Verif/Spec/LeastSquares.lean`.  Its result is never an error there: the tolerance is positive and the
singular vectors are computed.  The tolerance `1e-9` is a device for rounded arithmetic and is not modelled.
Running out of memory is not modelled; the casts `as i32` of exponents assume orders below `2^31`.
-/

namespace SciRs.Savgol

/-- What the code uses of the number type besides `+ - * /`: `F::from_usize`, `F::from_f32(0.5)` and `powi`.  Used
in `savgol_filter.rs:92, 96, 98, 102, 119, 132`. -/
class SavNum (F : Type) where
  /-- `F::from_usize(n).unwrap()` -/
  ofUsize : ℕ → F
  /-- `F::from_f32(0.5).unwrap()` -/
  half : F
  /-- `x.powi(n)` -/
  powi : F → ℕ → F

/-- Exact numbers.  The operations of `savgol_filter.rs:92-132` without rounding. -/
noncomputable instance : SavNum ℝ := ⟨fun n => (n : ℝ), 1 / 2, fun x n => x ^ n⟩

/-- The solver: number of rows, number of columns, matrix, right-hand side.  `lstsq::lstsq` of
`savgol_filter.rs:135`. -/
abbrev Solver (F : Type) := ℕ → ℕ → (ℕ → ℕ → F) → (ℕ → F) → List F

variable {F : Type}

/-- `a * b` on `usize`.  Used in `savgol_filter.rs:140`. -/
def usizeMul (c : Cfg) (a b : ℕ) : Res ℕ :=
  if ((a * b : ℕ) : ℤ) ≤ c.usizeMax then .ok (a * b)
  else if c.checked then .error Err.overflow else .ok (a * b % 2 ^ c.ptrBits)

/-- `factorial` (savgol_filter.rs 139-141): the product of `1..=n` in `usize`. -/
def factorial (c : Cfg) (n : ℕ) : Res ℕ :=
  (List.range n).foldlM (fun acc i => usizeMul c acc (i + 1)) 1

/-- `pos` (savgol_filter.rs 93-105). -/
def pos [Sub F] [SavNum F] (w i : ℕ) : F :=
  if w % 2 = 0 then SavNum.ofUsize (w / 2) - SavNum.ofUsize i - SavNum.half
  else SavNum.ofUsize (w / 2) - SavNum.ofUsize i

/-- `savgol_coeffs_dyn` (savgol_filter.rs 79-137). -/
def savgolCoeffsDyn [Zero F] [One F] [Sub F] [Div F] [SavNum F] (c : Cfg) (lstsq : Solver F)
    (windowLength polyorder : ℕ) (deriv : Option ℕ) (delta : Option F) : Res (List F) :=
  if polyorder ≥ windowLength then .error Err.panic
  else
    let der := deriv.getD 0
    let del := delta.getD 1
    if der > polyorder then .ok (List.replicate windowLength 0)
    else do
      let f ← factorial c der
      return lstsq (polyorder + 1) windowLength (fun i j => SavNum.powi (pos windowLength j) i)
        (fun i => if i = der then SavNum.ofUsize f / SavNum.powi del der else 0)

/-- `data.windows(w)` for `w ≥ 1`.  Used in `savgol_filter.rs:64`. -/
def windows (w : ℕ) (l : List F) : List (List F) :=
  (List.range (l.length + 1 - w)).map (fun k => (l.drop k).take w)

/-- `w.iter().zip(fir.iter()).map(|(a, b)| *a * *b).sum()`.  `savgol_filter.rs:65`. -/
def dot [Zero F] [Add F] [Mul F] (a b : List F) : F := sumIter ((a.zip b).map (fun p => p.1 * p.2))

/-- The padded data (savgol_filter.rs 51-61) of a non-empty signal `y0 :: ys`. -/
def padNearest [Zero F] (w : ℕ) (y0 : F) (ys : List F) : List F :=
  let data := List.replicate (w / 2 + 1) y0 ++ ys
  data ++ List.replicate (w / 2) (data.getLastD 0)

/-- `savgol_filter_dyn` (savgol_filter.rs 23-69). -/
def savgolFilterDyn [Zero F] [One F] [Add F] [Sub F] [Mul F] [Div F] [SavNum F] (c : Cfg)
    (lstsq : Solver F) (y : List F) (windowLength polyorder : ℕ) (deriv : Option ℕ)
    (delta : Option F) : Res (List F) :=
  if windowLength % 2 = 0 then .error Err.panic
  else do
    let s ← c.usizeAdd polyorder 2
    if windowLength < s then .error Err.panic
    else do
      let fir ← savgolCoeffsDyn c lstsq windowLength polyorder deriv delta
      match y with
      | [] => .ok []
      | y0 :: ys =>
        .ok ((windows windowLength (padNearest windowLength y0 ys)).map (fun w => dot w fir.reverse))

end SciRs.Savgol

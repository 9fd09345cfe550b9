import Verif.Basic

/-!
# nalgebra's dynamically sized matrices, as far as the code uses them

`OMatrix<T, Dyn, Dyn>` is a shape and a function from indices to entries; entries outside the shape
carry no meaning.  `get_unchecked`/`get_unchecked_mut` outside the shape are undefined behaviour and
give `Err.ub`.
-/

namespace SciRs

/-- A matrix with `nrows` rows and `ncols` columns.  The `OMatrix` of `ext.rs:26-32, 95` and `companion.rs:12`. -/
structure DMat (T : Type) where
  nrows : Nat
  ncols : Nat
  entry : Nat → Nat → T

namespace DMat
variable {T : Type}

/-- `Matrix::zeros(r, c)`.  Used in `ext.rs:125-133, 176-184` and `companion.rs:25-30`. -/
def zeros [Zero T] (r c : Nat) : DMat T := ⟨r, c, fun _ _ => 0⟩

/-- `*m.get_unchecked((i, j))`.  Used in `ext.rs:141, 150, 162, 192`. -/
def getUnchecked (m : DMat T) (i j : Nat) : Res T :=
  if i < m.nrows ∧ j < m.ncols then .ok (m.entry i j) else .error Err.ub

/-- The matrix with entry `(i, j)` replaced by `v`.  The effect of the stores of `ext.rs:140, 150, 161, 191` and
`companion.rs:33`. -/
def put (m : DMat T) (i j : Nat) (v : T) : DMat T :=
  { m with entry := fun i' j' => if i' = i ∧ j' = j then v else m.entry i' j' }

/-- `*m.get_unchecked_mut((i, j)) = v`.  Used in `ext.rs:140, 150, 161, 191` and `companion.rs:33`. -/
def setUnchecked (m : DMat T) (i j : Nat) (v : T) : Res (DMat T) :=
  if i < m.nrows ∧ j < m.ncols then .ok (m.put i j v) else .error Err.ub

/-- `transpose_mut` / `transpose`.  Used in `lfilter_zi.rs:57`. -/
def transpose (m : DMat T) : DMat T := ⟨m.ncols, m.nrows, fun i j => m.entry j i⟩

/-- A column vector built from a `Vec` (`DVector::from_vec`).  Used in `sosfiltfilt.rs:30`. -/
def ofVec [Zero T] (v : List T) : DMat T := ⟨v.length, 1, fun i _ => v.getD i 0⟩

/-- `m.iter()`: nalgebra iterates in column-major order.  Used in `sosfiltfilt.rs:42`. -/
def iter (m : DMat T) : List T :=
  (List.range m.ncols).flatMap fun j => (List.range m.nrows).map fun i => m.entry i j

/-- `Matrix::from_iterator(rows, cols, m.into_iter())` of the same shape: a copy.  Used in `ext.rs:59-67, 74-82,
106-114`. -/
def copy (m : DMat T) : DMat T := m

end DMat
end SciRs

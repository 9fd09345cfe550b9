import Verif.Model.Sos

/-!
# Model of `signal/filter/sosfilt.rs`

The carrier `F` only has `+`, `-` and `*`; no law is assumed.  Instantiating it with IEEE binary32
or binary64 arithmetic gives the code's floating-point operations in the code's order.

`&mut` sections are threaded: every function returns the updated section list.
-/

namespace SciRs

section
variable {F : Type} [Add F] [Sub F] [Mul F]

/-- The loop `iter_mut().fold(init, f)` over a mutable slice: the accumulator and every element are updated in
order.  Used in `sosfilt.rs:37-42, 204-209`. -/
def foldMut {A S : Type} (f : A → S → A × S) : A → List S → A × List S
  | acc, [] => (acc, [])
  | acc, s :: ss =>
    let r := f acc s
    let rest := foldMut f r.1 ss
    (rest.1, r.2 :: rest.2)

/-- `into_iter().map(|y| g(y, &mut state)).collect()`.  Used in `sosfilt.rs:34-44, 166-169`. -/
def mapMut {I O S : Type} (g : I → S → O × S) : List I → S → List O × S
  | [], st => ([], st)
  | y :: ys, st =>
    let r := g y st
    let rest := mapMut g ys r.2
    (r.1 :: rest.1, rest.2)

/-- The closure of the specialised arms, `sosfilt.rs:37-42` (repeated verbatim at 48-53, 59-64,
70-75, 81-86, 92-97, 103-108, 114-119, 125-130, 136-141, 147-152, 158-163). -/
def armStep (x : F) (s : Sos F) : F × Sos F :=
  let xNew := s.b0 * x + s.zi0
  (xNew, { s with zi0 := s.b1 * x - s.a1 * xNew + s.zi1, zi1 := s.b2 * x - s.a2 * xNew })

/-- The closure of `sosfilt_item`, `sosfilt.rs:204-209`. -/
def itemStep (x : F) (s : Sos F) : F × Sos F :=
  let xNew := s.b0 * x + s.zi0
  (xNew, { s with zi0 := s.b1 * x - s.a1 * xNew + s.zi1, zi1 := s.b2 * x - s.a2 * xNew })

/-- `sosfilt.rs:215-220`, `biquad_fold`. -/
def biquadFold (yi : F) (s : Sos F) : F × Sos F :=
  let x := s.b0 * yi + s.zi0
  (x, { s with zi0 := s.b1 * yi - s.a1 * x + s.zi1, zi1 := s.b2 * yi - s.a2 * x })

/-- `sosfilt.rs:199-210`, `sosfilt_item`. -/
def sosfiltItem (y : F) (sos : List (Sos F)) : F × List (Sos F) :=
  foldMut itemStep y sos

/-- One sample in a specialised arm: the fold runs over `sos[..k].iter_mut()`
(`sosfilt.rs:37` and its repetitions), the sections from `k` on are untouched. -/
def armItem (k : Nat) (y : F) (sos : List (Sos F)) : F × List (Sos F) :=
  let r := foldMut armStep y (sos.take k)
  (r.1, r.2 ++ sos.drop k)

/-- `sosfilt.rs:27-171`, `sosfilt_dyn`: the `match sos.len()` with its twelve specialised arms.
Returns the output and the updated sections. -/
def sosfiltDyn (y : List F) (sos : List (Sos F)) : List F × List (Sos F) :=
  match sos.length with
  | 2 => mapMut (armItem 2) y sos
  | 3 => mapMut (armItem 3) y sos
  | 4 => mapMut (armItem 4) y sos
  | 5 => mapMut (armItem 5) y sos
  | 6 => mapMut (armItem 6) y sos
  | 8 => mapMut (armItem 8) y sos
  | 10 => mapMut (armItem 10) y sos
  | 12 => mapMut (armItem 12) y sos
  | 14 => mapMut (armItem 14) y sos
  | 16 => mapMut (armItem 16) y sos
  | 18 => mapMut (armItem 18) y sos
  | 20 => mapMut (armItem 20) y sos
  | _ => mapMut sosfiltItem y sos

/-- The iterator returned by `sosfilt_st` (`sosfilt.rs:181-188`): the samples not yet consumed and
the sections it borrows mutably. -/
structure SosfiltSt (F : Type) where
  rest : List F
  sos : List (Sos F)
  deriving DecidableEq

/-- `sosfilt.rs:181-188`, `sosfilt_st`: nothing is computed until the iterator is advanced. -/
def sosfiltSt (y : List F) (sos : List (Sos F)) : SosfiltSt F := ⟨y, sos⟩

/-- One `next()` on the iterator returned by `sosfilt_st` (`sosfilt.rs:187`). -/
def SosfiltSt.next (it : SosfiltSt F) : Option F × SosfiltSt F :=
  match it.rest with
  | [] => (none, it)
  | y :: ys =>
    let r := sosfiltItem y it.sos
    (some r.1, ⟨ys, r.2⟩)

/-- Advancing the iterator `n` times and collecting what it yields (`Iterator::take(n).collect()` through
`by_ref`).  A caller of the iterator of `sosfilt.rs:181-188`. -/
def SosfiltSt.pull : Nat → SosfiltSt F → List F × SosfiltSt F
  | 0, it => ([], it)
  | n + 1, it =>
    match it.next with
    | (none, it') => ([], it')
    | (some v, it') =>
      let r := SosfiltSt.pull n it'
      (v :: r.1, r.2)

end

section
variable {I F : Type} [Add F] [Sub F] [Mul F]

/-- The plain loop `for (yi, zi) in y.iter().zip(z.iter_mut())` of `sosfilt.rs:307-312` and, with a
conversion of the sample, `402-407` (also the loop body of the tiled arms, e.g. 236-241 and
331-336): `*zi = conv(*yi)` and then `*zi = biquad_fold(*zi, s)` for every section.
`zip` stops at the shorter slice; the rest of `z` keeps its old contents. -/
def loop32 (conv : I → F) : List I → List F → List (Sos F) → List F × List (Sos F)
  | [], z, sos => (z, sos)
  | _ :: _, [], sos => ([], sos)
  | yi :: ys, _ :: zs, sos =>
    let r := foldMut biquadFold (conv yi) sos
    let rest := loop32 conv ys zs r.2
    (r.1 :: rest.1, rest.2)

/-- The tiled loop `y.chunks_exact(4).zip(z.chunks_exact_mut(4)).for_each(..)` of
`sosfilt.rs:233-242` (repeated at 248-257, 263-272, 278-287, 293-302 and, with a conversion,
328-337, 343-352, 358-367, 373-382, 388-397).  Incomplete chunks are skipped. -/
def tile32 (conv : I → F) : List I → List F → List (Sos F) → List F × List (Sos F)
  | y0 :: y1 :: y2 :: y3 :: ys, z0 :: z1 :: z2 :: z3 :: zs, sos =>
    let r := loop32 conv [y0, y1, y2, y3] [z0, z1, z2, z3] sos
    let rest := tile32 conv ys zs r.2
    (r.1 ++ rest.1, rest.2)
  | _, z, sos => (z, sos)

/-- `sosfilt.rs:222-315`, `_sosfilt32` (with `conv` the identity) and `sosfilt.rs:317-410`,
`_sosfilt_isize_32` (with `conv` the cast `Into::<isize>::into(yi) as f32`).  The two functions are
identical up to that conversion.  `z` is the output buffer; the result is its new contents and the
new sections.  The match on `(sos.len(), y.len() % TILE == 0)` is written as a test of the second
component followed by a match on the first.  The tiled arms end with a recursive call on the
`len % TILE` last samples. -/
def sosfilt32Core (conv : I → F) (y : List I) (sos : List (Sos F)) (z : List F) :
    Res (List F × List (Sos F)) :=
  if y.length ≠ z.length then .error Err.panic
  else if _hy : y = [] then .ok (z, sos)
  else if _hm : y.length % 4 = 0 then
    let tiled : Res (List F × List (Sos F)) :=
      let rem := y.length % 4
      let r := tile32 conv y z sos
      let idx := y.length - rem
      match sosfilt32Core conv (y.drop idx) r.2 (r.1.drop idx) with
      | .error e => .error e
      | .ok r2 => .ok (r.1.take idx ++ r2.1, r2.2)
    match sos.length with
    | 2 => tiled
    | 4 => tiled
    | 6 => tiled
    | 8 => tiled
    | 10 => tiled
    | _ => .ok (loop32 conv y z sos)
  else .ok (loop32 conv y z sos)
  termination_by y.length
  decreasing_by
    have : 0 < y.length := List.length_pos_iff.mpr _hy
    rw [List.length_drop]
    omega

/-- `sosfilt.rs:421-423`, `sosfilt_fast32_st`. -/
def sosfiltFast32St (y : List F) (sos : List (Sos F)) (z : List F) :
    Res (List F × List (Sos F)) :=
  sosfilt32Core (fun v => v) y sos z

/-- `sosfilt.rs:435-440`, `sosfilt_ifast32_st`; `conv` is the sample conversion
`Into::<isize>::into(yi) as f32`. -/
def sosfiltIfast32St (conv : I → F) (y : List I) (sos : List (Sos F)) (z : List F) :
    Res (List F × List (Sos F)) :=
  sosfilt32Core conv y sos z

end
end SciRs

import Verif.Lemmas.Sosfilt

/-!
# C20, C21, C22, C24 (law-free part): the cascade implementations agree bit for bit

All theorems hold for every carrier with `+`, `-`, `*` and no laws, hence for IEEE floats.
-/

namespace SciRs.Props

open SciRs

section
variable {F : Type} [Add F] [Sub F] [Mul F]

/-- **C20** `sosfilt_dyn`, whatever arm the number of sections selects, returns the output of the
section-by-section specification and leaves the sections in the specified states. -/
theorem C20_sosfilt_dyn_eq_cascade (y : List F) (sos : List (Sos F)) :
    sosfiltDyn y sos = Spec.cascade sos y := by
  rw [sosfiltDyn_eq, mapMut_item_eq_cascade]

example : sosfiltDyn [1, 0, 0] [⟨2, 3, 5, 1, 7, 11, 0, 0⟩, ⟨1, 1, 0, 1, 0, 2, 4, (-1 : Int)⟩] =
    ([6, -10, 37], [⟨2, 3, 5, 1, 7, 11, -299, -660⟩, ⟨1, 1, 0, 1, 0, 2, 80, -74⟩]) := by decide

/-- **C20** Advancing the iterator of `sosfilt_st` `n` times yields the specified output of the
first `n` samples, leaves the other samples unconsumed and the sections in the state reached after
those `n` samples. -/
theorem C20_sosfilt_st_eq_cascade (n : Nat) (y : List F) (sos : List (Sos F)) :
    (sosfiltSt y sos).pull n =
      ((Spec.cascade sos (y.take n)).1, ⟨y.drop n, (Spec.cascade sos (y.take n)).2⟩) := by
  rw [pull_eq, mapMut_item_eq_cascade]

/-- **C20** Calling `sosfilt_item` once per sample is the same as one call of `sosfilt_dyn`. -/
theorem C20_sosfilt_item_eq_dyn (y : List F) (sos : List (Sos F)) :
    mapMut sosfiltItem y sos = sosfiltDyn y sos :=
  (sosfiltDyn_eq y sos).symm

/-- **C20** Exhausting the `sosfilt_st` iterator is the same as one call of `sosfilt_dyn`. -/
theorem C20_sosfilt_st_eq_dyn (y : List F) (sos : List (Sos F)) (n : Nat) (h : y.length ≤ n) :
    (sosfiltSt y sos).pull n = ((sosfiltDyn y sos).1, ⟨[], (sosfiltDyn y sos).2⟩) := by
  rw [C20_sosfilt_st_eq_cascade, C20_sosfilt_dyn_eq_cascade, List.take_of_length_le h,
    List.drop_of_length_le h]

example : (sosfiltSt [1, 2] [⟨2, 3, 5, 1, 7, 11, 0, (0 : Int)⟩]).pull 5 =
    ([2, -7], ⟨[], [⟨2, 3, 5, 1, 7, 11, 38, 87⟩]⟩) := by decide

/-- The ways in which a caller can push a block of samples through the sections. -/
inductive Api (F : Type) where
  /-- `sosfilt_dyn` -/
  | dyn
  /-- `sosfilt_item` called for each sample -/
  | item
  /-- `sosfilt_st`, iterator exhausted -/
  | st
  /-- `sosfilt_fast32_st` with the given output buffer -/
  | fast (buffer : List F)

/-- Push one block through the sections with the chosen function. -/
def Api.push (api : Api F) (block : List F) (sos : List (Sos F)) :
    Res (List F × List (Sos F)) :=
  match api with
  | .dyn => .ok (sosfiltDyn block sos)
  | .item => .ok (mapMut sosfiltItem block sos)
  | .st => .ok (((sosfiltSt block sos).pull block.length).1,
      ((sosfiltSt block sos).pull block.length).2.sos)
  | .fast buffer => sosfiltFast32St block sos buffer

/-- Push a sequence of blocks, each with its own choice of function, carrying the sections over and
concatenating the outputs. -/
def pushAll : List (Api F × List F) → List (Sos F) → Res (List F × List (Sos F))
  | [], sos => .ok ([], sos)
  | c :: cs, sos => do
    let r ← c.1.push c.2 sos
    let q ← pushAll cs r.2
    return (r.1 ++ q.1, q.2)

/-- The caller's only obligation: an output buffer has the length of its block. -/
def Api.Fits (api : Api F) (block : List F) : Prop :=
  match api with
  | .fast buffer => buffer.length = block.length
  | _ => True

theorem push_eq (api : Api F) (block : List F) (sos : List (Sos F)) (h : api.Fits block) :
    api.push block sos = .ok (sosfiltDyn block sos) := by
  cases api with
  | dyn => rfl
  | item => simp only [Api.push, C20_sosfilt_item_eq_dyn]
  | st => simp only [Api.push, C20_sosfilt_st_eq_dyn block sos _ (Nat.le_refl _)]
  | fast buffer =>
    simp only [Api.push, sosfiltFast32St]
    rw [sosfilt32Core_eq _ _ _ _ (Eq.symm h), sosfiltDyn_eq, List.map_id']

/-- **C21** Cutting a signal into any blocks, and processing every block with any of the four
functions, gives exactly the output and the final states of one `sosfilt_dyn` call on the whole
signal. -/
theorem C21_chunked (cs : List (Api F × List F)) (sos : List (Sos F))
    (h : ∀ c ∈ cs, c.1.Fits c.2) :
    pushAll cs sos = .ok (sosfiltDyn (cs.map (·.2)).flatten sos) := by
  induction cs generalizing sos with
  | nil => simp [pushAll, sosfiltDyn_eq, mapMut]
  | cons c cs ih =>
    have h1 := push_eq c.1 c.2 sos (h c (by simp))
    have h2 := ih (sosfiltDyn c.2 sos).2 (fun d hd => h d (by simp [hd]))
    simp only [pushAll, h1, h2, ok_bind, List.map_cons, List.flatten_cons]
    simp only [sosfiltDyn_eq, mapMut_append]
    rfl

example : ∀ c ∈ [(Api.fast [9, 9, 9, 9], [1, 2, 3, 4]), (Api.st, [5]), (Api.dyn, [(6 : Int), 7])],
    c.1.Fits c.2 := by
  simp [Api.Fits]

/-- **C24** The output has as many samples as the input and the sections keep their number. -/
theorem C24_length (y : List F) (sos : List (Sos F)) :
    (sosfiltDyn y sos).1.length = y.length ∧ (sosfiltDyn y sos).2.length = sos.length := by
  refine ⟨by rw [sosfiltDyn_eq, mapMut_length], ?_⟩
  rw [C20_sosfilt_dyn_eq_cascade]
  induction sos generalizing y with
  | nil => rfl
  | cons s ss ih => simp [Spec.cascade, ih]

/-- **C24** Causality: the first `n` outputs depend only on the first `n` inputs. -/
theorem C24_causal (y : List F) (sos : List (Sos F)) (n : Nat) :
    (sosfiltDyn y sos).1.take n = (sosfiltDyn (y.take n) sos).1 := by
  simp only [sosfiltDyn_eq]
  have e := mapMut_append sosfiltItem (y.take n) (y.drop n) sos
  rw [List.take_append_drop] at e
  rw [e]
  by_cases hn : n ≤ y.length
  · rw [List.take_append_of_le_length (by rw [mapMut_length, List.length_take]; omega)]
    rw [List.take_of_length_le (by rw [mapMut_length, List.length_take]; omega)]
  · have h1 : y.take n = y := List.take_of_length_le (by omega)
    have h2 : y.drop n = [] := List.drop_of_length_le (by omega)
    simp only [h1, h2, mapMut, List.append_nil]
    rw [List.take_of_length_le (by rw [mapMut_length]; omega)]

/-- The coefficients of a section (everything but the delays). -/
def coeffs (s : Sos F) : F × F × F × F × F × F := (s.b0, s.b1, s.b2, s.a0, s.a1, s.a2)

/-- **C24** Filtering never changes a coefficient. -/
theorem C24_coeffs_unchanged (y : List F) (sos : List (Sos F)) :
    (sosfiltDyn y sos).2.map coeffs = sos.map coeffs := by
  rw [C20_sosfilt_dyn_eq_cascade]
  induction sos generalizing y with
  | nil => rfl
  | cons s ss ih => simp [Spec.cascade, ih, coeffs]

end

section
variable {I F : Type} [Add F] [Sub F] [Mul F]

/-- **C22** With an output buffer of the right length `sosfilt_fast32_st` never panics, fills the
buffer with what `sosfilt_dyn` returns, whatever the buffer held before, and leaves the same
section states. -/
theorem C22_fast32 (y z : List F) (sos : List (Sos F)) (h : z.length = y.length) :
    sosfiltFast32St y sos z = .ok (sosfiltDyn y sos) := by
  rw [sosfiltFast32St, sosfilt32Core_eq _ _ _ _ h.symm, sosfiltDyn_eq, List.map_id']

example : ([0, 0, 0, 0, 0, 0, 0, 0] : List Int).length = [1, 2, 3, 4, 5, 6, 7, 8].length := rfl

/-- **C22** The integer kernel does the same on the converted samples. -/
theorem C22_ifast32 (conv : I → F) (y : List I) (z : List F) (sos : List (Sos F))
    (h : z.length = y.length) :
    sosfiltIfast32St conv y sos z = .ok (sosfiltDyn (y.map conv) sos) := by
  rw [sosfiltIfast32St, sosfilt32Core_eq _ _ _ _ h.symm, sosfiltDyn_eq]

/-- **C22** Both kernels panic exactly when the buffer lengths differ. -/
theorem C22_panics_iff (conv : I → F) (y : List I) (z : List F) (sos : List (Sos F)) :
    (Panics (sosfiltIfast32St conv y sos z) ↔ y.length ≠ z.length) ∧
    (∀ w : List F, Panics (sosfiltFast32St w sos z) ↔ w.length ≠ z.length) := by
  have key : ∀ {J : Type} (c : J → F) (w : List J),
      Panics (sosfilt32Core c w sos z) ↔ w.length ≠ z.length := by
    intro J c w
    by_cases h : w.length = z.length
    · rw [sosfilt32Core_eq _ _ _ _ h]
      simp [h]
    · rw [sosfilt32Core]
      simp [h]
  exact ⟨key conv y, fun w => key _ w⟩

example : Panics (sosfiltFast32St [1, 2, 3] [⟨1, 0, 0, 1, 0, 0, 0, (0 : Int)⟩] [0, 0]) :=
  ((C22_panics_iff (fun v : Int => v) [] [0, 0] _).2 [1, 2, 3]).mpr (by decide)

end
end SciRs.Props

import Verif.Lemmas.ExtRelease
import Verif.Props.CompanionRelease

/-!
# C119: odd extension, padding and zero-phase filtering in every build
-/

namespace SciRs.Props

open SciRs SciRs.Spec

section
variable {T : Type} [Zero T] [One T] [Add T] [Mul T] [Sub T]

/-- **C119** If the elements take two bytes or more, then for every matrix that fits in memory `odd_ext_dyn` behaves in
every build, with or without overflow checks and for every pointer width, as with exact sizes (so `C29_odd_ext` and
`C29_panics_iff` describe it). -/
theorem C119_odd_ext_builds (c : Cfg) (size : ℕ) (hs : 2 ≤ size) (x : DMat T) (n axis : ℕ)
    (hx : InMemory c size x.nrows x.ncols) (hl : 0 < lines x axis) :
    oddExtDynIn c x n axis = oddExtDyn x n axis := by
  have hd := dim_le hx axis hl
  have h2 := Nat.mul_le_mul_right (dim x axis) hs
  by_cases hn : n < dim x axis
  swap
  · by_cases h0 : n < 1
    · simp [oddExtDynIn, oddExtDyn, h0]
    · match axis with
      | 0 =>
        have : ¬ n < x.nrows := by simpa [dim] using hn
        simp [oddExtDynIn, oddExtDyn, h0, this]
      | 1 =>
        have : ¬ n < x.ncols := by simpa [dim] using hn
        simp [oddExtDynIn, oddExtDyn, h0, this]
      | k + 2 => simp [oddExtDynIn, oddExtDyn]
  · match axis with
    | 0 =>
      simp only [dim, if_true] at hn h2 hd
      exact oddExtDynIn_rows c x n (by omega)
    | 1 =>
      simp only [dim, one_ne_zero, if_false] at hn h2 hd
      exact oddExtDynIn_cols c x n (by omega)
    | k + 2 => simp [oddExtDynIn, oddExtDyn]

/-- **C119** If the elements take two bytes or more, no call of `odd_ext_dyn` reaches an unchecked access out of
bounds, in any build: matrices without rows or without columns included. -/
theorem C119_odd_ext_safe (c : Cfg) (size : ℕ) (hs : 2 ≤ size) (x : DMat T) (n axis : ℕ)
    (hx : InMemory c size x.nrows x.ncols) :
    oddExtDynIn c x n axis ≠ .error Err.ub := by
  rcases Nat.eq_zero_or_pos (lines x axis) with hl | hl
  · match axis with
    | 0 => exact oddExtDynIn_no_cols c x n (by simpa [lines] using hl)
    | 1 => exact oddExtDynIn_no_rows c x n (by simpa [lines] using hl)
    | k + 2 => simp [oddExtDynIn]
  · rw [C119_odd_ext_builds c size hs x n axis hx hl]
    exact (C29_panics_iff x n axis).2

/-- A 64-bit release build, a million `f64` samples. -/
example : InMemory ⟨64, false, by norm_num⟩ 8 1000000 1 := by
  unfold InMemory Allocatable
  norm_num

/-- **C119 fails for elements of one byte** (`i8`, `u8`): `odd_ext_dyn` is safe code, and in a build without overflow
checks it writes out of bounds exactly when the extended length `len + 2 n` does not fit in `usize`.  With overflow
checks the same calls panic. -/
theorem C119_one_byte (c : Cfg) (x : DMat T) (n axis : ℕ) (hx : InMemory c 1 x.nrows x.ncols)
    (ha : axis < 2) (hl : 0 < lines x axis) (hn : n < dim x axis) :
    (c.checked = false →
      (oddExtDynIn c x n axis = .error Err.ub ↔ 2 ^ c.ptrBits ≤ dim x axis + 2 * n)) ∧
    (c.checked = true →
      (oddExtDynIn c x n axis = .error Err.overflow ↔ 2 ^ c.ptrBits ≤ dim x axis + 2 * n) ∧
      oddExtDynIn c x n axis ≠ .error Err.ub) := by
  have hd := dim_le hx axis hl
  by_cases hb : 2 ^ c.ptrBits ≤ dim x axis + 2 * n
  · have : oddExtDynIn c x n axis = if c.checked then .error Err.overflow else .error Err.ub := by
      match axis, ha with
      | 0, _ =>
        simp only [dim, lines, if_true] at hn hd hb hl
        exact oddExtDynIn_rows_wrap c x n hl hn (by omega) hb
      | 1, _ =>
        simp only [dim, lines, one_ne_zero, if_false] at hn hd hb hl
        exact oddExtDynIn_cols_wrap c x n hl hn (by omega) hb
    rw [this]
    refine ⟨fun h => ?_, fun h => ?_⟩
    · simp [h, hb]
    · simp [h, hb]
  · have : oddExtDynIn c x n axis = oddExtDyn x n axis := by
      match axis, ha with
      | 0, _ =>
        simp only [dim, if_true] at hb
        exact oddExtDynIn_rows c x n (by omega)
      | 1, _ =>
        simp only [dim, one_ne_zero, if_false] at hb
        exact oddExtDynIn_cols c x n (by omega)
    obtain ⟨m, hm, _⟩ := C29_odd_ext x n axis ha (Or.inr hn)
    rw [this, hm]
    simp [hb]

/-- Such calls exist in every build: a column of bytes, one third of the address space long, that fits in memory. -/
theorem C119_one_byte_ub (c : Cfg) (hc : c.checked = false) (T : Type) [Zero T] [One T] [Add T] [Mul T] [Sub T]
    (v : ℕ → T) :
    ∃ rows n, InMemory c 1 rows 1 ∧ 3 * rows ≤ 2 ^ c.ptrBits + 6 ∧
      oddExtDynIn c ⟨rows, 1, fun i _ => v i⟩ n 0 = .error Err.ub := by
  have h16 := c.h16
  have hp : 2 ^ c.ptrBits = 2 * 2 ^ (c.ptrBits - 1) := by
    rw [← pow_succ']
    congr 1
    omega
  have hbig : 2 ^ 15 ≤ 2 ^ (c.ptrBits - 1) := Nat.pow_le_pow_right (by norm_num) (by omega)
  have hmem : InMemory c 1 (2 ^ c.ptrBits / 3 + 2) 1 := by
    unfold InMemory Allocatable
    rw [hp]
    omega
  refine ⟨2 ^ c.ptrBits / 3 + 2, 2 ^ c.ptrBits / 3 + 1, hmem, by omega, ?_⟩
  exact ((C119_one_byte c (⟨2 ^ c.ptrBits / 3 + 2, 1, fun i _ => v i⟩ : DMat T) (2 ^ c.ptrBits / 3 + 1) 0 hmem (by norm_num)
    (by simp [lines]) (by simp [dim])).1 hc).2 (by simp only [dim, if_true]; omega)

/-- **C119** The same for `pad`: in every build it behaves as with exact sizes (`C29_pad`), if the default edge
length `3 ntaps` is a `usize`. -/
theorem C119_pad_builds (c : Cfg) (size : ℕ) (hs : 2 ≤ size) (padtype : Pad) (padlen : Option ℕ) (x : DMat T)
    (axis ntaps : ℕ) (hx : InMemory c size x.nrows x.ncols) (hl : 0 < lines x axis)
    (ht : 3 * ntaps < 2 ^ c.ptrBits) :
    padIn c padtype padlen x axis ntaps = pad padtype padlen x axis ntaps := by
  have he : edgeLenIn c padtype padlen ntaps = .ok (edgeLen padtype padlen ntaps) := by
    have : c.usizeMul ntaps 3 = .ok (ntaps * 3) := c.usizeMul_ok (by omega)
    unfold edgeLenIn edgeLen
    by_cases h : padtype = Pad.none
    · simp [h]
    · cases padlen <;> simp [h, this]
  unfold padIn pad
  rw [he, ok_bind]
  simp only [C119_odd_ext_builds c size hs x _ axis hx hl]
  clear he
  cases padtype <;> rfl

/-- **C119** `pad` never reaches an unchecked access out of bounds, in any build and for every `ntaps`, if the elements
take two bytes or more. -/
theorem C119_pad_safe (c : Cfg) (size : ℕ) (hs : 2 ≤ size) (padtype : Pad) (padlen : Option ℕ) (x : DMat T)
    (axis ntaps : ℕ) (hx : InMemory c size x.nrows x.ncols) :
    padIn c padtype padlen x axis ntaps ≠ .error Err.ub := by
  have he : edgeLenIn c padtype padlen ntaps ≠ .error Err.ub := by
    unfold edgeLenIn
    by_cases h : padtype = Pad.none
    · simp [h]
    · cases padlen
      · simpa [h] using c.usizeMul_ne_ub ntaps 3
      · simp [h]
  unfold padIn
  cases hh : edgeLenIn c padtype padlen ntaps with
  | error e =>
    rw [hh] at he
    rw [error_bind]
    intro h
    injection h with h
    exact he (by rw [h])
  | ok e =>
    rw [ok_bind]
    by_cases ha : axis < 2
    swap
    · simp [ha]
    have hck : checkShape x axis e = check (e < dim x axis) := by
      have h2 : axis = 0 ∨ axis = 1 := by omega
      rcases h2 with rfl | rfl <;> rfl
    rw [hck, check_true ha, ok_bind]
    by_cases hd : e < dim x axis
    swap
    · simp [hd]
    rw [check_true hd, ok_bind]
    have ho := C119_odd_ext_safe c size hs x e axis hx
    cases padtype with
    | none => simp [pure, Except.pure]
    | even => by_cases h0 : e = 0 <;> simp [h0, pure, Except.pure]
    | constant => by_cases h0 : e = 0 <;> simp [h0, pure, Except.pure]
    | odd =>
      by_cases h0 : e = 0
      · simp [h0, pure, Except.pure]
      · simp only [h0, if_false, reduceCtorEq]
        cases ho' : oddExtDynIn c x e axis with
        | error e' =>
          rw [ho'] at ho
          intro h
          rw [error_bind] at h
          injection h with h
          exact ho (by rw [h])
        | ok m => simp [pure, Except.pure, bind, Except.bind]

end

/-- **C119** For samples of two bytes or more (`f32`, `f64`), a signal and sections that fit in memory,
`sosfiltfilt_dyn` gives in every build the result it gives with exact sizes: no build wraps a size, and the theorems
about `sosfiltfilt_dyn` hold of them all.  A section is eight samples. -/
theorem C119_sosfiltfilt_builds {F : Type} [Zero F] [One F] [Add F] [Sub F] [Neg F] [Mul F] [Div F] [DecidableEq F]
    (c : Cfg) (size : ℕ) (hs : 2 ≤ size) (y : List F) (sos : List (Sos F)) (hy : Allocatable c size y.length)
    (hsos : Allocatable c (8 * size) sos.length) :
    sosfiltfiltDynIn c y sos = sosfiltfiltDyn y sos := by
  have h16 := c.h16
  have hp : 2 ^ c.ptrBits = 2 * 2 ^ (c.ptrBits - 1) := by
    rw [← pow_succ']
    congr 1
    omega
  have hbig : 2 ^ 15 ≤ 2 ^ (c.ptrBits - 1) := Nat.pow_le_pow_right (by norm_num) (by omega)
  unfold Allocatable at hy hsos
  have h1 : 16 * sos.length ≤ 8 * size * sos.length := Nat.mul_le_mul_right _ (by omega)
  have h2 : 2 * y.length ≤ size * y.length := Nat.mul_le_mul_right _ hs
  have hmin : min (sos.filter fun s => s.b2 = 0).length (sos.filter fun s => s.a2 = 0).length ≤ sos.length :=
    (Nat.min_le_left _ _).trans (List.length_filter_le _ _)
  have hn : sosNtapsIn c sos = .ok (sosNtaps sos) := by
    unfold sosNtapsIn sosNtaps
    rw [c.usizeMul_ok (by omega), ok_bind, c.usizeAdd_ok (by omega), ok_bind]
    exact c.usizeSub_ok (by omega)
  have hnt : sosNtaps sos ≤ 2 * sos.length + 1 := by
    exact Nat.sub_le _ _
  have hpad : padIn c Pad.odd none (DMat.ofVec y) 0 (sosNtaps sos)
      = pad Pad.odd none (DMat.ofVec y) 0 (sosNtaps sos) := by
    refine C119_pad_builds c size hs _ _ _ _ _ ?_ (by simp [lines, DMat.ofVec]) (by omega)
    unfold InMemory Allocatable
    simp only [DMat.ofVec, mul_one]
    exact ⟨by omega, by omega, hy⟩
  unfold sosfiltfiltDynIn sosfiltfiltDyn
  rw [hn, ok_bind]
  simp only [hpad]
  rfl

/-- A 64-bit release build, a million `f64` samples and ten sections. -/
example : Allocatable ⟨64, false, by norm_num⟩ 8 1000000 ∧ Allocatable ⟨64, false, by norm_num⟩ (8 * 8) 10 := by
  unfold Allocatable
  norm_num

end SciRs.Props

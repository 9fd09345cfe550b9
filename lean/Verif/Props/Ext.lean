import Verif.Lemmas.Ext
import Mathlib.Tactic.Ring
import Mathlib.Tactic.LinearCombination

/-!
# C29: `odd_ext_dyn` and `pad`
-/

namespace SciRs.Props

open SciRs SciRs.Spec

section
variable {T : Type} [Zero T] [One T] [Add T] [Mul T] [Sub T]

/-- The length of `x` along `axis`. -/
def dim (x : DMat T) (axis : ℕ) : ℕ := if axis = 0 then x.nrows else x.ncols

/-- `m` is `x` extended by `n` samples on both sides along `axis`, entry by entry. -/
def IsOddExt (x : DMat T) (n axis : ℕ) (m : DMat T) : Prop :=
  (axis = 0 → m.nrows = x.nrows + 2 * n ∧ m.ncols = x.ncols ∧
    ∀ i < m.nrows, ∀ j < m.ncols, m.entry i j = oddExt x.nrows n (fun k => x.entry k j) i) ∧
  (axis = 1 → m.nrows = x.nrows ∧ m.ncols = x.ncols + 2 * n ∧
    ∀ i < m.nrows, ∀ j < m.ncols, m.entry i j = oddExt x.ncols n (fun k => x.entry i k) j)

theorem isOddExt_zero (x : DMat T) (axis : ℕ) : IsOddExt x 0 axis x := by
  refine ⟨fun _ => ⟨by simp, rfl, fun i hi j _ => ?_⟩, fun _ => ⟨rfl, by simp, fun i _ j hj => ?_⟩⟩
  · exact (oddExt_mid (T := T) x.nrows 0 i (fun k => x.entry k j) hi).symm
  · exact (oddExt_mid (T := T) x.ncols 0 j (fun k => x.entry i k) hj).symm

/-- **C29** For an axis in range and `n = 0` or `n` smaller than the extended dimension,
`odd_ext_dyn` returns the odd extension in every cell: no unchecked access leaves the matrix and no
cell is left unwritten.  No law of arithmetic is used. -/
theorem C29_odd_ext (x : DMat T) (n axis : ℕ) (ha : axis < 2) (hn : n = 0 ∨ n < dim x axis) :
    ∃ m, oddExtDyn x n axis = .ok m ∧ IsOddExt x n axis m := by
  rcases Nat.eq_zero_or_pos n with rfl | hpos
  · exact ⟨x, by simp [oddExtDyn, ha, DMat.copy], isOddExt_zero x axis⟩
  · have hn : n < dim x axis := hn.resolve_left (by omega)
    have : axis = 0 ∨ axis = 1 := by omega
    rcases this with rfl | rfl
    · obtain ⟨m, h1, h2⟩ := oddExtDyn_axis0 x n hpos (by simpa [dim] using hn)
      exact ⟨m, h1, fun _ => h2, by simp⟩
    · obtain ⟨m, h1, h2⟩ := oddExtDyn_axis1 x n hpos (by simpa [dim] using hn)
      exact ⟨m, h1, by simp, fun _ => h2⟩

example : (1 : ℕ) < 2 ∧ ((2 : ℕ) = 0 ∨ 2 < dim (⟨2, 5, fun i j => (i : ℤ) + j⟩ : DMat ℤ) 1) := by
  simp [dim]

/-- **C29** `odd_ext_dyn` panics exactly when the axis is out of range or a positive `n` is not
smaller than the extended dimension; undefined behaviour is never reached. -/
theorem C29_panics_iff (x : DMat T) (n axis : ℕ) :
    (Panics (oddExtDyn x n axis) ↔ 2 ≤ axis ∨ (0 < n ∧ dim x axis ≤ n)) ∧
    oddExtDyn x n axis ≠ .error Err.ub := by
  by_cases ha : axis < 2
  · by_cases hn : n = 0 ∨ n < dim x axis
    · obtain ⟨m, h1, _⟩ := C29_odd_ext x n axis ha hn
      rw [h1]
      simp; omega
    · have : oddExtDyn x n axis = .error Err.assert := by
        have h1 : ¬ n < 1 := by omega
        have h2 : axis = 0 ∨ axis = 1 := by omega
        have h3 : ¬ n < dim x axis := by omega
        rcases h2 with rfl | rfl
        · have : ¬ n < x.nrows := by simpa [dim] using h3
          simp [oddExtDyn, h1, this]
        · have : ¬ n < x.ncols := by simpa [dim] using h3
          simp [oddExtDyn, h1, this]
      rw [this]
      simp; omega
  · have : oddExtDyn x n axis = .error Err.assert := by simp [oddExtDyn, ha]
    rw [this]
    simp; omega

/-- The edge length `pad` works with. -/
def padEdge (padtype : Pad) (padlen : Option ℕ) (ntaps : ℕ) : ℕ :=
  if padtype = Pad.none then 0 else padlen.getD (3 * ntaps)

/-- **C29** `pad` panics exactly when the axis is out of range, the padded dimension is not larger
than the edge, or an unimplemented pad type is used with a positive edge; otherwise it returns the
edge and the odd extension by that edge (the unchanged matrix if the edge is zero). -/
theorem C29_pad (padtype : Pad) (padlen : Option ℕ) (x : DMat T) (axis ntaps : ℕ) :
    (Panics (pad padtype padlen x axis ntaps) ↔
      2 ≤ axis ∨ dim x axis ≤ padEdge padtype padlen ntaps ∨
        (0 < padEdge padtype padlen ntaps ∧ (padtype = Pad.even ∨ padtype = Pad.constant))) ∧
    pad padtype padlen x axis ntaps ≠ .error Err.ub ∧
    ∀ e m, pad padtype padlen x axis ntaps = .ok (e, m) →
      e = padEdge padtype padlen ntaps ∧ IsOddExt x e axis m ∧ (e = 0 → m = x) := by
  have hedge : edgeLen padtype padlen ntaps = padEdge padtype padlen ntaps := by
    unfold padEdge edgeLen
    by_cases h : padtype = Pad.none
    · simp [h]
    · cases padlen <;> simp [h, Nat.mul_comm]
  by_cases ha : axis < 2
  · have hck : checkShape x axis (padEdge padtype padlen ntaps) =
        check (padEdge padtype padlen ntaps < dim x axis) := by
      have h2 : axis = 0 ∨ axis = 1 := by omega
      rcases h2 with rfl | rfl <;> rfl
    by_cases hd : padEdge padtype padlen ntaps < dim x axis
    · have hred : pad padtype padlen x axis ntaps =
          if padtype = Pad.none then .ok (padEdge padtype padlen ntaps, x)
          else if padEdge padtype padlen ntaps = 0 then .ok (padEdge padtype padlen ntaps, x)
          else if padtype = Pad.odd then do
              let m ← oddExtDyn x (padEdge padtype padlen ntaps) axis
              return (padEdge padtype padlen ntaps, m)
          else .error Err.unreachable := by
        unfold pad
        simp only [hedge, hck, check_true ha, check_true hd, ok_bind, DMat.copy]
        clear hedge hck hd
        cases padtype <;> rfl
      rw [hred]
      by_cases hnone : padtype = Pad.none
      · have h0 : padEdge padtype padlen ntaps = 0 := by simp [padEdge, hnone]
        simp only [hnone, if_true, panics_ok, false_iff]
        rw [hnone] at h0 hd
        refine ⟨by rw [h0] at hd ⊢; simp; omega, by simp, ?_⟩
        intro e m he
        simp only [Except.ok.injEq, Prod.mk.injEq] at he
        obtain ⟨rfl, rfl⟩ := he
        refine ⟨rfl, ?_, fun _ => rfl⟩
        rw [h0]; exact isOddExt_zero x axis
      · simp only [hnone, if_false]
        by_cases h0 : padEdge padtype padlen ntaps = 0
        · simp only [h0, if_true, panics_ok, false_iff]
          rw [h0] at hd
          refine ⟨by simp; omega, by simp, ?_⟩
          intro e m he
          simp only [Except.ok.injEq, Prod.mk.injEq] at he
          obtain ⟨rfl, rfl⟩ := he
          exact ⟨rfl, isOddExt_zero x axis, fun _ => rfl⟩
        · simp only [h0, if_false]
          cases padtype with
          | none => exact absurd rfl hnone
          | even => simp; omega
          | constant => simp; omega
          | odd =>
            obtain ⟨m', h1, h2⟩ := C29_odd_ext x (padEdge Pad.odd padlen ntaps) axis ha (Or.inr hd)
            simp only [h1, ok_bind]
            refine ⟨?_, by simp [pure, Except.pure], ?_⟩
            · simp [pure, Except.pure]; omega
            · intro e m he
              simp only [pure, Except.pure, Except.ok.injEq, Prod.mk.injEq] at he
              obtain ⟨rfl, rfl⟩ := he
              exact ⟨rfl, h2, fun h => absurd h h0⟩
    · have : pad padtype padlen x axis ntaps = .error Err.assert := by
        unfold pad
        simp only [hedge, hck, check_true ha, check_false hd, ok_bind, error_bind]
      rw [this]
      simp; omega
  · have : pad padtype padlen x axis ntaps = .error Err.assert := by
      unfold pad
      simp only [check_false ha, error_bind]
    rw [this]
    simp; omega

example : Panics (pad Pad.even (some 1) (⟨3, 1, fun i _ => (i : ℤ)⟩ : DMat ℤ) 0 5) :=
  (C29_pad _ _ _ _ _).1.mpr (Or.inr (Or.inr ⟨by decide, Or.inl rfl⟩))

example : ¬ Panics (pad Pad.odd none (⟨7, 1, fun i _ => (i : ℤ)⟩ : DMat ℤ) 0 2) := by
  rw [(C29_pad _ _ _ _ _).1]
  simp [dim, padEdge]

end

/-- The specification `oddExt` is the point reflection about the two end samples, and the original
sequence sits in the middle. -/
theorem oddExt_point_symmetric {R : Type} [CommRing R] (len n : ℕ) (x : ℕ → R) (hn : n < len) :
    (∀ j < len, oddExt len n x (n + j) = x j) ∧
    (∀ d ≤ n, oddExt len n x (n - d) + oddExt len n x (n + d) = 2 * oddExt len n x n) ∧
    (∀ d ≤ n, oddExt len n x (n + len - 1 + d) + oddExt len n x (n + len - 1 - d) =
      2 * oddExt len n x (n + len - 1)) := by
  have hmid : ∀ j < len, oddExt len n x (n + j) = x j := by
    intro j hj
    rw [Nat.add_comm, oddExt_mid _ _ _ _ hj]
  refine ⟨hmid, fun d hd => ?_, fun d hd => ?_⟩
  · have h0 := hmid 0 (by omega)
    rw [Nat.add_zero] at h0
    rw [hmid d (by omega), h0]
    rcases Nat.eq_zero_or_pos d with rfl | hpos
    · rw [Nat.sub_zero, h0]; ring
    · rw [oddExt_left _ _ _ _ (show n - d < n by omega), show n - (n - d) = d by omega]; ring
  · have hl := hmid (len - 1) (by omega)
    rw [show n + (len - 1) = n + len - 1 by omega] at hl
    have hr := hmid (len - 1 - d) (by omega)
    rw [show n + (len - 1 - d) = n + len - 1 - d by omega] at hr
    rw [hl, hr]
    rcases Nat.eq_zero_or_pos d with rfl | hpos
    · rw [Nat.add_zero, hl, Nat.sub_zero]; ring
    · have := oddExt_right len n (n - d) x (by omega) hn
      rw [show len + 2 * n - 1 - (n - d) = n + len - 1 + d by omega,
        show len - 1 - n + (n - d) = len - 1 - d by omega] at this
      rw [this]; ring

/-- Entry `k` of line `l` of a matrix, lines running along `axis`. -/
def along {R : Type} (m : DMat R) (axis l k : ℕ) : R :=
  if axis = 0 then m.entry k l else m.entry l k

/-- The number of lines running along `axis`. -/
def lines {R : Type} (m : DMat R) (axis : ℕ) : ℕ := if axis = 0 then m.ncols else m.nrows

/-- **C29** In exact arithmetic, along every line of the returned matrix the original line sits in the
middle and the extension is the point reflection about the two end samples `x[0]` and
`x[len-1]`. -/
theorem C29_point_symmetric {R : Type} [CommRing R] (x m : DMat R) (n axis : ℕ) (hpos : 0 < n)
    (h : oddExtDyn x n axis = .ok m) (l : ℕ) (hl : l < lines x axis) :
    (∀ k < dim x axis, along m axis l (n + k) = along x axis l k) ∧
    (∀ d ≤ n, along m axis l (n - d) + along m axis l (n + d) = 2 * along x axis l 0) ∧
    (∀ d ≤ n, along m axis l (n + dim x axis - 1 + d) + along m axis l (n + dim x axis - 1 - d) =
      2 * along x axis l (dim x axis - 1)) := by
  have hnp : ¬ Panics (oddExtDyn x n axis) := by rw [h]; simp
  rw [(C29_panics_iff x n axis).1] at hnp
  have ha : axis < 2 := by omega
  have hn : n < dim x axis := by omega
  obtain ⟨m', h1, h2⟩ := C29_odd_ext x n axis ha (Or.inr hn)
  rw [h] at h1
  obtain rfl : m = m' := by simpa using h1
  have key : ∀ k < dim x axis + 2 * n,
      along m axis l k = oddExt (dim x axis) n (along x axis l) k := by
    intro k hk
    have h3 : axis = 0 ∨ axis = 1 := by omega
    rcases h3 with rfl | rfl
    · obtain ⟨e1, e2, e3⟩ := h2.1 rfl
      simp only [dim, lines, if_true] at hk hl ⊢
      simp only [along, if_true]
      exact e3 k (by omega) l (by omega)
    · obtain ⟨e1, e2, e3⟩ := h2.2 rfl
      simp only [dim, lines] at hk hl ⊢
      simp only [along]
      exact e3 l (by simpa [e1] using hl) k (by simpa [e2] using hk)
  obtain ⟨s1, s2, s3⟩ := oddExt_point_symmetric (dim x axis) n (along x axis l) hn
  refine ⟨fun k hk => ?_, fun d hd => ?_, fun d hd => ?_⟩
  · rw [key _ (by omega), s1 k hk]
  · rw [key _ (by omega), key _ (by omega), s2 d hd]
    have := s1 0 (by omega)
    rw [Nat.add_zero] at this
    rw [this]
  · rw [key _ (by omega), key _ (by omega), s3 d hd]
    have := s1 (dim x axis - 1) (by omega)
    rw [show n + (dim x axis - 1) = n + dim x axis - 1 by omega] at this
    rw [this]

example : ∃ m, oddExtDyn (⟨2, 5, fun i j => (i : ℤ) + j⟩ : DMat ℤ) 2 1 = .ok m :=
  let ⟨m, h, _⟩ := C29_odd_ext (⟨2, 5, fun i j => (i : ℤ) + j⟩ : DMat ℤ) 2 1 (by decide)
    (by simp [dim])
  ⟨m, h⟩

end SciRs.Props

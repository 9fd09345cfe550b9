import Verif.Model.Ext
import Verif.Spec.OddExt
import Mathlib.Data.List.Basic

/-! Helper lemmas for the loops of `odd_ext_dyn`. -/

namespace SciRs

open Spec

variable {T : Type}

theorem fillLoop_ok (body : Nat × Nat → Res ((Nat × Nat) × T)) (f : Nat → Nat → T)
    (tgt : Nat × Nat → Nat × Nat) (ps : List (Nat × Nat)) (m : DMat T)
    (h : ∀ p ∈ ps, body p = .ok (tgt p, f (tgt p).1 (tgt p).2) ∧
      (tgt p).1 < m.nrows ∧ (tgt p).2 < m.ncols) :
    ∃ m', fillLoop body ps m = .ok m' ∧ m'.nrows = m.nrows ∧ m'.ncols = m.ncols ∧
      (∀ i j, (∃ p ∈ ps, tgt p = (i, j)) → m'.entry i j = f i j) ∧
      (∀ i j, m.entry i j = f i j → m'.entry i j = f i j) := by
  induction ps generalizing m with
  | nil => exact ⟨m, rfl, rfl, rfl, by simp, fun _ _ h => h⟩
  | cons p ps ih =>
    obtain ⟨hb, hr, hc⟩ := h p (by simp)
    have hset : m.setUnchecked (tgt p).1 (tgt p).2 (f (tgt p).1 (tgt p).2) =
        .ok (m.put (tgt p).1 (tgt p).2 (f (tgt p).1 (tgt p).2)) := by
      simp only [DMat.setUnchecked, hr, hc, and_self, if_true]
    obtain ⟨m', h1, h2, h3, h4, h5⟩ := ih (m.put (tgt p).1 (tgt p).2 (f (tgt p).1 (tgt p).2))
      (fun q hq => h q (by simp [hq]))
    refine ⟨m', by simp only [fillLoop, hb, ok_bind, hset, h1], h2, h3, ?_, ?_⟩
    · rintro i j ⟨q, hq, he⟩
      rcases List.mem_cons.mp hq with rfl | hq
      · refine h5 i j ?_
        simp only [DMat.put]
        rw [he]
        simp
      · exact h4 i j ⟨q, hq, he⟩
    · intro i j hij
      refine h5 i j ?_
      simp only [DMat.put]
      split
      · rename_i hh
        rw [hh.1, hh.2]
      · exact hij

theorem mem_loopPairs (n1 n2 : Nat) (p : Nat × Nat) :
    p ∈ loopPairs n1 n2 ↔ p.1 < n1 ∧ p.2 < n2 := by
  simp only [loopPairs, List.mem_flatMap, List.mem_range, List.mem_map]
  constructor
  · rintro ⟨a, ha, b, hb, rfl⟩; exact ⟨ha, hb⟩
  · rintro ⟨h1, h2⟩; exact ⟨p.1, h1, p.2, h2, rfl⟩

theorem usizeSub_ok {a b : Nat} (h : b ≤ a) : usizeSub a b = .ok (a - b) := by
  simp [usizeSub, h]

theorem index_ok (m : DMat T) {i j : Nat} (hi : i < m.nrows) (hj : j < m.ncols) :
    m.index i j = .ok (m.entry i j) := by
  simp [DMat.index, hi, hj]

theorem getUnchecked_ok (m : DMat T) {i j : Nat} (hi : i < m.nrows) (hj : j < m.ncols) :
    m.getUnchecked i j = .ok (m.entry i j) := by
  simp [DMat.getUnchecked, hi, hj]

variable [Zero T] [One T] [Add T] [Mul T] [Sub T]

theorem oddExt_left (len n k : Nat) (x : ℕ → T) (h : k < n) :
    oddExt len n x k = (1 + 1) * x 0 - x (n - k) := by simp [oddExt, h]

theorem oddExt_mid (len n k : Nat) (x : ℕ → T) (h : k < len) :
    oddExt len n x (k + n) = x k := by
  have h1 : ¬ k + n < n := by omega
  have h2 : k + n < n + len := by omega
  simp [oddExt, h1, h2]

theorem oddExt_right (len n i : Nat) (x : ℕ → T) (h : i < n) (hl : n < len) :
    oddExt len n x (len + 2 * n - 1 - i) = (1 + 1) * x (len - 1) - x (len - 1 - n + i) := by
  have h1 : ¬ len + 2 * n - 1 - i < n := by omega
  have h2 : ¬ len + 2 * n - 1 - i < n + len := by omega
  simp only [oddExt, h1, h2, if_false]
  congr 2
  omega

theorem oddExtDyn_axis0 (x : DMat T) (n : Nat) (hn : 0 < n) (hl : n < x.nrows) :
    ∃ m, oddExtDyn x n 0 = .ok m ∧ m.nrows = x.nrows + 2 * n ∧ m.ncols = x.ncols ∧
      ∀ i < m.nrows, ∀ j < m.ncols, m.entry i j = oddExt x.nrows n (fun k => x.entry k j) i := by
  let f : Nat → Nat → T := fun i j => oddExt x.nrows n (fun k => x.entry k j) i
  obtain ⟨m1, a1, a2, a3, a4, _⟩ := fillLoop_ok (leftRow x n) f (fun p => (p.2, p.1))
    (loopPairs x.ncols n) (DMat.zeros (x.nrows + 2 * n) x.ncols) (by
      intro p hp
      obtain ⟨h1, h2⟩ := (mem_loopPairs _ _ _).mp hp
      refine ⟨?_, by simp only [DMat.zeros]; omega, h1⟩
      simp only [leftRow, index_ok x (show 0 < x.nrows by omega) h1, ok_bind,
        usizeSub_ok (Nat.le_of_lt h2), getUnchecked_ok x (show n - p.2 < x.nrows by omega) h1,
        f, oddExt_left _ _ _ _ h2]
      rfl)
  obtain ⟨m2, b1, b2, b3, b4, b5⟩ := fillLoop_ok (midRow x n) f (fun p => (p.2 + n, p.1))
    (loopPairs x.ncols x.nrows) m1 (by
      intro p hp
      obtain ⟨h1, h2⟩ := (mem_loopPairs _ _ _).mp hp
      refine ⟨?_, by simp only [a2, DMat.zeros]; omega, by simpa only [a3, DMat.zeros] using h1⟩
      simp only [midRow, getUnchecked_ok x h2 h1, ok_bind, f, oddExt_mid _ _ _ _ h2]
      rfl)
  obtain ⟨m3, c1, c2, c3, c4, c5⟩ := fillLoop_ok (rightRow x n) f
    (fun p => (x.nrows + 2 * n - 1 - p.2, p.1))
    (loopPairs x.ncols n) m2 (by
      intro p hp
      obtain ⟨h1, h2⟩ := (mem_loopPairs _ _ _).mp hp
      refine ⟨?_, by simp only [b2, a2, DMat.zeros]; omega,
        by simpa only [b3, a3, DMat.zeros] using h1⟩
      simp only [rightRow, usizeSub_ok (show 1 ≤ x.nrows by omega), ok_bind,
        usizeSub_ok (show 1 ≤ x.nrows + 2 * n by omega),
        usizeSub_ok (show p.2 ≤ x.nrows + 2 * n - 1 by omega),
        index_ok x (show x.nrows - 1 < x.nrows by omega) h1,
        usizeSub_ok (show n ≤ x.nrows - 1 by omega),
        getUnchecked_ok x (show x.nrows - 1 - n + p.2 < x.nrows by omega) h1,
        f, oddExt_right _ _ _ _ h2 hl]
      rfl)
  refine ⟨m3, ?_, by rw [c2, b2, a2]; rfl, by rw [c3, b3, a3]; rfl, ?_⟩
  · have : ¬ n < 1 := by omega
    simp [oddExtDyn, this, hl, a1, b1, c1]
  · intro i hi j hj
    rw [c2, b2, a2] at hi
    rw [c3, b3, a3] at hj
    simp only [DMat.zeros] at hi hj
    by_cases h1 : i < n
    · exact c5 _ _ (b5 _ _ (a4 _ _ ⟨(j, i), (mem_loopPairs _ _ _).mpr ⟨hj, h1⟩, rfl⟩))
    · by_cases h2 : i < n + x.nrows
      · refine c5 _ _ (b4 _ _ ⟨(j, i - n), (mem_loopPairs _ _ _).mpr ⟨hj, ?_⟩, ?_⟩)
        · show i - n < x.nrows
          omega
        · show (i - n + n, j) = (i, j)
          congr 1; omega
      · refine c4 _ _ ⟨(j, x.nrows + 2 * n - 1 - i), (mem_loopPairs _ _ _).mpr ⟨hj, ?_⟩, ?_⟩
        · show x.nrows + 2 * n - 1 - i < n
          omega
        · show (x.nrows + 2 * n - 1 - (x.nrows + 2 * n - 1 - i), j) = (i, j)
          congr 1; omega

theorem oddExtDyn_axis1 (x : DMat T) (n : Nat) (hn : 0 < n) (hl : n < x.ncols) :
    ∃ m, oddExtDyn x n 1 = .ok m ∧ m.nrows = x.nrows ∧ m.ncols = x.ncols + 2 * n ∧
      ∀ i < m.nrows, ∀ j < m.ncols, m.entry i j = oddExt x.ncols n (fun k => x.entry i k) j := by
  let f : Nat → Nat → T := fun i j => oddExt x.ncols n (fun k => x.entry i k) j
  obtain ⟨m1, a1, a2, a3, a4, _⟩ := fillLoop_ok (leftCol x n) f (fun p => (p.2, p.1))
    (loopPairs n x.nrows) (DMat.zeros x.nrows (x.ncols + 2 * n)) (by
      intro p hp
      obtain ⟨h1, h2⟩ := (mem_loopPairs _ _ _).mp hp
      refine ⟨?_, h2, by simp only [DMat.zeros]; omega⟩
      simp only [leftCol, index_ok x h2 (show 0 < x.ncols by omega), ok_bind,
        usizeSub_ok (Nat.le_of_lt h1), getUnchecked_ok x h2 (show n - p.1 < x.ncols by omega),
        f, oddExt_left _ _ _ _ h1]
      rfl)
  obtain ⟨m2, b1, b2, b3, b4, b5⟩ := fillLoop_ok (midCol x n) f (fun p => (p.2, p.1 + n))
    (loopPairs x.ncols x.nrows) m1 (by
      intro p hp
      obtain ⟨h1, h2⟩ := (mem_loopPairs _ _ _).mp hp
      refine ⟨?_, by simpa only [a2, DMat.zeros] using h2, by simp only [a3, DMat.zeros]; omega⟩
      simp only [midCol, getUnchecked_ok x h2 h1, ok_bind, f, oddExt_mid _ _ _ _ h1]
      rfl)
  obtain ⟨m3, c1, c2, c3, c4, c5⟩ := fillLoop_ok (rightCol x n) f
    (fun p => (p.2, x.ncols + 2 * n - 1 - p.1))
    (loopPairs n x.nrows) m2 (by
      intro p hp
      obtain ⟨h1, h2⟩ := (mem_loopPairs _ _ _).mp hp
      refine ⟨?_, by simpa only [b2, a2, DMat.zeros] using h2,
        by simp only [b3, a3, DMat.zeros]; omega⟩
      simp only [rightCol, usizeSub_ok (show 1 ≤ x.ncols by omega), ok_bind,
        usizeSub_ok (show 1 ≤ x.ncols + 2 * n by omega),
        usizeSub_ok (show p.1 ≤ x.ncols + 2 * n - 1 by omega),
        index_ok x h2 (show x.ncols - 1 < x.ncols by omega),
        usizeSub_ok (show n ≤ x.ncols - 1 by omega),
        getUnchecked_ok x h2 (show x.ncols - 1 - n + p.1 < x.ncols by omega),
        f, oddExt_right _ _ _ _ h1 hl]
      rfl)
  refine ⟨m3, ?_, by rw [c2, b2, a2]; rfl, by rw [c3, b3, a3]; rfl, ?_⟩
  · have : ¬ n < 1 := by omega
    simp [oddExtDyn, this, hl, a1, b1, c1]
  · intro i hi j hj
    rw [c2, b2, a2] at hi
    rw [c3, b3, a3] at hj
    simp only [DMat.zeros] at hi hj
    by_cases h1 : j < n
    · exact c5 _ _ (b5 _ _ (a4 _ _ ⟨(j, i), (mem_loopPairs _ _ _).mpr ⟨h1, hi⟩, rfl⟩))
    · by_cases h2 : j < n + x.ncols
      · refine c5 _ _ (b4 _ _ ⟨(j - n, i), (mem_loopPairs _ _ _).mpr ⟨?_, hi⟩, ?_⟩)
        · show j - n < x.ncols
          omega
        · show (i, j - n + n) = (i, j)
          congr 1; omega
      · refine c4 _ _ ⟨(x.ncols + 2 * n - 1 - j, i), (mem_loopPairs _ _ _).mpr ⟨?_, hi⟩, ?_⟩
        · show x.ncols + 2 * n - 1 - j < n
          omega
        · show (i, x.ncols + 2 * n - 1 - (x.ncols + 2 * n - 1 - j)) = (i, j)
          congr 1; omega

end SciRs

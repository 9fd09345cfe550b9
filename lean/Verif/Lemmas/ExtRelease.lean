import Verif.Model.ExtRelease
import Verif.Spec.InMemory
import Verif.Props.Ext

/-! Helper lemmas: size arithmetic that stays in range, and the loops of `odd_ext_dyn` in every build. -/

namespace SciRs

open Spec Props

theorem Cfg.usizeAdd_ok (c : Cfg) {a b : ℕ} (h : a + b < 2 ^ c.ptrBits) : c.usizeAdd a b = .ok (a + b) := by
  unfold Cfg.usizeAdd
  rw [if_pos]
  unfold Cfg.usizeMax
  have : ((a + b : ℕ) : ℤ) < 2 ^ c.ptrBits := by exact_mod_cast h
  omega

theorem Cfg.usizeAdd_big (c : Cfg) {a b : ℕ} (h : 2 ^ c.ptrBits ≤ a + b) :
    c.usizeAdd a b = if c.checked then .error Err.overflow else .ok ((a + b) % 2 ^ c.ptrBits) := by
  unfold Cfg.usizeAdd
  rw [if_neg]
  unfold Cfg.usizeMax
  have : (2 ^ c.ptrBits : ℤ) ≤ ((a + b : ℕ) : ℤ) := by exact_mod_cast h
  omega

theorem Cfg.usizeMul_ok (c : Cfg) {a b : ℕ} (h : a * b < 2 ^ c.ptrBits) : c.usizeMul a b = .ok (a * b) := by
  unfold Cfg.usizeMul
  rw [if_pos]
  unfold Cfg.usizeMax
  have : ((a * b : ℕ) : ℤ) < 2 ^ c.ptrBits := by exact_mod_cast h
  omega

theorem Cfg.usizeMul_big (c : Cfg) {a b : ℕ} (h : 2 ^ c.ptrBits ≤ a * b) :
    c.usizeMul a b = if c.checked then .error Err.overflow else .ok ((a * b) % 2 ^ c.ptrBits) := by
  unfold Cfg.usizeMul
  rw [if_neg]
  unfold Cfg.usizeMax
  have : (2 ^ c.ptrBits : ℤ) ≤ ((a * b : ℕ) : ℤ) := by exact_mod_cast h
  omega

theorem Cfg.usizeSub_ok (c : Cfg) {a b : ℕ} (h : b ≤ a) : c.usizeSub a b = .ok (a - b) := by
  unfold Cfg.usizeSub
  rw [if_pos h]

theorem Cfg.usizeMul_ne_ub (c : Cfg) (a b : ℕ) : c.usizeMul a b ≠ .error Err.ub := by
  unfold Cfg.usizeMul
  split
  · simp
  · split <;> simp

theorem Cfg.usizeAdd_ne_ub (c : Cfg) (a b : ℕ) : c.usizeAdd a b ≠ .error Err.ub := by
  unfold Cfg.usizeAdd
  split
  · simp
  · split <;> simp

variable {T : Type}

theorem fillLoop_congr (f g : Nat × Nat → Res ((Nat × Nat) × T)) (ps : List (Nat × Nat)) (m : DMat T)
    (h : ∀ p ∈ ps, f p = g p) : fillLoop f ps m = fillLoop g ps m := by
  induction ps generalizing m with
  | nil => rfl
  | cons p ps ih =>
    simp only [fillLoop, h p (by simp)]
    congr 1
    funext w
    congr 1
    funext m'
    exact ih m' fun q hq => h q (by simp [hq])

theorem setUnchecked_shape {m m' : DMat T} {i j : ℕ} {v : T} (h : m.setUnchecked i j v = .ok m') :
    m'.nrows = m.nrows ∧ m'.ncols = m.ncols := by
  unfold DMat.setUnchecked at h
  split at h
  · cases h
    exact ⟨rfl, rfl⟩
  · cases h

theorem fillLoop_ub (body : Nat × Nat → Res ((Nat × Nat) × T)) (ps : List (Nat × Nat)) (m : DMat T)
    (h : ∀ p ∈ ps, ∃ w, body p = .ok w)
    (hb : ∃ p ∈ ps, ∃ w, body p = .ok w ∧ ¬ (w.1.1 < m.nrows ∧ w.1.2 < m.ncols)) :
    fillLoop body ps m = .error Err.ub := by
  induction ps generalizing m with
  | nil => simp at hb
  | cons p ps ih =>
    obtain ⟨w, hw⟩ := h p (by simp)
    rw [fillLoop, hw, ok_bind]
    by_cases hin : w.1.1 < m.nrows ∧ w.1.2 < m.ncols
    · have hs : m.setUnchecked w.1.1 w.1.2 w.2 = .ok (m.put w.1.1 w.1.2 w.2) := by
        simp [DMat.setUnchecked, hin]
      rw [hs, ok_bind]
      refine ih _ (fun q hq => h q (by simp [hq])) ?_
      obtain ⟨q, hq, v, hv, hout⟩ := hb
      rcases List.mem_cons.mp hq with rfl | hq
      · rw [hw] at hv
        cases hv
        exact absurd hin hout
      · exact ⟨q, hq, v, hv, hout⟩
    · have hs : m.setUnchecked w.1.1 w.1.2 w.2 = .error Err.ub := by
        simp [DMat.setUnchecked, hin]
      rw [hs]
      rfl

variable [Zero T] [One T] [Add T] [Mul T] [Sub T]

theorem oddExtDynIn_rows (c : Cfg) (x : DMat T) (n : ℕ) (h : x.nrows + 2 * n < 2 ^ c.ptrBits) :
    oddExtDynIn c x n 0 = oddExtDyn x n 0 := by
  unfold oddExtDynIn oddExtDyn
  by_cases hn : n < 1
  · simp [hn]
  by_cases hl : n < x.nrows
  swap
  · simp [hn, hl]
  have e1 : ∀ m, fillLoop (leftRowIn c x n) (loopPairs x.ncols n) m
      = fillLoop (leftRow x n) (loopPairs x.ncols n) m := fun m => fillLoop_congr _ _ _ _ (by
    intro p hp
    obtain ⟨h1, h2⟩ := (mem_loopPairs _ _ _).mp hp
    simp only [leftRowIn, leftRow, c.usizeSub_ok (Nat.le_of_lt h2), usizeSub_ok (Nat.le_of_lt h2)])
  have e2 : ∀ m, fillLoop (midRowIn c x n) (loopPairs x.ncols x.nrows) m
      = fillLoop (midRow x n) (loopPairs x.ncols x.nrows) m := fun m => fillLoop_congr _ _ _ _ (by
    intro p hp
    obtain ⟨h1, h2⟩ := (mem_loopPairs _ _ _).mp hp
    simp only [midRowIn, midRow, c.usizeAdd_ok (show p.2 + n < 2 ^ c.ptrBits by omega), ok_bind])
  have e3 : ∀ m, fillLoop (rightRowIn c x n) (loopPairs x.ncols n) m
      = fillLoop (rightRow x n) (loopPairs x.ncols n) m := fun m => fillLoop_congr _ _ _ _ (by
    intro p hp
    obtain ⟨h1, h2⟩ := (mem_loopPairs _ _ _).mp hp
    simp only [rightRowIn, rightRow, c.usizeSub_ok (show 1 ≤ x.nrows by omega), usizeSub_ok (show 1 ≤ x.nrows by omega),
      ok_bind, index_ok x (show x.nrows - 1 < x.nrows by omega) h1,
      c.usizeSub_ok (show n ≤ x.nrows - 1 by omega), usizeSub_ok (show n ≤ x.nrows - 1 by omega),
      c.usizeAdd_ok (show x.nrows - 1 - n + p.2 < 2 ^ c.ptrBits by omega),
      c.usizeMul_ok (show 2 * n < 2 ^ c.ptrBits by omega), c.usizeAdd_ok h,
      c.usizeSub_ok (show 1 ≤ x.nrows + 2 * n by omega), usizeSub_ok (show 1 ≤ x.nrows + 2 * n by omega),
      c.usizeSub_ok (show p.2 ≤ x.nrows + 2 * n - 1 by omega), usizeSub_ok (show p.2 ≤ x.nrows + 2 * n - 1 by omega)])
  simp only [e1, e2, e3, c.usizeMul_ok (show 2 * n < 2 ^ c.ptrBits by omega), c.usizeAdd_ok h, ok_bind]

theorem oddExtDynIn_cols (c : Cfg) (x : DMat T) (n : ℕ) (h : x.ncols + 2 * n < 2 ^ c.ptrBits) :
    oddExtDynIn c x n 1 = oddExtDyn x n 1 := by
  unfold oddExtDynIn oddExtDyn
  by_cases hn : n < 1
  · simp [hn]
  by_cases hl : n < x.ncols
  swap
  · simp [hn, hl]
  have e1 : ∀ m, fillLoop (leftColIn c x n) (loopPairs n x.nrows) m
      = fillLoop (leftCol x n) (loopPairs n x.nrows) m := fun m => fillLoop_congr _ _ _ _ (by
    intro p hp
    obtain ⟨h2, h1⟩ := (mem_loopPairs _ _ _).mp hp
    simp only [leftColIn, leftCol, c.usizeSub_ok (Nat.le_of_lt h2), usizeSub_ok (Nat.le_of_lt h2)])
  have e2 : ∀ m, fillLoop (midColIn c x n) (loopPairs x.ncols x.nrows) m
      = fillLoop (midCol x n) (loopPairs x.ncols x.nrows) m := fun m => fillLoop_congr _ _ _ _ (by
    intro p hp
    obtain ⟨h2, h1⟩ := (mem_loopPairs _ _ _).mp hp
    simp only [midColIn, midCol, c.usizeAdd_ok (show p.1 + n < 2 ^ c.ptrBits by omega), ok_bind])
  have e3 : ∀ m, fillLoop (rightColIn c x n) (loopPairs n x.nrows) m
      = fillLoop (rightCol x n) (loopPairs n x.nrows) m := fun m => fillLoop_congr _ _ _ _ (by
    intro p hp
    obtain ⟨h2, h1⟩ := (mem_loopPairs _ _ _).mp hp
    simp only [rightColIn, rightCol, c.usizeSub_ok (show 1 ≤ x.ncols by omega), usizeSub_ok (show 1 ≤ x.ncols by omega),
      ok_bind, index_ok x h1 (show x.ncols - 1 < x.ncols by omega),
      c.usizeSub_ok (show n ≤ x.ncols - 1 by omega), usizeSub_ok (show n ≤ x.ncols - 1 by omega),
      c.usizeAdd_ok (show x.ncols - 1 - n + p.1 < 2 ^ c.ptrBits by omega),
      c.usizeMul_ok (show 2 * n < 2 ^ c.ptrBits by omega), c.usizeAdd_ok h,
      c.usizeSub_ok (show 1 ≤ x.ncols + 2 * n by omega), usizeSub_ok (show 1 ≤ x.ncols + 2 * n by omega),
      c.usizeSub_ok (show p.1 ≤ x.ncols + 2 * n - 1 by omega), usizeSub_ok (show p.1 ≤ x.ncols + 2 * n - 1 by omega)])
  simp only [e1, e2, e3, c.usizeMul_ok (show 2 * n < 2 ^ c.ptrBits by omega), c.usizeAdd_ok h, ok_bind]

theorem oddExtDynIn_no_cols (c : Cfg) (x : DMat T) (n : ℕ) (h : x.ncols = 0) :
    oddExtDynIn c x n 0 ≠ .error Err.ub := by
  unfold oddExtDynIn
  by_cases hn : n < 1
  · simp [hn, pure, Except.pure]
  by_cases hl : n < x.nrows
  swap
  · simp [hn, hl]
  simp only [hn, hl, h, check_true, if_false, ok_bind, loopPairs, List.range_zero, List.flatMap_nil, fillLoop,
    check_true (show 0 < 2 by norm_num)]
  cases e1 : c.usizeMul 2 n with
  | error e => intro hh; rw [error_bind] at hh; injection hh with hh; exact c.usizeMul_ne_ub 2 n (by rw [e1, hh])
  | ok v =>
    rw [ok_bind]
    cases e2 : c.usizeAdd x.nrows v with
    | error e => intro hh; rw [error_bind] at hh; injection hh with hh; exact c.usizeAdd_ne_ub x.nrows v (by rw [e2, hh])
    | ok v => simp [bind, Except.bind]

theorem oddExtDynIn_no_rows (c : Cfg) (x : DMat T) (n : ℕ) (h : x.nrows = 0) :
    oddExtDynIn c x n 1 ≠ .error Err.ub := by
  unfold oddExtDynIn
  by_cases hn : n < 1
  · simp [hn, pure, Except.pure]
  by_cases hl : n < x.ncols
  swap
  · simp [hn, hl]
  have h0 : ∀ k, loopPairs k 0 = [] := by
    intro k
    simp [loopPairs]
  simp only [hn, hl, h, check_true, if_false, ok_bind, h0, fillLoop,
    check_true (show 1 < 2 by norm_num)]
  cases e1 : c.usizeMul 2 n with
  | error e => intro hh; rw [error_bind] at hh; injection hh with hh; exact c.usizeMul_ne_ub 2 n (by rw [e1, hh])
  | ok v =>
    rw [ok_bind]
    cases e2 : c.usizeAdd x.ncols v with
    | error e => intro hh; rw [error_bind] at hh; injection hh with hh; exact c.usizeAdd_ne_ub x.ncols v (by rw [e2, hh])
    | ok v => simp [bind, Except.bind]

/-- The size wraps: the first loop leaves the new matrix. -/
theorem oddExtDynIn_rows_wrap (c : Cfg) (x : DMat T) (n : ℕ) (hc : 0 < x.ncols) (hn : n < x.nrows)
    (hr : 2 * x.nrows ≤ 2 ^ c.ptrBits) (h : 2 ^ c.ptrBits ≤ x.nrows + 2 * n) :
    oddExtDynIn c x n 0 = if c.checked then .error Err.overflow else .error Err.ub := by
  unfold oddExtDynIn
  have h1 : ¬ n < 1 := by omega
  simp only [h1, hn, check_true (show 0 < 2 by norm_num), check_true, if_false, ok_bind,
    c.usizeMul_ok (show 2 * n < 2 ^ c.ptrBits by omega), c.usizeAdd_big h]
  split
  · rfl
  rw [ok_bind]
  have hm : (x.nrows + 2 * n) % 2 ^ c.ptrBits = x.nrows + 2 * n - 2 ^ c.ptrBits := by
    rw [Nat.mod_eq_sub_mod h, Nat.mod_eq_of_lt (by omega)]
  have hb : ∀ p ∈ loopPairs x.ncols n, leftRowIn c x n p = .ok ((p.2, p.1), (1 + 1) * x.entry 0 p.1 - x.entry (n - p.2) p.1) := by
    intro p hp
    obtain ⟨h1, h2⟩ := (mem_loopPairs _ _ _).mp hp
    simp only [leftRowIn, index_ok x (show 0 < x.nrows by omega) h1, ok_bind, c.usizeSub_ok (Nat.le_of_lt h2),
      getUnchecked_ok x (show n - p.2 < x.nrows by omega) h1]
    rfl
  rw [fillLoop_ub]
  · rfl
  · exact fun p hp => ⟨_, hb p hp⟩
  · refine ⟨(0, n - 1), (mem_loopPairs _ _ _).mpr ⟨hc, by simp only; omega⟩, _, hb _ ((mem_loopPairs _ _ _).mpr ⟨hc, by simp only; omega⟩), ?_⟩
    simp only [DMat.zeros, hm, not_and_or]
    left
    omega

theorem oddExtDynIn_cols_wrap (c : Cfg) (x : DMat T) (n : ℕ) (hc : 0 < x.nrows) (hn : n < x.ncols)
    (hr : 2 * x.ncols ≤ 2 ^ c.ptrBits) (h : 2 ^ c.ptrBits ≤ x.ncols + 2 * n) :
    oddExtDynIn c x n 1 = if c.checked then .error Err.overflow else .error Err.ub := by
  unfold oddExtDynIn
  have h1 : ¬ n < 1 := by omega
  simp only [h1, hn, check_true (show 1 < 2 by norm_num), check_true, if_false, ok_bind,
    c.usizeMul_ok (show 2 * n < 2 ^ c.ptrBits by omega), c.usizeAdd_big h]
  split
  · rfl
  rw [ok_bind]
  have hm : (x.ncols + 2 * n) % 2 ^ c.ptrBits = x.ncols + 2 * n - 2 ^ c.ptrBits := by
    rw [Nat.mod_eq_sub_mod h, Nat.mod_eq_of_lt (by omega)]
  have hb : ∀ p ∈ loopPairs n x.nrows, leftColIn c x n p = .ok ((p.2, p.1), (1 + 1) * x.entry p.2 0 - x.entry p.2 (n - p.1)) := by
    intro p hp
    obtain ⟨h2, h1⟩ := (mem_loopPairs _ _ _).mp hp
    simp only [leftColIn, index_ok x h1 (show 0 < x.ncols by omega), ok_bind, c.usizeSub_ok (Nat.le_of_lt h2),
      getUnchecked_ok x h1 (show n - p.1 < x.ncols by omega)]
    rfl
  rw [fillLoop_ub]
  · rfl
  · exact fun p hp => ⟨_, hb p hp⟩
  · refine ⟨(n - 1, 0), (mem_loopPairs _ _ _).mpr ⟨by simp only; omega, hc⟩, _, hb _ ((mem_loopPairs _ _ _).mpr ⟨by simp only; omega, hc⟩), ?_⟩
    simp only [DMat.zeros, hm, not_and_or]
    right
    omega

omit [Zero T] [One T] [Add T] [Mul T] [Sub T] in
/-- What being in memory says about the extended dimension. -/
theorem dim_le {c : Cfg} {size : ℕ} {x : DMat T} (hx : InMemory c size x.nrows x.ncols) (axis : ℕ)
    (hl : 0 < lines x axis) : 2 * (size * dim x axis) < 2 ^ c.ptrBits := by
  have h16 := c.h16
  have h1 := hx.2.2
  unfold Allocatable at h1
  have hp : 2 ^ c.ptrBits = 2 * 2 ^ (c.ptrBits - 1) := by
    rw [← pow_succ']
    congr 1
    omega
  have hd : dim x axis ≤ x.nrows * x.ncols := by
    unfold dim
    unfold lines at hl
    split
    · rename_i h
      rw [if_pos h] at hl
      exact Nat.le_mul_of_pos_right _ hl
    · rename_i h
      rw [if_neg h] at hl
      exact Nat.le_mul_of_pos_left _ hl
  have := Nat.mul_le_mul_left size hd
  omega

end SciRs

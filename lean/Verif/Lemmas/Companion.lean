import Verif.Model.Companion
import Mathlib.Algebra.Field.Basic
import Mathlib.Data.List.Basic

/-! Helper lemmas about sequences of unchecked matrix writes. -/

namespace SciRs

variable {T : Type}

theorem writeAll_ok (f : Nat → Nat → T) (ws : List ((Nat × Nat) × T)) (m : DMat T)
    (hin : ∀ w ∈ ws, w.1.1 < m.nrows ∧ w.1.2 < m.ncols)
    (hval : ∀ w ∈ ws, w.2 = f w.1.1 w.1.2) :
    ∃ m', writeAll m ws = .ok m' ∧ m'.nrows = m.nrows ∧ m'.ncols = m.ncols ∧
      (∀ i j, (∃ w ∈ ws, w.1 = (i, j)) → m'.entry i j = f i j) ∧
      (∀ i j, (¬ ∃ w ∈ ws, w.1 = (i, j)) → m'.entry i j = m.entry i j) := by
  induction ws generalizing m with
  | nil => exact ⟨m, rfl, rfl, rfl, by simp, by simp⟩
  | cons w ws ih =>
    have hw := hin w (by simp)
    have hset : m.setUnchecked w.1.1 w.1.2 w.2 = .ok (m.put w.1.1 w.1.2 w.2) := by
      simp only [DMat.setUnchecked, hw, and_self, if_true]
    obtain ⟨m', h1, h2, h3, h4, h5⟩ := ih (m.put w.1.1 w.1.2 w.2)
      (fun w' hw' => hin w' (by simp [hw'])) (fun w' hw' => hval w' (by simp [hw']))
    refine ⟨m', by simp [writeAll, hset, h1], h2, h3, ?_, ?_⟩
    · rintro i j ⟨w', hw', he⟩
      by_cases hlater : ∃ v ∈ ws, v.1 = (i, j)
      · exact h4 i j hlater
      · rw [h5 i j hlater]
        rcases List.mem_cons.mp hw' with rfl | hmem
        · have e1 : i = w'.1.1 := by rw [he]
          have e2 : j = w'.1.2 := by rw [he]
          simp only [DMat.put, e1, e2, and_self, if_true]
          exact hval w' (by simp)
        · exact absurd ⟨w', hmem, he⟩ hlater
    · intro i j hno
      have hlater : ¬ ∃ v ∈ ws, v.1 = (i, j) := by
        rintro ⟨v, hv, he⟩; exact hno ⟨v, by simp [hv], he⟩
      rw [h5 i j hlater]
      have : ¬ (i = w.1.1 ∧ j = w.1.2) := by
        rintro ⟨rfl, rfl⟩; exact hno ⟨w, by simp, rfl⟩
      simp only [DMat.put, this, if_false]

theorem writeAll_ub (ws : List ((Nat × Nat) × T)) (m : DMat T)
    (h : ∃ w ∈ ws, ¬ (w.1.1 < m.nrows ∧ w.1.2 < m.ncols)) :
    writeAll m ws = .error Err.ub := by
  induction ws generalizing m with
  | nil => simp at h
  | cons w ws ih =>
    by_cases hw : w.1.1 < m.nrows ∧ w.1.2 < m.ncols
    · have hset : m.setUnchecked w.1.1 w.1.2 w.2 = .ok (m.put w.1.1 w.1.2 w.2) := by
        simp only [DMat.setUnchecked, hw, and_self, if_true]
      simp only [writeAll, hset, ok_bind]
      refine ih _ ?_
      obtain ⟨v, hv, hb⟩ := h
      rcases List.mem_cons.mp hv with rfl | hmem
      · exact absurd hw hb
      · exact ⟨v, hmem, hb⟩
    · simp only [writeAll, DMat.setUnchecked, hw, if_false, error_bind]

theorem companionDyn_ok [Zero T] [One T] [Neg T] [Div T] (a0 : T) (rest : List T) (m : Nat)
    (hm : 2 ≤ m) (hlen : rest.length + 1 ≤ m) :
    ∃ M, companionDyn (a0 :: rest) m = .ok M ∧ M.nrows = m - 1 ∧ M.ncols = m - 1 ∧
      (∀ j (hj : j < rest.length), M.entry 0 j = -rest[j] / a0) ∧
      (∀ j, rest.length ≤ j → M.entry 0 j = 0) ∧
      (∀ i j, i + 1 < m - 1 → j < m - 1 →
        M.entry (i + 1) j = if i = j then 1 else 0) := by
  classical
  have hnm : ¬ m < 2 := by omega
  let row := rest.zipIdx.map fun p => (((0 : Nat), p.2), -p.1 / a0)
  let sub := (List.range (m - 2)).map fun i => (((i + 1 : Nat), i), (1 : T))
  let f : Nat → Nat → T := fun i j =>
    if i = 0 then (if h : j < rest.length then -rest[j] / a0 else 0) else 1
  have hrow : ∀ w, w ∈ row ↔ ∃ j, ∃ (h : j < rest.length), w = ((0, j), -rest[j] / a0) := by
    intro w
    simp only [row, List.mem_map]
    constructor
    · rintro ⟨p, hp, rfl⟩
      have := List.mem_zipIdx hp
      obtain ⟨h0, h1, h2⟩ := this
      refine ⟨p.2, by omega, ?_⟩
      have : p.1 = rest[p.2]'(by omega) := by simpa using h2
      rw [this]
    · rintro ⟨j, hj, rfl⟩
      refine ⟨(rest[j], j), ?_, rfl⟩
      rw [List.mem_zipIdx_iff_getElem?]
      simp [List.getElem?_eq_getElem hj]
  have hsub : ∀ w, w ∈ sub ↔ ∃ i, i < m - 2 ∧ w = ((i + 1, i), 1) := by
    intro w
    simp only [sub, List.mem_map, List.mem_range]
    constructor
    · rintro ⟨i, hi, rfl⟩; exact ⟨i, hi, rfl⟩
    · rintro ⟨i, hi, rfl⟩; exact ⟨i, hi, rfl⟩
  obtain ⟨M, h1, h2, h3, h4, h5⟩ := writeAll_ok f (row ++ sub) (DMat.zeros (m - 1) (m - 1)) (by
    intro w hw
    rcases List.mem_append.mp hw with h | h
    · obtain ⟨j, hj, rfl⟩ := (hrow w).mp h
      simp only [DMat.zeros]; omega
    · obtain ⟨i, hi, rfl⟩ := (hsub w).mp h
      simp only [DMat.zeros]; omega) (by
    intro w hw
    rcases List.mem_append.mp hw with h | h
    · obtain ⟨j, hj, rfl⟩ := (hrow w).mp h
      simp [f, hj]
    · obtain ⟨i, hi, rfl⟩ := (hsub w).mp h
      simp [f])
  refine ⟨M, by simp only [companionDyn, hnm, if_false]; exact h1, h2, h3, ?_, ?_, ?_⟩
  · intro j hj
    rw [h4 0 j ⟨_, List.mem_append.mpr (Or.inl ((hrow _).mpr ⟨j, hj, rfl⟩)), rfl⟩]
    simp [f, hj]
  · intro j hj
    rw [h5 0 j]
    · rfl
    · rintro ⟨w, hw, he⟩
      rcases List.mem_append.mp hw with h | h
      · obtain ⟨j', hj', rfl⟩ := (hrow w).mp h
        simp at he; omega
      · obtain ⟨i, hi, rfl⟩ := (hsub w).mp h
        simp at he
  · intro i j hi hj
    by_cases hij : i = j
    · subst hij
      rw [h4 (i + 1) i ⟨_, List.mem_append.mpr (Or.inr ((hsub _).mpr ⟨i, by omega, rfl⟩)), rfl⟩]
      simp [f]
    · rw [h5 (i + 1) j]
      · simp [DMat.zeros, hij]
      · rintro ⟨w, hw, he⟩
        rcases List.mem_append.mp hw with h | h
        · obtain ⟨j', hj', rfl⟩ := (hrow w).mp h
          simp at he
        · obtain ⟨i', hi', rfl⟩ := (hsub w).mp h
          simp at he; omega

end SciRs

import Verif.Lemmas.IeeePairing

/-!
# NaN in the conversions to sections and coefficients (C105)
-/

namespace SciRs.IeeeDesign

open Classical SciRs.Spec SciRs.Spec.Ieee SciRs.Design

variable {f : Format} {L : Lib f} {S : CxSorts f}

/-- No undefined behaviour. -/
def Safe {α : Type} (x : Res α) : Prop := x ≠ .error Err.ub

theorem Safe.bind {α β : Type} {x : Res α} {g : α → Res β} (hx : Safe x) (hg : ∀ a, Safe (g a)) : Safe (x >>= g) := by
  cases x with
  | error e => exact fun h => hx (by cases h; rfl)
  | ok a => exact hg a

theorem Safe.pure {α : Type} (a : α) : Safe (Pure.pure a : Res α) := fun h => by cases h

theorem Safe.check {p : Prop} [Decidable p] {e : Err} (he : e ≠ Err.ub) : Safe (SciRs.check p e) := by
  unfold SciRs.check
  split
  · exact fun h => by cases h
  · exact fun h => he (by cases h; rfl)

theorem Safe.foldlM {α γ : Type} {g : α → γ → Res α} (hg : ∀ a c, Safe (g a c)) (l : List γ) (a : α) :
    Safe (l.foldlM g a) := by
  induction l generalizing a with
  | nil => exact Safe.pure a
  | cons c l ih =>
    rw [List.foldlM_cons]
    exact (hg a c).bind fun a => ih a

theorem Safe.mapM {α β : Type} {g : α → Res β} (hg : ∀ a, Safe (g a)) (l : List α) : Safe (l.mapM g) := by
  induction l with
  | nil => rw [List.mapM_nil]; exact Safe.pure _
  | cons c l ih =>
    rw [List.mapM_cons]
    exact (hg c).bind fun a => ih.bind fun b => Safe.pure _

theorem Safe.idx {α : Type} (l : List α) (i : ℕ) : Safe (Design.idx l i) := by
  unfold Design.idx
  split <;> exact fun h => by cases h

theorem Safe.panics_bind {α β : Type} {x : Res α} {g : α → Res β} (hx : Safe x) (hg : ∀ a, Panics (g a)) :
    Panics (x >>= g) := by
  cases x with
  | error e => exact ⟨e, fun h => hx (by rw [h]), rfl⟩
  | ok a => exact hg a

theorem panics_bind_left {α β : Type} {x : Res α} {g : α → Res β} (hx : Panics x) : Panics (x >>= g) := by
  obtain ⟨e, he, rfl⟩ := hx
  exact ⟨e, he, rfl⟩

theorem cplxreal_safe (hS : S.Correct) (z : List (Cx f)) (tol : Option (Ieee f)) : Safe (cplxreal L S z tol) := by
  unfold cplxreal
  split
  · exact Safe.pure _
  · refine Safe.bind (hS.key.safe _) fun z' => ?_
    dsimp only
    split
    · exact Safe.pure _
    · split
      · exact fun h => by cases h
      · refine (Safe.check (by simp)).bind fun _ => Safe.bind (Safe.foldlM (fun st q => ?_) _ _) fun st => ?_
        · unfold sortRun
          exact (Safe.check (by simp)).bind fun _ => (Safe.check (by simp)).bind fun _ =>
            Safe.bind (hS.pair.safe _) fun _ => Safe.pure _
        · split
          · exact fun h => by cases h
          · exact Safe.pure _

theorem polyFold_safe (z a : List (Cx f)) : Safe (z.foldlM polyStep a) := by
  refine Safe.foldlM (fun a zi => ?_) _ _
  unfold polyStep
  refine Safe.mapM (fun i => ?_) _
  unfold polyEntry
  extract_lets ui uf
  split
  · exact (Safe.idx _ _).bind fun _ => (Safe.idx _ _).bind fun _ => Safe.pure _
  · refine Safe.foldlM (fun acc u => ?_) _ _
    split
    · exact (Safe.idx _ _).bind fun _ => (Safe.idx _ _).bind fun _ => Safe.pure _
    · exact Safe.pure _

theorem poly_safe (hS : S.Correct) (z : List (Cx f)) : Safe (poly S z) := by
  unfold poly
  refine (polyFold_safe _ _).bind fun a => Safe.bind (hS.cplx.safe _) fun _ => Safe.bind (hS.cplx.safe _) fun _ => ?_
  split <;> exact Safe.pure _

theorem pcmp_nan (b : Ieee f) : pcmp nan b = none ∧ pcmp b nan = none := by
  unfold pcmp
  constructor
  · rfl
  · cases b.toE <;> rfl

theorem cmpKey_nan {a : Cx f} (h : a.re = nan) (b : Cx f) : cmpKey a b = none ∧ cmpKey b a = none := by
  unfold cmpKey
  rw [h, (pcmp_nan b.re).1, (pcmp_nan b.re).2]
  exact ⟨rfl, rfl⟩

theorem cmpCplx_nan {a : Cx f} (h : a.re = nan) (b : Cx f) : cmpCplx a b = none ∧ cmpCplx b a = none := by
  unfold cmpCplx
  rw [h, (pcmp_nan b.re).1, (pcmp_nan b.re).2]
  exact ⟨rfl, rfl⟩

theorem cplxreal_nan (hS : S.Correct) {z : List (Cx f)} {a : Cx f} (ha : a ∈ z) (hn : a.re = nan) (h2 : 2 ≤ z.length)
    (tol : Option (Ieee f)) : Panics (cplxreal L S z tol) := by
  unfold cplxreal
  rw [if_neg (by rintro rfl; cases ha)]
  exact panics_bind_left (hS.key.panics z a ha h2 fun b _ => cmpKey_nan hn b)

theorem pairUp_nan (hS : S.Correct) {z p : List (Cx f)} {a : Cx f} (ha : (a ∈ z ∧ 2 ≤ z.length) ∨ (a ∈ p ∧ 2 ≤ p.length))
    (hn : a.re = nan) (pairing : Pairing) (analog : Bool) (k : Ieee f) (n : ℕ) :
    Panics (pairUp L S pairing analog z p k n) := by
  unfold pairUp pairAll
  refine panics_bind_left ?_
  rcases ha with ⟨ha, h2⟩ | ⟨ha, h2⟩
  · exact panics_bind_left (cplxreal_nan hS ha hn h2 none)
  · exact (cplxreal_safe hS _ _).panics_bind fun _ => panics_bind_left (cplxreal_nan hS ha hn h2 none)

/-- Sections: a zero or a pole whose real part is NaN. -/
theorem zpk2sos_nan (hS : S.Correct) {q : ZpkI f} {a : Cx f} (ha : a ∈ q.z ∨ a ∈ q.p) (hn : a.re = nan) (order : ℕ) :
    Panics (zpk2sos L S order q none (some false)) := by
  unfold zpk2sos
  dsimp only [Option.getD]
  rw [if_neg (by simp), if_neg (by rintro ⟨h1, h2⟩; rw [h1, h2] at ha; simp at ha), if_pos (by simp)]
  have hl : (q.z ++ List.replicate ((q.p ++ List.replicate (q.z.length - q.p.length) (Cx.ofRe 0)).length - q.z.length)
      (Cx.ofRe (0 : Ieee f))).length = (q.p ++ List.replicate (q.z.length - q.p.length) (Cx.ofRe (0 : Ieee f))).length := by
    simp; omega
  have hm : a ∈ q.z ++ List.replicate ((q.p ++ List.replicate (q.z.length - q.p.length) (Cx.ofRe 0)).length - q.z.length)
      (Cx.ofRe (0 : Ieee f)) ∨ a ∈ q.p ++ List.replicate (q.z.length - q.p.length) (Cx.ofRe (0 : Ieee f)) := by
    simp only [List.mem_append]
    tauto
  revert hl hm
  generalize q.z ++ List.replicate ((q.p ++ List.replicate (q.z.length - q.p.length) (Cx.ofRe 0)).length - q.z.length)
      (Cx.ofRe (0 : Ieee f)) = z
  generalize q.p ++ List.replicate (q.z.length - q.p.length) (Cx.ofRe (0 : Ieee f)) = p
  intro hl hm
  refine (Safe.check (by simp)).panics_bind fun _ => pairUp_nan hS ?_ hn _ _ _ _
  have h0 : 0 < p.length := by
    rcases hm with h | h
    · rw [← hl]; exact List.length_pos_of_mem h
    · exact List.length_pos_of_mem h
  by_cases hodd : p.length % 2 = 1
  · rw [if_pos ⟨hodd, by simp⟩]
    rcases hm with h | h
    · refine .inl ⟨List.mem_append_left _ h, ?_⟩
      simp only [List.length_append, List.length_singleton]; omega
    · refine .inr ⟨List.mem_append_left _ h, ?_⟩
      simp only [List.length_append, List.length_singleton]; omega
  · rw [if_neg (fun h => hodd h.1)]
    rcases hm with h | h
    · exact .inl ⟨h, by dsimp only; omega⟩
    · exact .inr ⟨h, by dsimp only; omega⟩

theorem poly_nan (hS : S.Correct) {z : List (Cx f)} {a : Cx f} (ha : a ∈ z) (hn : a.re = nan) (h2 : 2 ≤ z.length) :
    Panics (poly S z) := by
  unfold poly
  exact (polyFold_safe _ _).panics_bind fun _ =>
    panics_bind_left (hS.cplx.panics z a ha h2 fun b _ => cmpCplx_nan hn b)

/-- Coefficients: a zero or a pole whose real part is NaN, among two or more. -/
theorem zpk2tf_nan (hS : S.Correct) {z p : List (Cx f)} {a : Cx f} (ha : (a ∈ z ∧ 2 ≤ z.length) ∨ (a ∈ p ∧ 2 ≤ p.length))
    (hn : a.re = nan) (order : ℕ) (k : Ieee f) : Panics (zpk2tf S order z p k) := by
  unfold zpk2tf
  rcases ha with ⟨ha, h2⟩ | ⟨ha, h2⟩
  · exact panics_bind_left (poly_nan hS ha hn h2)
  · exact (poly_safe hS _).panics_bind fun _ => panics_bind_left (poly_nan hS ha hn h2)

/-! ### The sorts exist -/

/-- A number as a member of an ordered set, NaN first. -/
noncomputable def place (a : Ieee f) : WithBot EReal :=
  match a.toE with
  | some x => (x : WithBot EReal)
  | none => ⊥

theorem place_some {a : Ieee f} {x : EReal} (h : a.toE = some x) : place a = (x : WithBot EReal) := by
  unfold place
  rw [h]

/-- The order in which pairs of numbers are sorted. -/
noncomputable def rank (a b : Ieee f) : WithBot EReal ×ₗ WithBot EReal := toLex (place a, place b)

theorem pcmp_some {a b : Ieee f} (h : pcmp a b ≠ none) : ∃ x y, a.toE = some x ∧ b.toE = some y ∧
    pcmp a b = some (if x < y then .lt else if x = y then .eq else .gt) := by
  unfold pcmp at h ⊢
  cases ha : a.toE with
  | none => rw [ha] at h; exact absurd rfl h
  | some x =>
    cases hb : b.toE with
    | none => rw [ha, hb] at h; exact absurd rfl h
    | some y => exact ⟨x, y, rfl, rfl, rfl⟩

theorem rank_le {a b a' b' : Ieee f} (h : (match pcmp a b with | some .eq => pcmp a' b' | o => o) ≠ none) :
    (match pcmp a b with | some .eq => pcmp a' b' | o => o) ≠ some .gt ↔ rank a a' ≤ rank b b' := by
  have h0 : pcmp a b ≠ none := fun h' => by rw [h'] at h; exact h rfl
  obtain ⟨x, y, hx, hy, hc⟩ := pcmp_some h0
  rw [rank, rank, Prod.Lex.toLex_le_toLex]
  dsimp only
  rw [hc] at h ⊢
  rw [place_some hx, place_some hy, WithBot.coe_lt_coe, WithBot.coe_inj]
  by_cases h1 : x < y
  · simp [h1]
  · by_cases h2 : x = y
    · simp only [h1, h2, if_true, if_false] at h ⊢
      rw [if_neg (lt_irrefl y)] at h ⊢
      dsimp only at h ⊢
      obtain ⟨x', y', hx', hy', hc'⟩ := pcmp_some h
      rw [hc', place_some hx', place_some hy', WithBot.coe_le_coe]
      by_cases h3 : x' < y'
      · simp [h3, h3.le]
      · by_cases h4 : x' = y'
        · simp [h4]
        · simp only [h3, h4, if_false, ne_eq, not_true_eq_false, true_and, false_or, lt_irrefl, false_iff, not_le]
          exact lt_of_le_of_ne (not_lt.mp h3) (Ne.symm h4)
    · simp [h1, h2]

/-- A sort that compares everything first. -/
noncomputable def anySort {α : Type} (c : α → α → Option Ordering) (k : α → WithBot EReal ×ₗ WithBot EReal)
    (l : List α) : Res (List α) :=
  if 2 ≤ l.length ∧ ∃ a ∈ l, ∃ b ∈ l, c a b = none then .error Err.panic
  else .ok (l.mergeSort (fun a b => decide (k a ≤ k b)))

theorem anySort_correct {α : Type} {c : α → α → Option Ordering} {k : α → WithBot EReal ×ₗ WithBot EReal}
    (hk : ∀ a b, c a b ≠ none → (c a b ≠ some .gt ↔ k a ≤ k b)) : SortOf c (anySort c k) where
  safe l h := by
    unfold anySort at h
    split at h <;> cases h
  short l hl := by
    unfold anySort
    rw [if_neg (by omega)]
    match l, hl with
    | [], _ => simp
    | [a], _ => simp
  panics l a ha h2 h := by
    unfold anySort
    rw [if_pos ⟨h2, a, ha, a, ha, (h a ha).1⟩]
    simp
  sorts w hw := by
    have hp := List.mergeSort_perm w (fun p q => decide (k p.1 ≤ k q.1))
    refine ⟨w.mergeSort (fun p q => decide (k p.1 ≤ k q.1)), hp, ?_, ?_, ?_⟩
    · unfold anySort
      rw [if_neg]
      · rw [List.map_mergeSort (f := Prod.fst) (r := fun p q => decide (k p.1 ≤ k q.1))
          (s := fun a b => decide (k a ≤ k b)) (by intros; rfl)]
      · rintro ⟨-, a, ha, b, hb, h⟩
        obtain ⟨p, hp, rfl⟩ := List.mem_map.mp ha
        obtain ⟨q, hq, rfl⟩ := List.mem_map.mp hb
        exact (hw p hp q hq).1 h
    · unfold anySort
      rw [if_neg]
      · rw [List.map_mergeSort (f := Prod.snd) (r := fun p q => decide (k p.1 ≤ k q.1))
          (s := fun a b => decide (k a ≤ k b)) (by
            intro p hp q hq
            obtain ⟨h1, h2⟩ := hw p hp q hq
            rw [decide_eq_decide, ← hk _ _ h1, ← hk _ _ (h2 ▸ h1), h2])]
      · rintro ⟨-, a, ha, b, hb, h⟩
        obtain ⟨p, hp, rfl⟩ := List.mem_map.mp ha
        obtain ⟨q, hq, rfl⟩ := List.mem_map.mp hb
        exact (hw p hp q hq).1 ((hw p hp q hq).2.trans h)
    · have h := List.pairwise_mergeSort (le := fun p q : α × α => decide (k p.1 ≤ k q.1))
        (by intro a b c; simpa using le_trans) (by intro a b; simpa using le_total _ _) w
      refine h.imp_of_mem fun {p q} hp' hq' h => ?_
      exact (hk _ _ (hw p (hp.mem_iff.mp hp') q (hp.mem_iff.mp hq')).1).mpr (by simpa using h)

/-- Correct sorts. -/
noncomputable def anySorts (f : Format) : CxSorts f where
  byKey := anySort cmpKey (fun a => rank a.re a.im.abs)
  byPair := anySort cmpPair (fun a => rank a.2.im.abs a.1.im)
  byCplx := anySort cmpCplx (fun a => rank a.re a.im)

theorem anySorts_correct (f : Format) : (anySorts f).Correct where
  key := anySort_correct fun _ _ h => rank_le h
  pair := anySort_correct fun _ _ h => rank_le h
  cplx := anySort_correct fun _ _ h => rank_le h

end SciRs.IeeeDesign

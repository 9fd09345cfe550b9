import Verif.Model.Sosfilt
import Verif.Spec.Cascade

/-! Helper lemmas about the biquad cascade (law-free part). -/

namespace SciRs

section
variable {F : Type} [Add F] [Sub F] [Mul F]

theorem mapMut_append {I O S : Type} (g : I → S → O × S) (xs ys : List I) (st : S) :
    mapMut g (xs ++ ys) st =
      ((mapMut g xs st).1 ++ (mapMut g ys (mapMut g xs st).2).1,
        (mapMut g ys (mapMut g xs st).2).2) := by
  induction xs generalizing st with
  | nil => rfl
  | cons x xs ih => simp [mapMut, ih]

theorem mapMut_length {I O S : Type} (g : I → S → O × S) (xs : List I) (st : S) :
    (mapMut g xs st).1.length = xs.length := by
  induction xs generalizing st with
  | nil => rfl
  | cons x xs ih => simp [mapMut, ih]

theorem foldMut_length {A S : Type} (f : A → S → A × S) (a : A) (ss : List S) :
    (foldMut f a ss).2.length = ss.length := by
  induction ss generalizing a with
  | nil => rfl
  | cons s ss ih => simp [foldMut, ih]

theorem mapMut_congr_inv {I O S : Type} (g h : I → S → O × S) (Inv : S → Prop)
    (hgh : ∀ i s, Inv s → g i s = h i s) (hinv : ∀ i s, Inv s → Inv (h i s).2)
    (xs : List I) (st : S) (h0 : Inv st) : mapMut g xs st = mapMut h xs st := by
  induction xs generalizing st with
  | nil => rfl
  | cons x xs ih =>
    simp only [mapMut]
    rw [hgh x st h0, ih _ (hinv x st h0)]

theorem armStep_eq : (armStep : F → Sos F → F × Sos F) = itemStep := rfl
theorem biquadFold_eq : (biquadFold : F → Sos F → F × Sos F) = itemStep := rfl

theorem armItem_eq (k : Nat) (y : F) (sos : List (Sos F)) (h : sos.length = k) :
    armItem k y sos = sosfiltItem y sos := by
  subst h
  simp [armItem, sosfiltItem, armStep_eq]

theorem mapMut_armItem (k : Nat) (y : List F) (sos : List (Sos F)) (h : sos.length = k) :
    mapMut (armItem k) y sos = mapMut sosfiltItem y sos := by
  refine mapMut_congr_inv _ _ (fun s => s.length = k) (fun i s hs => armItem_eq k i s hs) ?_ y sos h
  intro i s hs
  rw [sosfiltItem, foldMut_length]
  exact hs

theorem sosfiltDyn_eq (y : List F) (sos : List (Sos F)) :
    sosfiltDyn y sos = mapMut sosfiltItem y sos := by
  unfold sosfiltDyn
  split <;> first
    | rfl
    | (rename_i h; exact mapMut_armItem _ y sos h)

theorem sosfiltItem_cons (y : F) (s : Sos F) (ss : List (Sos F)) :
    sosfiltItem y (s :: ss) =
      ((sosfiltItem (itemStep y s).1 ss).1, (itemStep y s).2 :: (sosfiltItem (itemStep y s).1 ss).2) :=
  rfl

/-- A single section as a signal processor. -/
theorem mapMut_item_cons (y : List F) (s : Sos F) (ss : List (Sos F)) :
    mapMut sosfiltItem y (s :: ss) =
      ((mapMut sosfiltItem (mapMut itemStep y s).1 ss).1,
        (mapMut itemStep y s).2 :: (mapMut sosfiltItem (mapMut itemStep y s).1 ss).2) := by
  induction y generalizing s ss with
  | nil => rfl
  | cons x xs ih =>
    simp only [mapMut, sosfiltItem_cons, ih]

theorem mapMut_itemStep (y : List F) (s : Sos F) :
    mapMut itemStep y s =
      ((Spec.tdf2 s.b0 s.b1 s.b2 s.a1 s.a2 s.zi0 s.zi1 y).1,
        { s with zi0 := (Spec.tdf2 s.b0 s.b1 s.b2 s.a1 s.a2 s.zi0 s.zi1 y).2.1,
                 zi1 := (Spec.tdf2 s.b0 s.b1 s.b2 s.a1 s.a2 s.zi0 s.zi1 y).2.2 }) := by
  induction y generalizing s with
  | nil => rfl
  | cons x xs ih =>
    simp only [mapMut, Spec.tdf2, ih]
    rfl

theorem mapMut_nil_sos (y : List F) :
    mapMut sosfiltItem y ([] : List (Sos F)) = (y, []) := by
  induction y with
  | nil => rfl
  | cons x xs ih => simp [mapMut, ih, sosfiltItem, foldMut]

theorem mapMut_item_eq_cascade (y : List F) (sos : List (Sos F)) :
    mapMut sosfiltItem y sos = Spec.cascade sos y := by
  induction sos generalizing y with
  | nil => simp [mapMut_nil_sos, Spec.cascade]
  | cons s ss ih => simp [mapMut_item_cons, Spec.cascade, mapMut_itemStep, ih]

theorem pull_eq (n : Nat) (y : List F) (sos : List (Sos F)) :
    (sosfiltSt y sos).pull n =
      ((mapMut sosfiltItem (y.take n) sos).1,
        ⟨y.drop n, (mapMut sosfiltItem (y.take n) sos).2⟩) := by
  induction n generalizing y sos with
  | zero => simp [SosfiltSt.pull, mapMut, sosfiltSt]
  | succ n ih =>
    cases y with
    | nil => simp [SosfiltSt.pull, SosfiltSt.next, sosfiltSt, mapMut]
    | cons x xs =>
      have := ih xs (sosfiltItem x sos).2
      simp only [sosfiltSt] at this
      simp [SosfiltSt.pull, SosfiltSt.next, sosfiltSt, mapMut, this]

end

section
variable {I F : Type} [Add F] [Sub F] [Mul F]

theorem loop32_eq (conv : I → F) (y : List I) (z : List F) (sos : List (Sos F))
    (h : y.length = z.length) :
    loop32 conv y z sos = mapMut sosfiltItem (y.map conv) sos := by
  induction y generalizing z sos with
  | nil =>
    cases z with
    | nil => rfl
    | cons _ _ => simp at h
  | cons x xs ih =>
    cases z with
    | nil => simp at h
    | cons w ws =>
      have hx : foldMut biquadFold (conv x) sos = sosfiltItem (conv x) sos := rfl
      simp only [loop32, List.map_cons, mapMut, hx]
      rw [ih ws _ (by simpa using h)]

theorem tile32_eq (conv : I → F) (y : List I) (z : List F) (sos : List (Sos F))
    (h : y.length = z.length) (hm : y.length % 4 = 0) :
    tile32 conv y z sos = mapMut sosfiltItem (y.map conv) sos := by
  fun_induction tile32 conv y z sos with
  | case1 y0 y1 y2 y3 ys z0 z1 z2 z3 zs sos r rest ih =>
    have hl : ys.length = zs.length := by simpa using h
    have hm' : ys.length % 4 = 0 := by simp at hm; omega
    have ih' := ih hl hm'
    have e : (y0 :: y1 :: y2 :: y3 :: ys).map conv =
        [conv y0, conv y1, conv y2, conv y3] ++ ys.map conv := rfl
    have hr : r = mapMut sosfiltItem [conv y0, conv y1, conv y2, conv y3] sos := by
      exact loop32_eq conv [y0, y1, y2, y3] [z0, z1, z2, z3] sos rfl
    rw [e, mapMut_append]
    simp only [rest, ih', hr]
  | case2 y z sos hne =>
    match y, z, h, hm, hne with
    | [], [], _, _, _ => rfl
    | [_], _, _, hm, _ => simp at hm
    | [_, _], _, _, hm, _ => simp at hm
    | [_, _, _], _, _, hm, _ => simp at hm
    | a :: b :: c :: d :: e, z0 :: z1 :: z2 :: z3 :: zs, _, _, hne =>
      exact absurd rfl (hne _ _ _ _ _ _ _ _ _ _ rfl)
    | a :: b :: c :: d :: e, [], h, _, _ => simp at h
    | a :: b :: c :: d :: e, [_], h, _, _ => simp at h
    | a :: b :: c :: d :: e, [_, _], h, _, _ => simp at h
    | a :: b :: c :: d :: e, [_, _, _], h, _, _ => simp at h

theorem sosfilt32Core_nil (conv : I → F) (sos : List (Sos F)) :
    sosfilt32Core conv [] sos [] = .ok ([], sos) := by
  rw [sosfilt32Core]; simp

theorem sosfilt32Core_eq (conv : I → F) (y : List I) (z : List F) (sos : List (Sos F))
    (h : y.length = z.length) :
    sosfilt32Core conv y sos z = .ok (mapMut sosfiltItem (y.map conv) sos) := by
  rw [sosfilt32Core]
  by_cases hy : y = []
  · subst hy
    have : z = [] := by simpa using h.symm
    subst this
    simp [mapMut]
  · have hl : (mapMut sosfiltItem (y.map conv) sos).1.length = y.length := by
      rw [mapMut_length, List.length_map]
    by_cases hm : y.length % 4 = 0
    · have ht := tile32_eq conv y z sos h hm
      have hd : (mapMut sosfiltItem (y.map conv) sos).1.drop y.length = [] := by
        rw [← hl, List.drop_length]
      have htk : (mapMut sosfiltItem (y.map conv) sos).1.take y.length =
          (mapMut sosfiltItem (y.map conv) sos).1 := by
        rw [← hl, List.take_length]
      simp only [h, ne_eq, not_true_eq_false, if_false, hy, dite_false]
      rw [dif_pos (by rw [← h]; exact hm), loop32_eq conv y z sos h, ht]
      simp only [← h, hm, Nat.sub_zero, List.drop_length, hd, sosfilt32Core_nil, htk,
        List.append_nil]
      split <;> rfl
    · simp only [h, ne_eq, not_true_eq_false, if_false, hy, dite_false]
      rw [dif_neg (by rw [← h]; exact hm), loop32_eq conv y z sos h]

end
end SciRs

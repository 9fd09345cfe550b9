import Verif.Lemmas.RoundedLimit
import Verif.Lemmas.RoundedSos
import Verif.Lemmas.LfilterZi
import Verif.Model.SosfiltZi
import Verif.Props.SosfiltExact

/-! Helper lemmas: `lfilter_zi_dyn` and `sosfilt_zi_dyn` in rounded arithmetic. -/

namespace SciRs.Rounded

open SciRs SciRs.Spec SciRs.Props

/-- `Lim` for a quantity given as a rounded number. -/
abbrev FLim (f : (r : Rounding) → Fl r) (v : ℝ) : Prop := Lim (fun r => (f r).val) v

theorem FLim.add {f g : (r : Rounding) → Fl r} {v w : ℝ} (hf : FLim f v) (hg : FLim g w) :
    FLim (fun r => f r + g r) (v + w) := (Lim.add hf hg).rnd

theorem FLim.sub {f g : (r : Rounding) → Fl r} {v w : ℝ} (hf : FLim f v) (hg : FLim g w) :
    FLim (fun r => f r - g r) (v - w) := (Lim.sub hf hg).rnd

theorem FLim.mul {f g : (r : Rounding) → Fl r} {v w : ℝ} (hf : FLim f v) (hg : FLim g w) :
    FLim (fun r => f r * g r) (v * w) := (Lim.mul hf hg).rnd

theorem FLim.div {f g : (r : Rounding) → Fl r} {v w : ℝ} (hw : w ≠ 0) (hf : FLim f v)
    (hg : FLim g w) : FLim (fun r => f r / g r) (v / w) := (Lim.div hw hf hg).rnd

theorem FLim.neg {f : (r : Rounding) → Fl r} {v : ℝ} (hf : FLim f v) :
    FLim (fun r => -f r) (-v) := Lim.neg hf

theorem FLim.zero : FLim (fun _ => 0) 0 := Lim.const 0
theorem FLim.one : FLim (fun _ => 1) 1 := Lim.const 1
theorem FLim.mk (v : ℝ) : FLim (fun _ => ⟨v⟩) v := Lim.const v

theorem sumIter_append {F : Type} [Zero F] [Add F] (l : List F) (x : F) :
    sumIter (l ++ [x]) = sumIter l + x := by
  simp [sumIter]

theorem FLim.sum (n : ℕ) (f : ℕ → (r : Rounding) → Fl r) (v : ℕ → ℝ)
    (h : ∀ i < n, FLim (f i) (v i)) :
    FLim (fun r => sumIter ((List.range n).map fun i => f i r)) (sumIter ((List.range n).map v)) := by
  induction n with
  | zero => exact FLim.zero
  | succ n ih =>
    simp only [List.range_succ, List.map_append, List.map_cons, List.map_nil, sumIter_append]
    exact (ih fun i hi => h i (by omega)).add (h n (by omega))

/-- The entries of a computed list. -/
def LLim (f : (r : Rounding) → List (Fl r)) (l : List ℝ) : Prop :=
  (∀ r, (f r).length = l.length) ∧ ∀ i, FLim (fun r => (f r).getD i 0) (l.getD i 0)

theorem LLim.mk (l : List ℝ) : LLim (fun r => l.map (Fl.mk (r := r))) l := by
  refine ⟨fun r => by simp, fun i => ?_⟩
  have e : ∀ r : Rounding, ((l.map (Fl.mk (r := r))).getD i 0) = ⟨l.getD i 0⟩ := by
    intro r
    by_cases hi : i < l.length
    · simp [List.getD_eq_getElem?_getD, List.getElem?_eq_getElem hi]
    · simp only [List.getD_eq_getElem?_getD, List.getElem?_map,
        List.getElem?_eq_none (show l.length ≤ i by omega)]
      rfl
  simp only [e]
  exact FLim.mk _

theorem LLim.drop {f : (r : Rounding) → List (Fl r)} {l : List ℝ} (h : LLim f l) (n : ℕ) :
    LLim (fun r => (f r).drop n) (l.drop n) := by
  refine ⟨fun r => by simp [h.1 r], fun i => ?_⟩
  have := h.2 (n + i)
  simpa [List.getD_eq_getElem?_getD, List.getElem?_drop] using this

theorem LLim.append_zeros {f : (r : Rounding) → List (Fl r)} {l : List ℝ} (h : LLim f l) (n : ℕ) :
    LLim (fun r => f r ++ List.replicate n 0) (l ++ List.replicate n 0) := by
  refine ⟨fun r => by simp [h.1 r], fun i => ?_⟩
  by_cases hi : i < l.length
  · have := h.2 i
    have e1 : (l ++ List.replicate n 0).getD i 0 = l.getD i 0 := by
      simp [List.getD_eq_getElem?_getD, List.getElem?_append_left hi]
    have e2 : ∀ r, ((f r) ++ List.replicate n 0).getD i 0 = (f r).getD i 0 := fun r => by
      simp [List.getD_eq_getElem?_getD, List.getElem?_append_left (by rw [h.1 r]; exact hi)]
    simp only [e1, e2]
    exact this
  · have e1 : (l ++ List.replicate n 0).getD i 0 = (0 : ℝ) := by
      rw [List.getD_eq_getElem?_getD, List.getElem?_append_right (by omega), List.getElem?_replicate]
      split <;> rfl
    have e2 : ∀ r, ((f r) ++ List.replicate n 0).getD i 0 = 0 := fun r => by
      rw [List.getD_eq_getElem?_getD, List.getElem?_append_right (by rw [h.1 r]; omega),
        List.getElem?_replicate]
      split <;> rfl
    simp only [e1, e2]
    exact FLim.zero

theorem LLim.norm (l : List ℝ) (a0 : ℝ) (ha : a0 ≠ 0) :
    LLim (fun r => lzNorm (⟨a0⟩ : Fl r) (l.map (Fl.mk (r := r)))) (lzNorm a0 l) := by
  by_cases h : a0 = 1
  · have e1 : lzNorm a0 l = l := by simp [lzNorm, h]
    have e2 : ∀ r : Rounding, lzNorm (⟨a0⟩ : Fl r) (l.map (Fl.mk (r := r))) = l.map Fl.mk := by
      intro r
      have : (⟨a0⟩ : Fl r) = 1 := by rw [h]; rfl
      simp [lzNorm, this]
    simp only [e1, e2]
    exact LLim.mk l
  · have e1 : lzNorm a0 l = l.map (· / a0) := by simp [lzNorm, h]
    have e2 : ∀ r : Rounding, lzNorm (⟨a0⟩ : Fl r) (l.map (Fl.mk (r := r)))
        = l.map fun v => (⟨v⟩ : Fl r) / ⟨a0⟩ := by
      intro r
      have : (⟨a0⟩ : Fl r) ≠ 1 := fun hc => h (congrArg Fl.val hc)
      simp [lzNorm, this]
    simp only [e1, e2]
    refine ⟨fun r => by simp, fun i => ?_⟩
    by_cases hi : i < l.length
    · simp only [List.getD_eq_getElem?_getD, List.getElem?_map, List.getElem?_eq_getElem hi,
        Option.map_some, Option.getD_some]
      exact FLim.div ha (FLim.mk _) (FLim.mk _)
    · simp only [List.getD_eq_getElem?_getD, List.getElem?_map,
        List.getElem?_eq_none (show l.length ≤ i by omega), Option.map_none, Option.getD_none]
      exact FLim.zero

theorem lzB_range {F : Type} [Zero F] [Add F] [Sub F] [Mul F] (A B : List F) (b0 : F)
    (h : B.length = A.length) : lzB A B b0 =
      sumIter ((List.range (A.length - 1)).map fun i => B.getD (i + 1) 0 - A.getD (i + 1) 0 * b0) := by
  unfold lzB
  congr 1
  refine List.ext_getElem (by simp [h]) fun i h1 h2 => ?_
  have hi : i + 1 < A.length := by simp at h2; omega
  have hi' : i + 1 < B.length := by omega
  simp [List.getElem?_eq_getElem hi, List.getElem?_eq_getElem hi', add_comm]

theorem lzS_lim {f : (r : Rounding) → List (Fl r)} {A : List ℝ} (h : LLim f A) (k : ℕ) :
    FLim (fun r => lzS (f r) k) (lzS A k) := by
  induction k with
  | zero => exact FLim.one
  | succ k ih => exact ih.add (h.2 (k + 1))

theorem lzC_lim {f g : (r : Rounding) → List (Fl r)} {A B : List ℝ} (h : LLim f A) (h2 : LLim g B)
    {c : (r : Rounding) → Fl r} {b0 : ℝ} (hc : FLim c b0) (k : ℕ) :
    FLim (fun r => lzC (f r) (g r) (c r) k) (lzC A B b0 k) := by
  induction k with
  | zero => exact FLim.zero
  | succ k ih => exact ih.add ((h2.2 (k + 1)).sub ((h.2 (k + 1)).mul hc))

theorem lzB_lim {f g : (r : Rounding) → List (Fl r)} {A B : List ℝ} (h : LLim f A) (h2 : LLim g B)
    {c : (r : Rounding) → Fl r} {b0 : ℝ} (hc : FLim c b0) (hl : B.length = A.length) :
    FLim (fun r => lzB (f r) (g r) (c r)) (lzB A B b0) := by
  have e : ∀ r, lzB (f r) (g r) (c r) = sumIter ((List.range (A.length - 1)).map fun i =>
      (g r).getD (i + 1) 0 - (f r).getD (i + 1) 0 * (c r)) := fun r => by
    rw [lzB_range _ _ _ (by rw [h.1, h2.1, hl]), h.1]
  simp only [e]
  rw [lzB_range _ _ _ hl]
  exact FLim.sum _ (fun i r => (g r).getD (i + 1) 0 - (f r).getD (i + 1) 0 * (c r)) _
    fun i _ => (h2.2 (i + 1)).sub ((h.2 (i + 1)).mul hc)

theorem lzCol_lim {f : (r : Rounding) → List (Fl r)} {A : List ℝ} (h : LLim f A)
    (h0 : A.getD 0 0 ≠ 0) (n : ℕ) : FLim (fun r => lzCol (f r) n) (lzCol A n) := by
  unfold lzCol
  refine FLim.sum _ (fun i r => (if i = 0 then (1 : Fl r) else 0)
    - (-(f r).getD (i + 1) 0 / (f r).getD 0 0)) _ fun i _ => ?_
  refine FLim.sub ?_ (FLim.div h0 (h.2 (i + 1)).neg (h.2 0))
  by_cases hi : i = 0
  · simp only [hi, if_true]; exact FLim.one
  · simp only [hi, if_false]; exact FLim.zero

/-- `lfilter_zi_dyn` in rounded arithmetic. -/
theorem lfilterZi_lim (b a : List ℝ) (hl : b.length = a.length) (hm : 2 ≤ a.length)
    (hsum : a.sum ≠ 0) :
    ∃ (zi : List ℝ) (zi' : (r : Rounding) → List (Fl r)),
      lfilterZiDyn b a = .ok zi ∧ zi.length = a.length - 1 ∧
      (∀ r, lfilterZiDyn (b.map (Fl.mk (r := r))) (a.map (Fl.mk (r := r))) = .ok (zi' r)) ∧
      LLim zi' zi := by
  -- the first non-zero coefficient
  obtain ⟨ai0, hfind⟩ : ∃ i, a.findIdx? (fun ai => ai ≠ 0) = some i := by
    cases hf : a.findIdx? (fun ai => ai ≠ 0) with
    | some i => exact ⟨i, rfl⟩
    | none =>
      exfalso
      apply hsum
      have := List.findIdx?_eq_none_iff.mp hf
      exact List.sum_eq_zero fun x hx => by simpa using this x hx
  have hfind' : ∀ r : Rounding,
      (a.map (Fl.mk (r := r))).findIdx? (fun ai => ai ≠ 0) = some ai0 := by
    intro r
    rw [List.findIdx?_map, ← hfind]
    congr 1
    funext x
    have : (Fl.mk x : Fl r) = 0 ↔ x = 0 :=
      ⟨fun h => congrArg Fl.val h, fun h => by rw [h]; rfl⟩
    simp [this]
  obtain ⟨hai, hne, hlt⟩ := List.findIdx?_eq_some_iff_getElem.mp hfind
  have hane : a.getD ai0 0 ≠ 0 := by
    simpa [List.getElem?_eq_getElem hai] using hne
  obtain ⟨A, hA⟩ : ∃ A, A = lzNorm (a.getD ai0 0) (a.drop ai0) ++ List.replicate ai0 0 := ⟨_, rfl⟩
  obtain ⟨B, hB⟩ : ∃ B, B = lzNorm (a.getD ai0 0) b := ⟨_, rfl⟩
  obtain ⟨zi, z1, z2, z3⟩ := lfilterZiDyn_free b a hl ai0 hfind hm A B hA hB
  have hg : ∀ r : Rounding, (a.map (Fl.mk (r := r))).getD ai0 0 = ⟨a.getD ai0 0⟩ := by
    intro r
    simp [List.getD_eq_getElem?_getD, List.getElem?_eq_getElem hai]
  have hex := fun r : Rounding => lfilterZiDyn_free (b.map (Fl.mk (r := r))) (a.map (Fl.mk (r := r)))
    (by simpa using hl) ai0 (hfind' r) (by simpa using hm)
    (lzNorm (⟨a.getD ai0 0⟩ : Fl r) ((a.drop ai0).map (Fl.mk (r := r))) ++ List.replicate ai0 0)
    (lzNorm (⟨a.getD ai0 0⟩ : Fl r) (b.map (Fl.mk (r := r))))
    (by rw [hg, List.map_drop]) (by rw [hg])
  choose zi' w1 w2 w3 using hex
  have lA : LLim (fun r => lzNorm (⟨a.getD ai0 0⟩ : Fl r) ((a.drop ai0).map (Fl.mk (r := r)))
      ++ List.replicate ai0 0) A := by
    rw [hA]
    exact (LLim.norm (a.drop ai0) _ hane).append_zeros ai0
  have lB : LLim (fun r => lzNorm (⟨a.getD ai0 0⟩ : Fl r) (b.map (Fl.mk (r := r)))) B := by
    rw [hB]
    exact LLim.norm b _ hane
  have hdl : (a.drop ai0).length = a.length - ai0 := List.length_drop
  have hAl : A.length = a.length := by rw [hA]; simp; omega
  have hBl : B.length = a.length := by rw [hB]; simp [hl]
  have hn : ∀ l : List ℝ, lzNorm (a.getD ai0 0) l = l.map (· / a.getD ai0 0) := fun l =>
    map_div_if (a.getD ai0 0) l
  have hA0 : A.getD 0 0 = 1 := by
    have hd : (a.drop ai0).getD 0 0 = a.getD ai0 0 := by
      simp [List.getD_eq_getElem?_getD]
    rw [hA, hn]
    obtain ⟨x, xs, hx⟩ := List.exists_cons_of_length_pos (show 0 < (a.drop ai0).length by omega)
    rw [hx] at hd ⊢
    simp at hd ⊢
    rw [hd]; simpa using div_self hane
  have hcol : lzCol A (a.length - 1) ≠ 0 := by
    rw [lzCol_eq _ _ (by omega) hA0]
    have e1 : ziS A (a.length - 1) = A.sum := by
      obtain ⟨x, xs, hx⟩ := List.exists_cons_of_length_pos (show 0 < A.length by omega)
      have hxl : xs.length = a.length - 1 := by rw [hx] at hAl; simp at hAl; omega
      rw [hx] at hA0 ⊢
      have hx1 : x = 1 := by simpa using hA0
      have := zipWith_sum (fun u _ => u) xs xs rfl
      rw [hxl] at this
      rw [ziS, List.sum_cons, hx1]
      simp only [List.getD_cons_succ]
      rw [← this]; simp [List.zipWith_self]
    have e2 : A.sum = a.sum / a.getD ai0 0 := by
      have e3 : a.sum = (a.drop ai0).sum := by
        conv_lhs => rw [← List.take_append_drop ai0 a]
        rw [List.sum_append]
        have : (a.take ai0).sum = 0 := by
          refine List.sum_eq_zero fun x hx => ?_
          obtain ⟨k, hk, rfl⟩ := List.mem_iff_getElem.mp hx
          simp only [List.length_take] at hk
          have := hlt k (by omega)
          simpa using this
        rw [this, zero_add]
      rw [hA, hn, List.sum_append, e3]
      have e4 := List.sum_map_mul_right (a.drop ai0) (fun x => x) (a.getD ai0 0)⁻¹
      simp only [List.map_id'] at e4
      rw [div_eq_mul_inv, ← e4]
      simp [div_eq_mul_inv]
    rw [e1, e2]
    exact div_ne_zero hsum hane
  refine ⟨zi, zi', z1, z2, w1, fun r => by rw [w2, z2, List.length_map], fun j => ?_⟩
  by_cases hj : j < a.length - 1
  · have e1 := z3 j hj
    have e2 := fun r => w3 r j (by rw [List.length_map]; exact hj)
    simp only [List.length_map] at e2
    simp only [e1, e2]
    have lb0 := lB.2 0
    have lz := FLim.div hcol (lzB_lim lA lB lb0 (by omega)) (lzCol_lim lA (by rw [hA0]; norm_num)
      (a.length - 1))
    by_cases h0 : j = 0
    · simp only [h0, if_true]; exact lz
    · simp only [h0, if_false]
      exact ((lzS_lim lA j).mul lz).sub (lzC_lim lA lB lb0 j)
  · have e1 : zi.getD j 0 = 0 := by
      rw [List.getD_eq_getElem?_getD, List.getElem?_eq_none (by omega)]; rfl
    have e2 : ∀ r, (zi' r).getD j 0 = 0 := fun r => by
      rw [List.getD_eq_getElem?_getD, List.getElem?_eq_none (by rw [w2, List.length_map]; omega)]; rfl
    simp only [e1, e2]
    exact FLim.zero

/-- A section computed in rounded arithmetic: the coefficients of `s`, states close to those of `s`. -/
structure SLim (f : (r : Rounding) → Sos (Fl r)) (s : Sos ℝ) : Prop where
  b0 : ∀ r, (f r).b0 = ⟨s.b0⟩
  b1 : ∀ r, (f r).b1 = ⟨s.b1⟩
  b2 : ∀ r, (f r).b2 = ⟨s.b2⟩
  a0 : ∀ r, (f r).a0 = ⟨s.a0⟩
  a1 : ∀ r, (f r).a1 = ⟨s.a1⟩
  a2 : ∀ r, (f r).a2 = ⟨s.a2⟩
  z0 : FLim (fun r => (f r).zi0) s.zi0
  z1 : FLim (fun r => (f r).zi1) s.zi1

/-- `sosfilt_zi_dyn` in rounded arithmetic, section by section. -/
theorem sosfiltZi_lim (sos : List (Sos ℝ)) (hs : ∀ s ∈ sos, s.a0 + s.a1 + s.a2 ≠ 0)
    (scale : ℝ) (scale' : (r : Rounding) → Fl r) (hsc : FLim scale' scale) :
    ∃ (R : List (Sos ℝ)) (R' : List ((r : Rounding) → Sos (Fl r))),
      sosfiltZiLoop scale sos = .ok R ∧
      (∀ r, sosfiltZiLoop (scale' r) (sos.map (Sos.toFl r)) = .ok (R'.map fun f => f r)) ∧
      List.Forall₂ (fun f s => SLim f s) R' R ∧ R.map coeffs = sos.map coeffs := by
  induction sos generalizing scale scale' with
  | nil => exact ⟨[], [], rfl, fun r => rfl, List.Forall₂.nil, rfl⟩
  | cons s ss ih =>
    obtain ⟨zi, zi', h1, h2, h3, h4⟩ := lfilterZi_lim [s.b0, s.b1, s.b2] [s.a0, s.a1, s.a2] rfl
      (by simp) (by have := hs s (by simp); simpa [add_assoc] using this)
    have hl : zi.length = 2 := h2
    have hsumA : sumIter [s.a0, s.a1, s.a2] ≠ 0 := by
      have := hs s (by simp)
      simpa [sumIter] using this
    have hscale : FLim (fun r => scale' r * (sumIter [(⟨s.b0⟩ : Fl r), ⟨s.b1⟩, ⟨s.b2⟩]
        / sumIter [(⟨s.a0⟩ : Fl r), ⟨s.a1⟩, ⟨s.a2⟩]))
        (scale * (sumIter [s.b0, s.b1, s.b2] / sumIter [s.a0, s.a1, s.a2])) := by
      refine hsc.mul (FLim.div hsumA ?_ ?_) <;>
        exact ((FLim.zero.add (FLim.mk _)).add (FLim.mk _)).add (FLim.mk _)
    obtain ⟨R, R', i1, i2, i3, i4⟩ := ih (fun t ht => hs t (by simp [ht])) _ _ hscale
    have z0 : ∀ r, vecGet (zi' r) 0 = .ok ((zi' r).getD 0 0) := fun r =>
      vecGet_ok _ _ (by rw [h4.1, hl]; omega)
    have z1 : ∀ r, vecGet (zi' r) 1 = .ok ((zi' r).getD 1 0) := fun r =>
      vecGet_ok _ _ (by rw [h4.1, hl]; omega)
    refine ⟨{ s with zi0 := scale * zi.getD 0 0, zi1 := scale * zi.getD 1 0 } :: R,
      (fun r => { Sos.toFl r s with
        zi0 := scale' r * (zi' r).getD 0 0, zi1 := scale' r * (zi' r).getD 1 0 }) :: R', ?_, ?_, ?_, ?_⟩
    · simp only [sosfiltZiLoop, h1, ok_bind, vecGet_ok zi 0 (by omega), vecGet_ok zi 1 (by omega), i1]
      rfl
    · intro r
      have h3' := h3 r
      simp only [List.map_cons, List.map_nil] at h3'
      simp only [List.map_cons, sosfiltZiLoop, Sos.toFl, h3', ok_bind, z0, z1]
      rw [i2 r]
      rfl
    · exact List.Forall₂.cons ⟨fun _ => rfl, fun _ => rfl, fun _ => rfl, fun _ => rfl, fun _ => rfl,
        fun _ => rfl, hsc.mul (h4.2 0), hsc.mul (h4.2 1)⟩ i3
    · simp [i4, coeffs]

end SciRs.Rounded

import Mathlib.Combinatorics.Enumerative.Stirling
import Mathlib.Data.Fintype.Quotient
import Mathlib.Data.Fintype.CardEmbedding
import Mathlib.Data.Fintype.BigOperators
import Mathlib.Data.Setoid.Basic
import Mathlib.SetTheory.Cardinal.Finite
import Mathlib.SetTheory.Cardinal.NatCard
import Mathlib.Algebra.Group.Action.Defs
import Mathlib.Logic.Equiv.Fin.Basic
import Mathlib.Tactic.Ring
import Mathlib.Data.Setoid.Partition
import Mathlib.Data.Fintype.Perm
import Mathlib.Algebra.BigOperators.Ring.Finset
import Mathlib.Data.Set.Card

/-!
# The Stirling numbers of the second kind count set partitions

Surjections are counted by recursion on the first element of the domain; a surjection onto `Fin k` is an
equivalence relation with `k` classes together with a numbering of the classes.
-/

namespace SciRs.Lemmas

open Function

/-- The number of surjections. -/
noncomputable def surj (α β : Type) : ℕ := Nat.card {f : α → β // Surjective f}

theorem surj_congr {α β γ : Type} (e : β ≃ γ) : surj α β = surj α γ := by
  refine Nat.card_congr ⟨fun f => ⟨e ∘ f.1, e.surjective.comp f.2⟩,
    fun f => ⟨e.symm ∘ f.1, e.symm.surjective.comp f.2⟩, fun f => ?_, fun f => ?_⟩
  · ext x; simp
  · ext x; simp

/-- The maps whose range is everything but `v` are the surjections onto the rest. -/
def missing (α : Type) {β : Type} (v : β) :
    {g : α → β // ∀ x, x ∈ Set.range g ↔ x ≠ v} ≃ {f : α → {x : β // x ≠ v} // Surjective f} where
  toFun g := ⟨fun a => ⟨g.1 a, (g.2 _).mp ⟨a, rfl⟩⟩, fun x => by
    obtain ⟨a, ha⟩ := (g.2 x.1).mpr x.2
    exact ⟨a, Subtype.ext ha⟩⟩
  invFun f := ⟨fun a => (f.1 a).1, fun x => by
    constructor
    · rintro ⟨a, rfl⟩; exact (f.1 a).2
    · intro h
      obtain ⟨a, ha⟩ := f.2 ⟨x, h⟩
      exact ⟨a, congrArg Subtype.val ha⟩⟩
  left_inv g := rfl
  right_inv f := rfl

/-- A surjection from `n + 1` elements: the value `v` of the first one, and a map of the others that is
surjective or misses exactly `v`. -/
noncomputable def firstValue (n : ℕ) (β : Type) :
    {f : Fin (n + 1) → β // Surjective f} ≃
      Σ v : β, ({g : Fin n → β // Surjective g} ⊕ {g : Fin n → β // ∀ x, x ∈ Set.range g ↔ x ≠ v}) := by
  classical
  refine ⟨fun f => ⟨f.1 0, if h : Surjective (Fin.tail f.1) then .inl ⟨Fin.tail f.1, h⟩ else
      .inr ⟨Fin.tail f.1, fun x => ?_⟩⟩,
    fun p => match p with
      | ⟨v, .inl g⟩ => ⟨Fin.cons v g.1, fun x => by
          obtain ⟨a, ha⟩ := g.2 x
          exact ⟨a.succ, by simpa using ha⟩⟩
      | ⟨v, .inr g⟩ => ⟨Fin.cons v g.1, fun x => by
          by_cases h : x = v
          · exact ⟨0, by simp [h]⟩
          · obtain ⟨a, ha⟩ := (g.2 x).mpr h
            exact ⟨a.succ, by simpa using ha⟩⟩, ?_, ?_⟩
  · have key : ∀ y, y ≠ f.1 0 → y ∈ Set.range (Fin.tail f.1) := by
      intro y hy
      obtain ⟨a, ha⟩ := f.2 y
      refine Fin.cases (fun h0 => absurd h0.symm hy) (fun i hi => ⟨i, hi⟩) a ha
    refine ⟨?_, key x⟩
    rintro hx rfl
    apply h
    intro y
    by_cases hy : y = f.1 0
    · rw [hy]; exact hx
    · exact key y hy
  · intro f
    by_cases h : Surjective (Fin.tail f.1)
    · simp only [h, dif_pos]
      exact Subtype.ext (Fin.cons_self_tail f.1)
    · simp only [h, dif_neg, not_false_iff]
      exact Subtype.ext (Fin.cons_self_tail f.1)
  · rintro ⟨v, g | g⟩
    · have h : Surjective (Fin.tail (Fin.cons v g.1 : Fin (n + 1) → β)) := by
        rw [Fin.tail_cons]; exact g.2
      simp only [h, dif_pos]
      rfl
    · have h : ¬ Surjective (Fin.tail (Fin.cons v g.1 : Fin (n + 1) → β)) := by
        rw [Fin.tail_cons]
        intro h
        exact (g.2 v).mp (h v) rfl
      simp only [h, dif_neg, not_false_iff]
      rfl

theorem surj_succ_succ (n k : ℕ) :
    surj (Fin (n + 1)) (Fin (k + 1))
      = (k + 1) * (surj (Fin n) (Fin (k + 1)) + surj (Fin n) (Fin k)) := by
  rw [surj, Nat.card_congr (firstValue n (Fin (k + 1))), Nat.card_sigma]
  have : ∀ v : Fin (k + 1), Nat.card ({g : Fin n → Fin (k + 1) // Surjective g} ⊕
      {g : Fin n → Fin (k + 1) // ∀ x, x ∈ Set.range g ↔ x ≠ v})
      = surj (Fin n) (Fin (k + 1)) + surj (Fin n) (Fin k) := by
    intro v
    rw [Nat.card_sum, Nat.card_congr (missing (Fin n) v)]
    congr 1
    exact (surj_congr (finSuccAboveEquiv v)).symm
  rw [Finset.sum_congr rfl (fun v _ => this v)]
  simp

theorem surj_zero_succ (k : ℕ) : surj (Fin 0) (Fin (k + 1)) = 0 := by
  rw [surj, Nat.card_eq_zero]
  left
  exact ⟨fun f => by obtain ⟨a, _⟩ := f.2 0; exact a.elim0⟩

theorem surj_succ_zero (n : ℕ) : surj (Fin (n + 1)) (Fin 0) = 0 := by
  rw [surj, Nat.card_eq_zero]
  left
  exact ⟨fun f => (f.1 0).elim0⟩

theorem surj_zero_zero : surj (Fin 0) (Fin 0) = 1 := by
  rw [surj, Nat.card_eq_one_iff_unique]
  exact ⟨⟨fun f g => Subtype.ext (funext fun a => a.elim0)⟩, ⟨⟨id, surjective_id⟩⟩⟩

theorem surj_eq (n k : ℕ) : surj (Fin n) (Fin k) = k.factorial * n.stirlingSecond k := by
  induction n generalizing k with
  | zero =>
    rcases k with _ | k
    · rw [surj_zero_zero]; rfl
    · rw [surj_zero_succ, Nat.stirlingSecond_zero_succ, Nat.mul_zero]
  | succ n ih =>
    rcases k with _ | k
    · rw [surj_succ_zero, Nat.stirlingSecond_succ_zero, Nat.mul_zero]
    · rw [surj_succ_succ, ih, ih, Nat.stirlingSecond_succ_succ, Nat.factorial_succ]
      ring

theorem kernel_heq {α β : Type} (f : α → β) (hf : Surjective f) (s : Setoid α)
    (h : Setoid.ker f = s) (e : Quotient s ≃ β) (he : ∀ a, e (Quotient.mk s a) = f a) :
    HEq (Setoid.quotientKerEquivOfSurjective f hf) e := by
  subst h
  apply heq_of_eq
  apply Equiv.ext
  intro q
  induction q using Quotient.ind with
  | _ a => rw [he]; rfl

/-- A surjection onto `Fin k` is an equivalence relation with a numbering of its classes by `Fin k`. -/
noncomputable def kernel (α β : Type) :
    {f : α → β // Surjective f} ≃ Σ s : Setoid α, (Quotient s ≃ β) where
  toFun f := ⟨Setoid.ker f.1, Setoid.quotientKerEquivOfSurjective f.1 f.2⟩
  invFun p := ⟨fun a => p.2 (Quotient.mk p.1 a), p.2.surjective.comp Quotient.mk_surjective⟩
  left_inv f := by
    apply Subtype.ext
    funext a
    rfl
  right_inv p := by
    obtain ⟨s, e⟩ := p
    have hs : Setoid.ker (fun a => e (Quotient.mk s a)) = s := by
      ext a b
      simp only [Setoid.ker_def, EmbeddingLike.apply_eq_iff_eq]
      exact Quotient.eq
    exact Sigma.ext hs (kernel_heq _ _ s hs e (fun _ => rfl))

/-- The number of equivalence relations on `n` elements with `k` classes. -/
theorem card_setoid (n k : ℕ) :
    Nat.card {s : Setoid (Fin n) // Nat.card (Quotient s) = k} = n.stirlingSecond k := by
  classical
  have h := surj_eq n k
  have hfin : Finite (Setoid (Fin n)) := by
    refine Finite.of_injective (fun s : Setoid (Fin n) => s.r) ?_
    intro a b hab
    ext x y
    exact iff_of_eq (congrFun (congrFun hab x) y)
  have := Fintype.ofFinite (Setoid (Fin n))
  rw [surj, Nat.card_congr (kernel (Fin n) (Fin k)), Nat.card_sigma] at h
  have hs : ∀ s : Setoid (Fin n), Nat.card (Quotient s ≃ Fin k)
      = if Nat.card (Quotient s) = k then k.factorial else 0 := by
    intro s
    split_ifs with hk
    · have e : Quotient s ≃ Fin k := _root_.Finite.equivFinOfCardEq hk
      rw [Nat.card_congr (Equiv.equivCongr e (Equiv.refl _)), Nat.card_eq_fintype_card]
      exact (Fintype.card_perm (α := Fin k)).trans (by simp)
    · rw [Nat.card_eq_zero]
      left
      exact ⟨fun e => hk (by rw [Nat.card_congr e]; simp)⟩
  rw [Finset.sum_congr rfl (fun s _ => hs s), ← Finset.sum_filter, Finset.sum_const, nsmul_eq_mul, Nat.cast_id,
    Nat.mul_comm] at h
  have := Nat.eq_of_mul_eq_mul_left (Nat.factorial_pos k) h
  rw [← this, Nat.card_eq_fintype_card, Fintype.card_subtype]

/-- The number of partitions of `n` elements into `k` blocks. -/
theorem card_partitions (n k : ℕ) :
    Nat.card {P : Set (Set (Fin n)) // Setoid.IsPartition P ∧ P.ncard = k} = n.stirlingSecond k := by
  rw [← card_setoid]
  symm
  refine Nat.card_congr ⟨fun s => ⟨s.1.classes, s.1.isPartition_classes, ?_⟩,
    fun P => ⟨Setoid.mkClasses P.1 P.2.1.2, ?_⟩, fun s => ?_, fun P => ?_⟩
  · exact (Nat.card_congr (Setoid.quotientEquivClasses s.1)).symm.trans s.2
  · rw [Nat.card_congr (Setoid.quotientEquivClasses _), Setoid.classes_mkClasses _ P.2.1]
    exact P.2.2
  · exact Subtype.ext (Setoid.mkClasses_classes s.1)
  · exact Subtype.ext (Setoid.classes_mkClasses P.1 P.2.1)

end SciRs.Lemmas

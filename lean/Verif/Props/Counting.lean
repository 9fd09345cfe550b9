import Verif.Props.Combinatorics
import Verif.Lemmas.SetPartitions
import Mathlib.Data.Sym.Card
import Mathlib.Data.Fintype.CardEmbedding
import Mathlib.Data.Finset.Powerset

/-!
# C13, C14, C15, C16 as counting theorems

What the functions count, without a formula: subsets, multisets, injections and set partitions.
-/

namespace SciRs.Props

open SciRs SciRs.Spec SciRs.Lemmas

variable (c : Cfg) (t : IntTy)

/-- **C13 (partial)** `comb` counts the `k`-element subsets of an `n`-element set, if the last
intermediate product fits (see `C13_exact_partial` for what is missing). -/
theorem C13_counts_subsets_partial (n k : ℕ) (hk : k ≤ n) (hn : (n : ℤ) < t.hi)
    (h : ((min k (n - k) * Nat.card {s : Finset (Fin n) // s.card = k} : ℕ) : ℤ) ≤ t.hi) :
    primintComb c t n k = .ok (Nat.card {s : Finset (Fin n) // s.card = k} : ℤ) := by
  have e : Nat.card {s : Finset (Fin n) // s.card = k} = n.choose k := by
    rw [Nat.card_eq_fintype_card, Fintype.card_finset_len, Fintype.card_fin]
  rw [e] at h ⊢
  exact C13_exact_partial c t n k hk hn h

/-- **C14** `comb_rep` counts the multisets of size `k` of elements of an `n`-element set. -/
theorem C14_counts_multisets (n k : ℕ) (hpos : 0 < n + k) (hfit : ((n + k : ℕ) : ℤ) ≤ t.hi)
    (h : ((min k (n - 1) * Nat.card {s : Multiset (Fin n) // s.card = k} : ℕ) : ℤ) ≤ t.hi) :
    primintCombRep c t n k = .ok (Nat.card {s : Multiset (Fin n) // s.card = k} : ℤ) := by
  have e : Nat.card {s : Multiset (Fin n) // s.card = k} = n.multichoose k := by
    have := Sym.card_sym_fin_eq_multichoose n k
    rw [← this, ← Nat.card_eq_fintype_card]
    rfl
  rw [e] at h ⊢
  exact C14_exact c t n k hpos hfit h

/-- **C15** `perm` counts the ways to choose `k` of `n` elements in order. -/
theorem C15_counts_injections (n k : ℕ) (hk : k ≤ n) (hn : (n : ℤ) < t.hi)
    (hu : ((n + 1 : ℕ) : ℤ) ≤ c.usizeMax)
    (h : (Nat.card {f : Fin k → Fin n // Function.Injective f} : ℤ) ≤ t.hi) :
    primintPerm c t n k = .ok (Nat.card {f : Fin k → Fin n // Function.Injective f} : ℤ) := by
  have e : Nat.card {f : Fin k → Fin n // Function.Injective f} = n.descFactorial k := by
    rw [Nat.card_congr (Equiv.subtypeInjectiveEquivEmbedding (Fin k) (Fin n)),
      Nat.card_eq_fintype_card, Fintype.card_embedding_eq]
    simp
  rw [e] at h ⊢
  exact C15_exact c t n k hk hn hu h

/-- **C16** `stirling2` counts the partitions of an `n`-element set into `k` non-empty blocks, for
every pair of values of the type whose count is a value of the type. -/
theorem C16_counts_partitions (n k : ℕ) (hn : (n : ℤ) ≤ t.hi)
    (h : (Nat.card {P : Set (Set (Fin n)) // Setoid.IsPartition P ∧ P.ncard = k} : ℤ) ≤ t.hi) :
    RunReturns (primintStirling2 c t n k)
      (Nat.card {P : Set (Set (Fin n)) // Setoid.IsPartition P ∧ P.ncard = k} : ℤ) := by
  rw [card_partitions] at h ⊢
  exact C16_exact c t n k hn h

/-- The hypotheses of the four theorems are met by `u8` and small arguments. -/
example : ((min 2 (5 - 2) * Nat.card {s : Finset (Fin 5) // s.card = 2} : ℕ) : ℤ) ≤ u8.hi ∧
    (Nat.card {P : Set (Set (Fin 4)) // Setoid.IsPartition P ∧ P.ncard = 2} : ℤ) = 7 := by
  rw [card_partitions, Nat.card_eq_fintype_card, Fintype.card_finset_len, Fintype.card_fin]
  decide +kernel

end SciRs.Props

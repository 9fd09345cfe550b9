import Verif.Props.Design.EndToEnd
import Verif.Props.Forgetting

/-!
# C117 for designed filters
-/

namespace SciRs.Props

open SciRs SciRs.Design SciRs.Spec

variable (eps : ℝ) (s : Sorts)

/-- **C117** The sections of every valid digital request forget their past, and zero-phase filtering with them is
local. -/
theorem C117_design (heps : 0 ≤ eps) (hs : s.Correct) (N : ℕ) (wn : List ℝ) (rp rs : Option ℝ)
    (btype : Option Band) (ftype : Option FType) (analog : Option Bool) (ha : analog = none ∨ analog = some false)
    (fs : Option ℝ)
    (hv : ValidRequest wn rp rs (btype.getD .bandpass) (ftype.getD .butterworth) false fs)
    (hr : PositiveRipple (ftype.getD .butterworth) rp rs)
    (hfin : ftype.getD .butterworth = .chebyshevII → ZerosFinite N (btype.getD .bandpass) (edges wn fs))
    (l : List (Sos ℝ)) (hl : iirfilter eps s N wn rp rs btype ftype analog (some .sos) fs = .ok (.sos l)) :
    ∃ K ρ : ℝ, 0 < ρ ∧ ρ < 1 ∧
      (∀ (D : ℝ) (past past' x : List ℝ), 0 ≤ D → past.length = past'.length →
        (∀ i, |past.getD i 0 - past'.getD i 0| ≤ D) →
        ∀ i, |(sosfiltDyn (past ++ x) l).1.getD (past.length + i) 0 -
          (sosfiltDyn (past' ++ x) l).1.getD (past.length + i) 0| ≤ K * D * ρ ^ i) ∧
      (∀ (D : ℝ) (a m : ℕ) (y : List ℝ), (∀ v ∈ y, |v| ≤ D) → a + m ≤ y.length → 3 * (2 * l.length + 1) < m →
        ∃ z z', sosfiltfiltDyn y l = .ok z ∧ sosfiltfiltDyn ((y.drop a).take m) l = .ok z' ∧
          ∀ i d : ℕ, d ≤ i → i + d < m → |z.getD (a + i) 0 - z'.getD i 0| ≤ K * D * ρ ^ d) := by
  obtain ⟨-, -, -, hc, -⟩ := C84_sound eps s heps hs N wn rp rs btype ftype analog ha fs hv hr hfin l hl
  have hst := sections_stable hc
  obtain ⟨K₁, ρ₁, ha1, hb1, h1⟩ := C117_past l fun c hc => (hst c hc).2
  obtain ⟨K₂, ρ₂, ha2, hb2, h2⟩ := C117_filtfilt_piece l fun c hc => (hst c hc).2
  have hmono : ∀ {K ρ : ℝ} (D : ℝ) (k : ℕ), 0 ≤ D → 0 < ρ → K ≤ max (max K₁ K₂) 0 → ρ ≤ max ρ₁ ρ₂ →
      K * D * ρ ^ k ≤ max (max K₁ K₂) 0 * D * max ρ₁ ρ₂ ^ k := by
    intro K ρ D k hD h0 hK hρ
    exact mul_le_mul (mul_le_mul_of_nonneg_right hK hD) (pow_le_pow_left₀ h0.le hρ k) (by positivity)
      (mul_nonneg (le_max_right _ _) hD)
  refine ⟨max (max K₁ K₂) 0, max ρ₁ ρ₂, lt_max_of_lt_left ha1, max_lt hb1 hb2, fun D past past' x hD hp hd i => ?_,
    fun D a m y hy ham hm => ?_⟩
  · exact (h1 D l hD rfl past past' x hp hd i).trans
      (hmono D i hD ha1 ((le_max_left _ _).trans (le_max_left _ _)) (le_max_left _ _))
  · have hok : ∀ w : List ℝ, 3 * (2 * l.length + 1) < w.length → ∃ z, sosfiltfiltDyn w l = .ok z := by
      intro w hw
      have hnp : ¬ Panics (sosfiltfiltDyn w l) := by
        rw [(C30_panics_iff _ _).1, not_or]
        refine ⟨by have := ntaps_le l; omega, ?_⟩
        rintro ⟨c, hcl, h0, -⟩
        rw [(hst c hcl).1] at h0
        exact one_ne_zero h0
      have hub := (C30_panics_iff w l).2
      cases h : sosfiltfiltDyn w l with
      | ok z => exact ⟨z, rfl⟩
      | error e =>
        rw [h] at hnp hub
        rw [panics_error] at hnp
        exact absurd (by rw [not_not.mp hnp]) hub
    obtain ⟨z, hz⟩ := hok y (by omega)
    obtain ⟨z', hz'⟩ := hok ((y.drop a).take m) (by simp; omega)
    have hD : 0 ≤ D := (abs_nonneg _).trans (hy y[0] (List.getElem_mem (by omega)))
    exact ⟨z, z', hz, hz', fun i d hdi hdm => (h2 D a m y z z' hy ham hz hz' i d hdi hdm).trans
      (hmono D d hD ha2 ((le_max_right _ _).trans (le_max_left _ _)) (le_max_right _ _))⟩

/-- The band-pass filter of the crate's documentation. -/
example (hs : s.Correct) :
    ∃ l, butter (1 / 2 ^ 52) s 4 [10, 50] (some .bandpass) none (some .sos) (some 1666) = .ok (.sos l) ∧
      ∃ K ρ : ℝ, ρ < 1 ∧ ∀ (x : List ℝ) (i : ℕ),
        |(sosfiltDyn ([1, 2, 3] ++ x) l).1.getD (3 + i) 0 - (sosfiltDyn ([3, 2, 1] ++ x) l).1.getD (3 + i) 0| ≤
          K * 2 * ρ ^ i := by
  have hW : edges [(10 : ℝ), 50] (some 1666) = [20 / 1666, 100 / 1666] := by simp [edges]; norm_num
  have hv : ValidRequest [(10 : ℝ), 50] none none .bandpass .butterworth false (some 1666) :=
    valid_pair (.inl rfl) hW (by norm_num) (by norm_num) (by norm_num) (by simp) (by simp) (.inl rfl)
  obtain ⟨l, hl⟩ := C84_format (1 / 2 ^ 52) s 4 [10, 50] none none (some .bandpass) (some .butterworth) (some false)
    (some 1666) (C84_doc_bandpass s hs)
  obtain ⟨K, ρ, -, h1, h, -⟩ := C117_design (1 / 2 ^ 52) s (by norm_num) hs 4 [10, 50] none none
    (some .bandpass) (some .butterworth) (some false) (.inr rfl) (some 1666) hv ⟨by simp, by simp⟩ (by simp) l hl
  refine ⟨l, hl, K, ρ, h1, fun x i => h 2 [1, 2, 3] [3, 2, 1] x (by norm_num) rfl (fun j => ?_) i⟩
  match j with
  | 0 => norm_num
  | 1 => norm_num
  | 2 => norm_num
  | j + 3 => simp

end SciRs.Props

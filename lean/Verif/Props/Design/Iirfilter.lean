import Verif.Lemmas.Design.Response

/-! # C54 and C55: which design requests are accepted -/

namespace SciRs.Props

open SciRs.Design SciRs.Spec

theorem zpk2tf_returns (n : ℕ) (f : Zpk) : ∃ t, zpk2tf n f.z f.p f.k = .ok t := by
  obtain ⟨c, hc, -⟩ := poly_ok f.z
  obtain ⟨d, hd, -⟩ := poly_ok f.p
  unfold zpk2tf
  rw [hc, hd]
  exact ⟨_, rfl⟩

/-- **C54.**  For the zero-pole-gain and the coefficient format `iirfilter_dyn` returns exactly for the
valid requests, and panics (never anything worse) for all others. -/
theorem C54_returns_iff (eps : ℝ) (s : Sorts) (order : ℕ) (wn : List ℝ) (rp rs : Option ℝ)
    (btype : Option Band) (ftype : Option FType) (analog : Option Bool) (output : Option Output)
    (fs : Option ℝ) (hout : output ≠ some .sos) :
    (Returns (iirfilter eps s order wn rp rs btype ftype analog output fs) ↔
      ValidRequest wn rp rs (btype.getD .bandpass) (ftype.getD .butterworth) (analog.getD false) fs) ∧
    (Panics (iirfilter eps s order wn rp rs btype ftype analog output fs) ↔
      ¬ ValidRequest wn rp rs (btype.getD .bandpass) (ftype.getD .butterworth) (analog.getD false) fs) := by
  rw [iirfilter_eq, ← design_returns_iff (order := order)]
  have hc : ∀ f, ∃ r, convert eps s order (analog.getD false) (output.getD .ba) f = .ok r := by
    intro f
    rcases output with _ | o
    · obtain ⟨t, ht⟩ := zpk2tf_returns (2 * order) f
      simp [convert, ht, ok_bind, pure, Except.pure]
    · cases o with
      | ba =>
        obtain ⟨t, ht⟩ := zpk2tf_returns (2 * order) f
        simp [convert, ht, ok_bind, pure, Except.pure]
      | zpk => simp [convert]
      | sos => exact absurd rfl hout
  have hnu := noUb_design order wn rp rs (btype.getD .bandpass) (ftype.getD .butterworth) (analog.getD false) fs
  cases h : design order wn rp rs (btype.getD .bandpass) (ftype.getD .butterworth) (analog.getD false) fs with
  | error e =>
    rw [h] at hnu
    have he : e ≠ Err.ub := fun h0 => hnu (by rw [h0])
    simp [error_bind, Returns, he]
  | ok f =>
    obtain ⟨r, hr⟩ := hc f
    rw [ok_bind, hr]
    simp [Returns]

/-- **C54**, every output format: an invalid request panics, before anything is computed from it. -/
theorem C54_invalid_panics (eps : ℝ) (s : Sorts) (order : ℕ) (wn : List ℝ) (rp rs : Option ℝ)
    (btype : Option Band) (ftype : Option FType) (analog : Option Bool) (output : Option Output)
    (fs : Option ℝ)
    (h : ¬ ValidRequest wn rp rs (btype.getD .bandpass) (ftype.getD .butterworth) (analog.getD false) fs) :
    Panics (iirfilter eps s order wn rp rs btype ftype analog output fs) := by
  rw [iirfilter_eq]
  rw [← design_returns_iff (order := order)] at h
  have hnu := noUb_design order wn rp rs (btype.getD .bandpass) (ftype.getD .butterworth) (analog.getD false) fs
  cases hd : design order wn rp rs (btype.getD .bandpass) (ftype.getD .butterworth) (analog.getD false) fs with
  | error e =>
    rw [hd] at hnu
    have he : e ≠ Err.ub := fun h0 => hnu (by rw [h0])
    simp [error_bind, he]
  | ok f => exact absurd ⟨f, hd⟩ h

/-- **C54** for the Butterworth entry point: a digital low-pass or high-pass filter is designed exactly
for one edge strictly between `0` and the Nyquist frequency, a band filter exactly for two such edges in
increasing order. -/
theorem C54_butter (eps : ℝ) (s : Sorts) (order : ℕ) (wn : List ℝ) (btype : Option Band) (fs : Option ℝ) :
    Returns (butter eps s order wn btype none (some .zpk) fs) ↔
      match btype.getD .lowpass with
      | .lowpass | .highpass => ∃ W, edges wn fs = [W] ∧ 0 < W ∧ W < 1
      | .bandpass | .bandstop => ∃ A B, edges wn fs = [A, B] ∧ 0 < A ∧ A < B ∧ B < 1 := by
  have h := (C54_returns_iff eps s order wn none none (some (btype.getD .lowpass)) (some .butterworth)
    (some false) (some .zpk) fs (by simp)).1
  have e : butter eps s order wn btype none (some .zpk) fs = iirfilter eps s order wn none none
    (some (btype.getD .lowpass)) (some .butterworth) (some false) (some .zpk) fs := rfl
  rw [e, h]
  simp only [Option.getD_some]
  have h1 : ∀ band : Band, (band = .lowpass ∨ band = .highpass) →
      (ValidRequest wn none none band .butterworth false fs ↔ ∃ W, edges wn fs = [W] ∧ 0 < W ∧ W < 1) := by
    intro band hb
    constructor
    · intro hv
      have hl := hv.count
      rw [if_pos hb, ← edges_length wn fs] at hl
      obtain ⟨W, hW⟩ := List.length_eq_one_iff.mp hl
      exact ⟨W, hW, hv.positive W (by simp [hW]), hv.nyquist rfl W (by simp [hW])⟩
    · rintro ⟨W, hW, h0, h1⟩
      have hl := edges_length wn fs
      rw [hW] at hl
      obtain ⟨x, rfl⟩ := List.length_eq_one_iff.mp hl.symm
      exact valid_single hb hW h0 h1 (by simp) (by simp) (.inl rfl)
  have h2 : ∀ band : Band, (band = .bandpass ∨ band = .bandstop) →
      (ValidRequest wn none none band .butterworth false fs ↔
        ∃ A B, edges wn fs = [A, B] ∧ 0 < A ∧ A < B ∧ B < 1) := by
    intro band hb
    constructor
    · intro hv
      have hl := hv.count
      rw [if_neg (by rcases hb with rfl | rfl <;> simp), ← edges_length wn fs] at hl
      obtain ⟨A, B, hW⟩ := List.length_eq_two.mp hl
      have hi := hv.increasing
      rw [hW] at hi
      exact ⟨A, B, hW, hv.positive A (by simp [hW]), by simpa using hi, hv.nyquist rfl B (by simp [hW])⟩
    · rintro ⟨A, B, hW, h0, hAB, hB⟩
      have hl := edges_length wn fs
      rw [hW] at hl
      obtain ⟨x, y, rfl⟩ := List.length_eq_two.mp hl.symm
      exact valid_pair hb hW h0 hAB hB (by simp) (by simp) (.inl rfl)
  cases btype.getD .lowpass
  · exact h1 _ (.inl rfl)
  · exact h1 _ (.inr rfl)
  · exact h2 _ (.inl rfl)
  · exact h2 _ (.inr rfl)

/-- Concrete cases of C54: a band-pass from 10 to 50 Hz at 1666 Hz is designed, the same with the edges
exchanged is not, nor is an edge above the Nyquist frequency. -/
example (eps : ℝ) (s : Sorts) :
    Returns (butter eps s 4 [10, 50] (some .bandpass) none (some .zpk) (some 1666)) ∧
    ¬ Returns (butter eps s 4 [50, 10] (some .bandpass) none (some .zpk) (some 1666)) ∧
    ¬ Returns (butter eps s 4 [1000] (some .lowpass) none (some .zpk) (some 1666)) := by
  refine ⟨?_, ?_, ?_⟩
  · rw [C54_butter]
    exact ⟨_, _, rfl, by norm_num, by norm_num, by norm_num⟩
  · rw [C54_butter]
    rintro ⟨A, B, h, h0, h1, h2⟩
    simp only [edges, List.map_cons, List.map_nil, List.cons.injEq, and_true] at h
    rw [← h.1, ← h.2] at h1
    norm_num at h1
  · rw [C54_butter]
    rintro ⟨W, h, h0, h1⟩
    simp only [edges, List.map_cons, List.map_nil, List.cons.injEq, and_true] at h
    rw [← h] at h1
    norm_num at h1

/-- **C55 does not hold as documented: the Chebyshev II entry point panics for every argument.**  It leaves
out the ripple, which the shared code demands although it never uses it. -/
theorem C55_cheby2_always_panics (eps : ℝ) (s : Sorts) (order : ℕ) (rs : ℝ) (wn : List ℝ)
    (btype : Option Band) (analog : Option Bool) (output : Option Output) (fs : Option ℝ) :
    Panics (cheby2 eps s order rs wn btype analog output fs) := by
  refine C54_invalid_panics _ _ _ _ _ _ _ _ _ _ _ (fun h => ?_)
  rcases h.family with h | h | h <;> simp at h

/-- **C55.**  The Chebyshev I entry point works for the same requests: a low-pass request that Chebyshev I
accepts is refused by Chebyshev II. -/
theorem C55_cheby1_accepts (eps : ℝ) (s : Sorts) (order : ℕ) (r W : ℝ) (hr : 0 ≤ r) (h0 : 0 < W) (h1 : W < 1) :
    Returns (cheby1 eps s order r [W] (some .lowpass) none (some .zpk) none) ∧
    Panics (cheby2 eps s order r [W] (some .lowpass) none (some .zpk) none) := by
  refine ⟨?_, C55_cheby2_always_panics _ _ _ _ _ _ _ _ _⟩
  refine ((C54_returns_iff eps s order [W] (some r) none (some .lowpass) (some .chebyshevI) none (some .zpk) none
    (by simp)).1).mpr ?_
  exact valid_single (.inl rfl) rfl h0 h1 (fun x hx => by cases hx; exact hr) (by simp) (.inr (.inl ⟨rfl, rfl⟩))

end SciRs.Props

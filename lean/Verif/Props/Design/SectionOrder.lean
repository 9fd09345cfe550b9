import Verif.Lemmas.Design.Greedy
import Verif.Props.Design.Minimal

/-!
# C89: the order of the sections and the pairing of zeros with poles
-/

namespace SciRs.Props

open SciRs SciRs.Design SciRs.Spec Complex

theorem zpk2sos_nearest_pairUp {eps : ℝ} {s : Sorts} (order : ℕ) (f : Zpk) {pairing : Option Pairing}
    {analog : Option Bool} (hpair : pairing = none ∨ pairing = some .nearest)
    (han : analog = none ∨ analog = some false) (h0 : ¬ (f.z = [] ∧ f.p = [])) :
    ∃ j, (max f.z.length f.p.length) + j = 2 * ((max f.z.length f.p.length + 1) / 2) ∧
      zpk2sos eps s order f pairing analog =
        pairUp eps s .nearest false (f.z ++ List.replicate (max f.z.length f.p.length - f.z.length + j) 0)
          (f.p ++ List.replicate (max f.z.length f.p.length - f.p.length + j) 0) f.k
          ((max f.z.length f.p.length + 1) / 2) := by
  have ha : analog.getD false = false := by rcases han with rfl | rfl <;> rfl
  have hp : pairing.getD (if (false : Bool) = true then .minimal else .nearest) = .nearest := by
    rcases hpair with rfl | rfl <;> rfl
  unfold zpk2sos
  rw [ha]
  dsimp only
  rw [hp, if_neg (by simp), if_neg h0, if_pos (by simp)]
  set M := max f.z.length f.p.length with hM
  have hPl : (f.p ++ List.replicate (f.z.length - f.p.length) (0 : ℂ)).length = M := by
    rw [List.length_append, List.length_replicate]; omega
  rw [hPl]
  have hZl : (f.z ++ List.replicate (M - f.z.length) (0 : ℂ)).length = M := by
    rw [List.length_append, List.length_replicate]; omega
  rw [hZl, Nat.max_self, show f.z.length - f.p.length = M - f.p.length by omega]
  by_cases hodd : M % 2 = 1
  · refine ⟨1, by omega, ?_⟩
    rw [if_pos ⟨hodd, rfl⟩]
    dsimp only
    rw [check_true (by simp [hZl]; omega), ok_bind, pad_append, pad_append]
  · refine ⟨0, by omega, ?_⟩
    rw [if_neg (by simp [hodd])]
    dsimp only
    rw [check_true (by rw [hZl, List.length_append, List.length_replicate]; omega), ok_bind]
    rfl

/-- **C89.**  A digital filter with a non-zero gain, converted with the default pairing: every section has two
poles `q, r` and two zeros `w, v`, and was chosen in preference to the sections before it.  Of all poles of this
and the earlier sections `q` is the closest to the unit circle; of all their zeros `w` is the closest to `q`.  A
complex root goes with its conjugate, a real one with the best real one left. -/
theorem C89_nearest {eps : ℝ} {s : Sorts} (hs : s.Correct) (order : ℕ) (f : Zpk) (hf : GoodRoots eps f)
    (hk : f.k ≠ 0) (hne : f.z ≠ [] ∨ f.p ≠ []) {pairing : Option Pairing} {analog : Option Bool}
    (hpair : pairing = none ∨ pairing = some .nearest) (han : analog = none ∨ analog = some false)
    {sos before after : List (Sos ℝ)} {c : Sos ℝ} (h : zpk2sos eps s order f pairing analog = .ok sos)
    (hsos : sos = before ++ c :: after) :
    ∃ q r w v : ℂ, Greedy (fun p => |1 - ‖p‖|) before c q r w v := by
  obtain ⟨j, hj, e⟩ := zpk2sos_nearest_pairUp (eps := eps) (s := s) order f hpair han
    (fun h0 => hne.elim (fun h => h h0.1) (fun h => h h0.2))
  rw [e] at h
  have hpos : 0 < max f.z.length f.p.length := by
    rcases hne with h | h
    · have := List.length_pos_iff.mpr h; omega
    · have := List.length_pos_iff.mpr h; omega
  have key := pairUp_greedy hf.eps_nonneg hs .nearest false hk (by omega) (conjClosed_pad hf.z_conj _)
    (conjClosed_pad hf.p_conj _) (separated_pad hf.z_sep _) (separated_pad hf.p_sep _)
    (by rw [List.length_append, List.length_replicate]; omega)
    (by rw [List.length_append, List.length_replicate]; omega) h hsos
  exact key

/-- **C89**, the order of the sections: every pole of a section has a pole at least as close to the unit circle in
each later section. -/
theorem C89_order {eps : ℝ} {s : Sorts} (hs : s.Correct) (order : ℕ) (f : Zpk) (hf : GoodRoots eps f)
    (hk : f.k ≠ 0) (hne : f.z ≠ [] ∨ f.p ≠ []) {pairing : Option Pairing} {analog : Option Bool}
    (hpair : pairing = none ∨ pairing = some .nearest) (han : analog = none ∨ analog = some false)
    {sos : List (Sos ℝ)} (h : zpk2sos eps s order f pairing analog = .ok sos) :
    sos.Pairwise (fun c d => ∀ p, IsPole c p → ∃ q, IsPole d q ∧ |1 - ‖q‖| ≤ |1 - ‖p‖|) := by
  rw [List.pairwise_iff_getElem]
  intro i j hi hj hij p hp
  have hsplit : sos = sos.take j ++ sos[j] :: sos.drop (j + 1) := by
    rw [List.getElem_cons_drop, List.take_append_drop]
  obtain ⟨q, r, w, v, hg⟩ := C89_nearest hs order f hf hk hne hpair han h hsplit
  refine ⟨q, by rw [IsPole, hg.poles q, sub_self, zero_mul], hg.worst.2 sos[i] ?_ p hp⟩
  rw [List.mem_take_iff_getElem]
  exact ⟨i, by omega, rfl⟩

/-- **C89**, the pairing `Minimal`, with as many zeros as poles and an even number of them: the same, where for an
analog filter closeness to the imaginary axis counts. -/
theorem C89_minimal {eps : ℝ} {s : Sorts} (hs : s.Correct) (order : ℕ) (f : Zpk) (hf : GoodRoots eps f)
    (hk : f.k ≠ 0) (hne : f.p ≠ []) (hlen : f.z.length = f.p.length) (heven : f.p.length % 2 = 0) (analog : Bool)
    {pairing : Option Pairing} (hm : UsesMinimal pairing (some analog))
    {sos before after : List (Sos ℝ)} {c : Sos ℝ}
    (h : zpk2sos eps s order f pairing (some analog) = .ok sos) (hsos : sos = before ++ c :: after) :
    ∃ q r w v : ℂ, Greedy (stabilityMargin analog) before c q r w v := by
  rw [zpk2sos_minimal order f hm hne, if_neg (by omega)] at h
  have hpos := List.length_pos_iff.mpr hne
  exact pairUp_greedy hf.eps_nonneg hs .minimal analog hk (by omega) hf.z_conj hf.p_conj hf.z_sep hf.p_sep
    (by omega) (by omega) h hsos

/-- A filter with the poles `0.9, 0.8, 0.2, 0.1` and zeros at `-1`: the last section has the poles `0.9, 0.8`. -/
example {eps : ℝ} (he : 0 ≤ eps) {s : Sorts} (hs : s.Correct) :
    ∃ c d : Sos ℝ, zpk2sos eps s 4 ⟨[-1, -1, -1, -1], [(0.1 : ℝ), (0.9 : ℝ), (0.2 : ℝ), (0.8 : ℝ)], 1⟩ none none =
      .ok [c, d] ∧ IsPole d ((0.9 : ℝ) : ℂ) ∧ IsPole d ((0.8 : ℝ) : ℂ) := by
  set f : Zpk := ⟨[-1, -1, -1, -1], [(0.1 : ℝ), (0.9 : ℝ), (0.2 : ℝ), (0.8 : ℝ)], 1⟩ with hfd
  have hf : GoodRoots eps f := by
    refine ⟨he, ?_, ?_, ?_, ?_⟩
    · simp [hfd, ConjClosed]
    · simp only [hfd, ConjClosed, List.map_cons, List.map_nil, conj_ofReal]; exact List.Perm.refl _
    · simp [hfd, Separated]
    · intro x hx
      simp only [hfd, List.mem_cons, List.not_mem_nil, or_false] at hx
      rcases hx with rfl | rfl | rfl | rfl <;> (left; exact ofReal_im _)
  obtain ⟨sos, h, hl, -, hnd⟩ := C51_sections hs 4 f hf (pairing := none) (analog := none) (Or.inl rfl) (Or.inl rfl)
  have hl2 : sos.length = 2 := by rw [hl]; simp [hfd]
  match sos, hl2 with
  | [c, d], _ =>
    refine ⟨c, d, h, ?_⟩
    obtain ⟨q, r, w, v, hg⟩ := C89_nearest hs 4 f hf (by simp [hfd]) (Or.inl (by simp [hfd])) (Or.inl rfl)
      (Or.inl rfl) h (before := [c]) (after := []) rfl
    have hden : ∀ x : ℂ, coeffVal [c.a0, c.a1, c.a2] x * coeffVal [d.a0, d.a1, d.a2] x =
        (x - (0.1 : ℝ)) * (x - (0.9 : ℝ)) * (x - (0.2 : ℝ)) * (x - (0.8 : ℝ)) := fun x => by
      have := (hnd x).2
      simp only [sosDen, List.map_cons, List.map_nil, List.prod_cons, List.prod_nil, mul_one, List.length_cons,
        List.length_nil] at this
      rw [this]
      simp [hfd, Zpk.den]
      ring
    have hroot : ∀ x : ℂ, IsPole c x ∨ IsPole d x ↔
        x = (0.1 : ℝ) ∨ x = (0.9 : ℝ) ∨ x = (0.2 : ℝ) ∨ x = (0.8 : ℝ) := fun x => by
      unfold IsPole
      rw [← mul_eq_zero, hden x]
      simp only [mul_eq_zero, sub_eq_zero, or_assoc]
    have hreal : ∀ x : ℂ, IsPole c x ∨ IsPole d x → x.im = 0 := fun x hx => by
      rcases (hroot x).mp hx with h | h | h | h <;> rw [h] <;> exact ofReal_im _
    have hm : ∀ t : ℝ, 0 ≤ t → t ≤ 1 → |1 - ‖(t : ℂ)‖| = 1 - t := fun t h0 h1 => by
      rw [Complex.norm_real, Real.norm_of_nonneg h0, abs_of_nonneg (by linarith)]
    have hqd : IsPole d q := by rw [IsPole, hg.poles]; ring
    have hrd : IsPole d r := by rw [IsPole, hg.poles]; ring
    -- the closest pole is 0.9
    have hq : q = ((0.9 : ℝ) : ℂ) := by
      have h9 : |1 - ‖q‖| ≤ |1 - ‖((0.9 : ℝ) : ℂ)‖| := by
        rcases (hroot _).mpr (Or.inr (Or.inl rfl)) with h | h
        · exact hg.worst.2 c (by simp) _ h
        · rw [IsPole, hg.poles, mul_eq_zero, sub_eq_zero, sub_eq_zero] at h
          rcases h with h | h
          · rw [h]
          · rw [h]; exact hg.worst.1
      rcases (hroot q).mp (Or.inr hqd) with h | h | h | h
      · rw [h, hm _ (by norm_num) (by norm_num), hm _ (by norm_num) (by norm_num)] at h9; norm_num at h9
      · exact h
      · rw [h, hm _ (by norm_num) (by norm_num), hm _ (by norm_num) (by norm_num)] at h9; norm_num at h9
      · rw [h, hm _ (by norm_num) (by norm_num), hm _ (by norm_num) (by norm_num)] at h9; norm_num at h9
    have hqi : q.im = 0 := hreal q (Or.inr hqd)
    refine ⟨hq ▸ hqd, ?_⟩
    rcases (hroot _).mpr (Or.inr (Or.inr (Or.inr rfl))) with h8 | h8
    · have h8' := (hg.pole_real hqi).2 c (by simp) _ h8 (ofReal_im _)
      have hr : r = ((0.8 : ℝ) : ℂ) ∨ r = ((0.9 : ℝ) : ℂ) := by
        rcases (hroot r).mp (Or.inr hrd) with h | h | h | h
        · rw [h, hm _ (by norm_num) (by norm_num), hm _ (by norm_num) (by norm_num)] at h8'; norm_num at h8'
        · exact Or.inr h
        · rw [h, hm _ (by norm_num) (by norm_num), hm _ (by norm_num) (by norm_num)] at h8'; norm_num at h8'
        · exact Or.inl h
      rcases hr with hr | hr
      · rw [← hr]; exact hrd
      · -- `0.9` would be a double pole
        exfalso
        have e := hg.poles
        rw [hq, hr] at e
        have e2 : ∀ x : ℂ, x ≠ ((0.9 : ℝ) : ℂ) → coeffVal [c.a0, c.a1, c.a2] x * (x - (0.9 : ℝ)) =
            (x - (0.1 : ℝ)) * (x - (0.2 : ℝ)) * (x - (0.8 : ℝ)) := fun x hx => by
          refine mul_right_cancel₀ (sub_ne_zero.mpr hx) ?_
          have := hden x
          rw [e x] at this
          linear_combination this
        have h0 := e2 0 (by norm_num)
        have h1 := e2 1 (by norm_num)
        have h2 := e2 2 (by norm_num)
        have h3 := e2 3 (by norm_num)
        simp only [coeffVal_three] at h0 h1 h2 h3
        push_cast at h0 h1 h2 h3
        have : (0 : ℂ) = 7 / 125 := by
          linear_combination (77 / 2000 : ℂ) * h0 + (2079 / 2000 : ℂ) * h1 - (189 / 2000 : ℂ) * h2 +
            (33 / 2000 : ℂ) * h3
        norm_num at this
    · exact h8

end SciRs.Props

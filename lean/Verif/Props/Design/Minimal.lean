import Verif.Lemmas.Design.Minimal
import Verif.Lemmas.Design.NearReal
import Verif.Props.Design.Formats

/-!
# C88: sections with the pairing `Minimal`, and analog designs in every format
-/

namespace SciRs.Props

open SciRs SciRs.Design SciRs.Spec Complex

/-- `Minimal` is the pairing in force: it is asked for, or the filter is analog and nothing is asked for. -/
def UsesMinimal (pairing : Option Pairing) (analog : Option Bool) : Prop :=
  pairing = some .minimal ∨ (pairing = none ∧ analog = some true)

theorem zpk2sos_minimal {eps : ℝ} {s : Sorts} (order : ℕ) (f : Zpk) {pairing : Option Pairing}
    {analog : Option Bool} (hm : UsesMinimal pairing analog) (hne : f.p ≠ []) :
    zpk2sos eps s order f pairing analog = if f.p.length < f.z.length then .error Err.panic
      else pairUp eps s .minimal (analog.getD false) f.z f.p f.k ((f.p.length + 1) / 2) := by
  have hp : pairing.getD (if analog.getD false = true then .minimal else .nearest) = .minimal := by
    rcases hm with rfl | ⟨rfl, rfl⟩ <;> rfl
  unfold zpk2sos
  dsimp only
  rw [hp, if_neg (by simp), if_neg (by simp [hne]), if_neg (by simp)]

/-- **C88**, soundness: whenever the pairing `Minimal` returns sections for a filter with poles, there are
`ceil(#p / 2)` of them, normalised and at rest, their numerators multiply to `k ∏ (x - z_i)` and their
denominators to `∏ (x - p_i)`, each times the power of `x` that fills the sections.  So what is returned is
`x^(#p - #z)` times the transfer function. -/
theorem C88_sound {eps : ℝ} {s : Sorts} (hs : s.Correct) (order : ℕ) (f : Zpk) (hf : GoodRoots eps f)
    (hne : f.p ≠ []) {pairing : Option Pairing} {analog : Option Bool} (hm : UsesMinimal pairing analog)
    {sos : List (Sos ℝ)} (h : zpk2sos eps s order f pairing analog = .ok sos) :
    f.z.length ≤ f.p.length ∧ sos.length = (f.p.length + 1) / 2 ∧
      (∀ q ∈ sos, q.a0 = 1 ∧ q.zi0 = 0 ∧ q.zi1 = 0) ∧
      (∀ x : ℂ, sosNum sos x = f.num x * x ^ (2 * ((f.p.length + 1) / 2) - f.z.length) ∧
        sosDen sos x = f.den x * x ^ (f.p.length % 2)) ∧
      ∀ x : ℂ, x ≠ 0 → (sosDen sos x ≠ 0 ↔ f.Regular x) ∧
        sosNum sos x / sosDen sos x = x ^ (f.p.length - f.z.length) * f.eval x := by
  rw [zpk2sos_minimal order f hm hne] at h
  split_ifs at h with hle
  obtain ⟨zc, zr, ez, z1, z2⟩ := cplxreal_ok (t := none) hs
    (show 0 ≤ eps * 100 by have := hf.eps_nonneg; positivity) hf.z_sep hf.z_conj
  obtain ⟨pc, pr, ep, p1, p2⟩ := cplxreal_ok (t := none) hs
    (show 0 ≤ eps * 100 by have := hf.eps_nonneg; positivity) hf.p_sep hf.p_conj
  unfold pairUp at h
  rw [ez, ok_bind, ep, ok_bind] at h
  obtain ⟨st, hst, h⟩ := bind_eq_ok.mp h
  obtain ⟨u, hu, h⟩ := bind_eq_ok.mp h
  obtain ⟨u', hu', h⟩ := bind_eq_ok.mp h
  have hp0 : st.p = [] := check_eq_ok.mp hu'
  have hz0 : st.z = [] := by
    have := check_eq_ok.mp hu
    rw [hp0] at this
    exact List.length_eq_zero_iff.mp this.symm
  obtain ⟨new, e, hl, hpr, hz, hp, hN, hD⟩ := loop_minimal_sound _ hst
  rw [List.nil_append] at e
  rw [e] at h
  rw [List.length_range] at hl hz hp
  simp only [hz0, hp0, List.length_range, reps_wts hf.z_conj z1 z2, reps_wts hf.p_conj p1 p2,
    reps_facs hf.z_conj z1 z2, reps_facs hf.p_conj p1 p2, show wts [] = 0 from rfl,
    show ∀ t, facs [] t = 1 from fun t => by simp [facs], mul_one, Nat.add_zero] at hz hp hN hD
  have hrev : ∀ t, sosNum new.reverse t = sosNum new t ∧ sosDen new.reverse t = sosDen new t := fun t =>
    ⟨((List.reverse_perm new).map _).prod_eq, ((List.reverse_perm new).map _).prod_eq⟩
  have hprr : Proper new.reverse := fun x hx => hpr x (List.mem_reverse.mp hx)
  have hlr : new.reverse.length = (f.p.length + 1) / 2 := by rw [List.length_reverse, hl]
  generalize new.reverse = r at h hrev hprr hlr
  have hpos := List.length_pos_iff.mpr hne
  match r, hlr with
  | [], h' => simp at h'; omega
  | s0 :: rest, h' =>
    dsimp only at h
    cases h
    have hnum : ∀ x : ℂ, sosNum ({ s0 with b0 := s0.b0 * f.k, b1 := s0.b1 * f.k, b2 := s0.b2 * f.k } :: rest) x =
        f.num x * x ^ (2 * ((f.p.length + 1) / 2) - f.z.length) := fun x => by
      have h1 := (hrev x).1.trans (hN x)
      simp only [sosNum, List.map_cons, List.prod_cons, coeffVal_three] at h1 ⊢
      unfold Zpk.num
      push_cast
      linear_combination (f.k : ℂ) * h1
    have hden : ∀ x : ℂ, sosDen ({ s0 with b0 := s0.b0 * f.k, b1 := s0.b1 * f.k, b2 := s0.b2 * f.k } :: rest) x =
        f.den x * x ^ (f.p.length % 2) := fun x => by
      have h1 := (hrev x).2.trans (hD x)
      rw [show 2 * ((f.p.length + 1) / 2) - f.p.length = f.p.length % 2 by omega] at h1
      exact h1
    refine ⟨by omega, h', ?_, fun x => ⟨hnum x, hden x⟩, fun x hx => ?_⟩
    · intro x hx
      rcases List.mem_cons.mp hx with rfl | hx
      · exact hprr s0 (by simp)
      · exact hprr x (by simp [hx])
    · rw [hnum x, hden x]
      have hx1 : x ^ (f.p.length % 2) ≠ 0 := pow_ne_zero _ hx
      refine ⟨by unfold Zpk.Regular; simp [hx1], ?_⟩
      rw [show 2 * ((f.p.length + 1) / 2) - f.z.length = f.p.length - f.z.length + f.p.length % 2 by omega,
        pow_add, ← mul_assoc, mul_div_mul_right _ _ hx1]
      unfold Zpk.eval
      ring

/-- **C88**, correctness: with as many zeros as poles, what is returned is the transfer function. -/
theorem C88_correct {eps : ℝ} {s : Sorts} (hs : s.Correct) (order : ℕ) (f : Zpk) (hf : GoodRoots eps f)
    (hne : f.p ≠ []) (hlen : f.z.length = f.p.length) {pairing : Option Pairing} {analog : Option Bool}
    (hm : UsesMinimal pairing analog) {sos : List (Sos ℝ)}
    (h : zpk2sos eps s order f pairing analog = .ok sos) :
    ∀ x : ℂ, x ≠ 0 → (sosDen sos x ≠ 0 ↔ f.Regular x) ∧ sosNum sos x / sosDen sos x = f.eval x := by
  intro x hx
  obtain ⟨-, -, -, -, h5⟩ := C88_sound hs order f hf hne hm h
  have := h5 x hx
  rwa [hlen, Nat.sub_self, pow_zero, one_mul] at this

theorem pairUp_of_loop {eps : ℝ} {s : Sorts} {pairing : Pairing} {analog : Bool} {z p zc zr pc pr : List ℂ}
    {k : ℝ} {n : ℕ} (hn : n ≠ 0) (ez : cplxreal eps s z none = .ok (zc, zr))
    (ep : cplxreal eps s p none = .ok (pc, pr))
    (h : ∀ st', (List.range n).foldlM (fun st _ => pairStep pairing analog st) ⟨zc ++ zr, pc ++ pr, []⟩ = .ok st' →
      st'.sos.length = n)
    (hl : ∃ st', (List.range n).foldlM (fun st _ => pairStep pairing analog st) ⟨zc ++ zr, pc ++ pr, []⟩ = .ok st' ∧
      st'.z = [] ∧ st'.p = []) :
    Returns (pairUp eps s pairing analog z p k n) := by
  obtain ⟨st', e, h1, h2⟩ := hl
  unfold pairUp
  rw [ez, ok_bind, ep, ok_bind]
  dsimp only
  rw [e, ok_bind, check_true (by rw [h1, h2]), ok_bind, check_true h2, ok_bind]
  have := h st' e
  rw [← List.length_reverse] at this
  generalize st'.sos.reverse = r at this
  match r, this with
  | [], h' => exact absurd h'.symm hn
  | s0 :: rest, _ => exact ⟨_, rfl⟩

/-- **C88**, three cases in which it does return: an even number of poles and of zeros; an even number of poles
and only real zeros; exactly one real pole and as many zeros as poles. -/
theorem C88_returns {eps : ℝ} {s : Sorts} (hs : s.Correct) (order : ℕ) (f : Zpk) (hf : GoodRoots eps f)
    (hne : f.p ≠ []) (hle : f.z.length ≤ f.p.length) {pairing : Option Pairing} {analog : Option Bool}
    (hm : UsesMinimal pairing analog)
    (hc : (f.p.length % 2 = 0 ∧ f.z.length % 2 = 0) ∨ (f.p.length % 2 = 0 ∧ ∀ z ∈ f.z, z.im = 0) ∨
      ((f.p.filter (fun p => decide (p.im = 0))).length = 1 ∧ f.z.length = f.p.length)) :
    Returns (zpk2sos eps s order f pairing analog) := by
  obtain ⟨zc, zr, ez, z1, z2⟩ := cplxreal_ok (t := none) hs
    (show 0 ≤ eps * 100 by have := hf.eps_nonneg; positivity) hf.z_sep hf.z_conj
  obtain ⟨pc, pr, ep, p1, p2⟩ := cplxreal_ok (t := none) hs
    (show 0 ≤ eps * 100 by have := hf.eps_nonneg; positivity) hf.p_sep hf.p_conj
  have hpos := List.length_pos_iff.mpr hne
  have wz := reps_wts hf.z_conj z1 z2
  have wp := reps_wts hf.p_conj p1 p2
  rw [zpk2sos_minimal order f hm hne, if_neg (by omega)]
  refine pairUp_of_loop (by omega) ez ep ?_ ?_
  · intro st' h
    obtain ⟨new, e, hl, -⟩ := loop_minimal_sound _ h
    rw [e, List.nil_append, hl, List.length_range]
  · have hzmem : ∀ x ∈ zc ++ zr, x ∈ f.z := by
      intro x hx
      rcases List.mem_append.mp hx with hx | hx
      · exact (List.mem_filter.mp (z1.mem_iff.mp hx)).1
      · exact (List.mem_filter.mp (z2.mem_iff.mp hx)).1
    rcases hc with ⟨h1, h2⟩ | ⟨h1, h2⟩ | ⟨h1, h2⟩
    · exact loop_handy _ _ _ _ (by rw [List.length_range]; dsimp only; omega) (Or.inl (by dsimp only; omega))
        (by rw [List.length_range]; dsimp only; omega)
    · exact loop_handy _ _ _ _ (by rw [List.length_range]; dsimp only; omega) (handy_reals h2 hzmem)
        (by rw [List.length_range]; dsimp only; omega)
    · have hrc : realCount (pc ++ pr) = 1 := by
        rw [realCount_perm (p1.append p2)]
        unfold realCount
        rw [List.filter_append, List.length_append]
        have e1 : (up f.p).filter (fun x => decide (x.im = 0)) = [] := by
          rw [List.filter_eq_nil_iff]
          intro x hx
          have : 0 < x.im := by simpa using (List.mem_filter.mp hx).2
          simp [this.ne']
        have e2 : (onAxis f.p).filter (fun x => decide (x.im = 0)) = onAxis f.p := by
          rw [List.filter_eq_self]
          intro x hx
          exact (List.mem_filter.mp hx).2
        rw [e1, e2]
        simpa [onAxis] using h1
      have hw := wts_add_realCount (pc ++ pr)
      exact loop_one_real _ _ _ (by rw [List.length_range]; dsimp only; omega) (by dsimp only; omega) hrc

/-- **C88**, panics: an odd number of poles and no real zero. -/
theorem C88_no_real_zero_panics {eps : ℝ} {s : Sorts} (hs : s.Correct) (order : ℕ) (f : Zpk) (hf : GoodRoots eps f)
    (hodd : f.p.length % 2 = 1) (hz : ∀ z ∈ f.z, z.im ≠ 0) {pairing : Option Pairing} {analog : Option Bool}
    (hm : UsesMinimal pairing analog) : Panics (zpk2sos eps s order f pairing analog) := by
  have hne : f.p ≠ [] := by rintro h; rw [h] at hodd; simp at hodd
  rw [panics_iff_not_returns (noUb_zpk2sos _ _ _ _ _ _), zpk2sos_minimal order f hm hne]
  rintro ⟨sos, h⟩
  split_ifs at h with hle
  obtain ⟨zc, zr, ez, z1, z2⟩ := cplxreal_ok (t := none) hs
    (show 0 ≤ eps * 100 by have := hf.eps_nonneg; positivity) hf.z_sep hf.z_conj
  obtain ⟨pc, pr, ep, p1, p2⟩ := cplxreal_ok (t := none) hs
    (show 0 ≤ eps * 100 by have := hf.eps_nonneg; positivity) hf.p_sep hf.p_conj
  unfold pairUp at h
  rw [ez, ok_bind, ep, ok_bind] at h
  obtain ⟨st, hst, h⟩ := bind_eq_ok.mp h
  obtain ⟨u, hu, h⟩ := bind_eq_ok.mp h
  obtain ⟨u', hu', h⟩ := bind_eq_ok.mp h
  have hp0 : st.p = [] := check_eq_ok.mp hu'
  have := loop_no_real_zero _ (st := ⟨zc ++ zr, pc ++ pr, []⟩)
    (by dsimp only; rw [reps_wts hf.p_conj p1 p2]; exact hodd)
    (by
      intro x hx
      refine hz x ?_
      rcases List.mem_append.mp hx with hx | hx
      · exact (List.mem_filter.mp (z1.mem_iff.mp hx)).1
      · exact (List.mem_filter.mp (z2.mem_iff.mp hx)).1) hst
  rw [hp0] at this
  simp [wts] at this

/-- Both outcomes of C88 occur: `5s/(s+1)` is converted, `5/(s+1)` panics. -/
example {eps : ℝ} (he : 0 ≤ eps) {s : Sorts} (hs : s.Correct) :
    (∃ sos, zpk2sos eps s 1 ⟨[0], [-1], 5⟩ none (some true) = .ok sos ∧
      ∀ x : ℂ, x ≠ 0 → sosNum sos x / sosDen sos x = 5 * x / (x + 1)) ∧
    Panics (zpk2sos eps s 1 ⟨[], [-1], 5⟩ none (some true)) := by
  have hm : UsesMinimal none (some true) := Or.inr ⟨rfl, rfl⟩
  have hf : GoodRoots eps ⟨[0], [-1], 5⟩ := ⟨he, by simp [ConjClosed], by simp [ConjClosed], by simp [Separated],
    by simp [Separated]⟩
  have hf' : GoodRoots eps ⟨[], [-1], 5⟩ := ⟨he, by simp [ConjClosed], by simp [ConjClosed], by simp [Separated],
    by simp [Separated]⟩
  refine ⟨?_, C88_no_real_zero_panics hs 1 _ hf' (by simp) (by simp) hm⟩
  obtain ⟨sos, h⟩ := C88_returns hs 1 _ hf (by simp) (by simp) hm (Or.inr (Or.inr ⟨by simp, by simp⟩))
  refine ⟨sos, h, fun x hx => ?_⟩
  rw [(C88_correct hs 1 _ hf (by simp) (by simp) hm h x hx).2]
  simp [Zpk.eval, Zpk.num, Zpk.den]

/-! ### A filter that should be converted and is not -/

theorem nearest_second {a b t : ℂ} (h : ‖b - t‖ < ‖a - t‖) : nearestIdx [a, b] t .any = .ok 1 := by
  simp [nearestIdx, minBy, expect, h]

theorem nearest_none {a t : ℂ} (h : a.im ≠ 0) : ¬ Returns (nearestIdx [a] t .real) := by
  rintro ⟨i, hi⟩
  obtain ⟨x, hx, hr⟩ := nearestIdx_inv hi
  have : x = a := by simpa using List.mem_of_getElem? hx
  rw [this] at hr
  exact h hr

theorem tens_good {eps : ℝ} (he : 0 ≤ eps) : GoodRoots eps ⟨[0, 10 * I, -(10 * I)], [-1, -2, -3], 1⟩ := by
  have h10 : (starRingEnd ℂ) 10 = 10 := by
    rw [show (10 : ℂ) = ((10 : ℝ) : ℂ) by norm_num, conj_ofReal]
  have h3 : (starRingEnd ℂ) 3 = 3 := by
    rw [show (3 : ℂ) = ((3 : ℝ) : ℂ) by norm_num, conj_ofReal]
  have h2 : (starRingEnd ℂ) 2 = 2 := by
    rw [show (2 : ℂ) = ((2 : ℝ) : ℂ) by norm_num, conj_ofReal]
  refine ⟨he, ?_, ?_, ?_, ?_⟩
  · simp only [ConjClosed, List.map_cons, List.map_nil, map_zero, map_neg, map_mul, conj_I, h10, mul_neg, neg_neg]
    exact (List.Perm.swap _ _ _).cons _
  · simp [ConjClosed, h2, h3]
  · intro x hx
    simp only [List.mem_cons, List.not_mem_nil, or_false] at hx
    rcases hx with rfl | rfl | rfl
    · left; simp
    · right; simp
    · right; simp
  · intro x hx
    simp only [List.mem_cons, List.not_mem_nil, or_false] at hx
    rcases hx with rfl | rfl | rfl <;> (left; simp)

/-- **C88, the converse fails**: `s (s² + 100) / ((s + 1) (s + 2) (s + 3))` has as many zeros as poles, all well
apart, and cannot be converted: the only real zero is taken first, by a section that then asks for another. -/
theorem C88_equal_counts_panics {eps : ℝ} (he : 0 ≤ eps) {s : Sorts} (hs : s.Correct) (order : ℕ)
    {pairing : Option Pairing} {analog : Option Bool} (hm : UsesMinimal pairing analog) :
    GoodRoots eps ⟨[0, 10 * I, -(10 * I)], [-1, -2, -3], 1⟩ ∧
      Panics (zpk2sos eps s order ⟨[0, 10 * I, -(10 * I)], [-1, -2, -3], 1⟩ pairing analog) := by
  have hf := tens_good he
  refine ⟨hf, ?_⟩
  rw [panics_iff_not_returns (noUb_zpk2sos _ _ _ _ _ _), zpk2sos_minimal order _ hm (by simp)]
  rintro ⟨sos, h⟩
  rw [if_neg (by simp)] at h
  obtain ⟨zc, zr, ez, z1, z2⟩ := cplxreal_ok (t := none) hs
    (show 0 ≤ eps * 100 by positivity) hf.z_sep hf.z_conj
  obtain ⟨pc, pr, ep, p1, p2⟩ := cplxreal_ok (t := none) hs
    (show 0 ≤ eps * 100 by positivity) hf.p_sep hf.p_conj
  have hzc : zc = [10 * I] := by
    have : up [0, 10 * I, -(10 * I)] = [10 * I] := by simp [up]
    rw [this] at z1
    exact List.perm_singleton.mp z1
  have hzr : zr = [0] := by
    have : onAxis [0, 10 * I, -(10 * I)] = [0] := by simp [onAxis]
    rw [this] at z2
    exact List.perm_singleton.mp z2
  have hpc : pc = [] := by
    have : up [(-1 : ℂ), -2, -3] = [] := by simp [up]
    rw [this] at p1
    exact p1.eq_nil
  have hpr : pr.Perm [-1, -2, -3] := by
    have : onAxis [(-1 : ℂ), -2, -3] = [-1, -2, -3] := by simp [onAxis]
    rwa [this] at p2
  unfold pairUp at h
  rw [ez, ok_bind, ep, ok_bind] at h
  obtain ⟨st, hst, -⟩ := bind_eq_ok.mp h
  rw [show ([(-1 : ℂ), -2, -3].length + 1) / 2 = 2 from rfl, show List.range 2 = [0, 1] from rfl,
    List.foldlM_cons] at hst
  obtain ⟨st1, h1, -⟩ := bind_eq_ok.mp hst
  dsimp only at h1
  rw [hpc, List.nil_append, hzc, hzr] at h1
  have hrc : realCount pr = 3 := by
    rw [realCount_perm hpr]
    simp [realCount]
  obtain ⟨i, q1, qr, hi, hr, hperm, hch⟩ := poles_ok (analog.getD false) (p := pr) (by
    intro h0; rw [h0] at hrc; simp [realCount] at hrc)
  have hq1 : q1 = -1 ∨ q1 = -2 ∨ q1 = -3 := by
    simpa using hpr.mem_iff.mp (hperm.mem_iff.mp (List.mem_cons_self (a := q1) (l := qr)))
  have hq1i : q1.im = 0 := by rcases hq1 with h | h | h <;> rw [h] <;> simp
  have hnear : ‖(0 : ℂ) - q1‖ < ‖10 * I - q1‖ := by
    have hre : ‖(0 : ℂ) - q1‖ ≤ 3 := by
      rcases hq1 with h | h | h <;> rw [h] <;> simp <;> norm_num
    have him : 10 ≤ ‖10 * I - q1‖ := by
      have := abs_im_le_norm (10 * I - q1)
      simp [hq1i] at this
      exact this
    linarith
  have hrc2 := realCount_perm hperm
  rw [realCount_cons_real hq1i, hrc] at hrc2
  rcases hch with hch | ⟨hnl, q2, q', hsp, -⟩
  · omega
  unfold pairStep at h1
  dsimp only at h1
  rw [hi, ok_bind, hr, ok_bind] at h1
  dsimp only at h1
  rw [if_neg hnl, if_neg (fun h => h.2.1 hq1i), hsp, ok_bind] at h1
  unfold stepZeros at h1
  dsimp only at h1
  rw [List.singleton_append, if_pos (by simp), nearest_second hnear, ok_bind] at h1
  simp only [removeAt, List.getElem?_cons_succ, List.getElem?_cons_zero, ok_bind, zero_im, ne_eq, not_true,
    if_false, List.eraseIdx_cons_succ, List.eraseIdx_cons_zero] at h1
  rw [if_pos (by simp)] at h1
  obtain ⟨j, hj, -⟩ := bind_eq_ok.mp h1
  exact nearest_none (a := 10 * I) (by simp) ⟨j, hj⟩

end SciRs.Props

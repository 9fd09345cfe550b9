import Verif.Lemmas.Design.Zpk2sos

/-!
# C51, C52, C62: second-order sections
-/

namespace SciRs.Props

open SciRs SciRs.Design SciRs.Spec Complex

/-- What the properties assume of a digital filter: real coefficients, and no root that is complex yet
within the tolerance `100 eps` of the real axis. -/
structure GoodRoots (eps : ℝ) (f : Zpk) : Prop where
  eps_nonneg : 0 ≤ eps
  z_conj : ConjClosed f.z
  p_conj : ConjClosed f.p
  z_sep : Separated (eps * 100) f.z
  p_sep : Separated (eps * 100) f.p

/-- **C51 and C52.**  For a digital filter with default pairing nothing panics, whatever the number and
order of zeros and poles, the `order` argument and the sorts.  There are `ceil(max(#z, #p) / 2)` sections
(one for the empty filter), each with `a0 = 1` and zero delays.  Their numerators multiply to
`k ∏ (x - z_i)` and their denominators to `∏ (x - p_i)`, times the power of `x` that brings each to the
degree `2 n`. -/
theorem C51_sections {eps : ℝ} {s : Sorts} (hs : s.Correct) (order : ℕ) (f : Zpk) (hf : GoodRoots eps f)
    {pairing : Option Pairing} {analog : Option Bool} (hpair : pairing = none ∨ pairing = some .nearest)
    (han : analog = none ∨ analog = some false) :
    ∃ sos, zpk2sos eps s order f pairing analog = .ok sos ∧
      sos.length = max 1 ((max f.z.length f.p.length + 1) / 2) ∧
      (∀ c ∈ sos, c.a0 = 1 ∧ c.zi0 = 0 ∧ c.zi1 = 0) ∧
      ∀ x : ℂ, sosNum sos x = f.num x * x ^ (2 * sos.length - f.z.length) ∧
        sosDen sos x = f.den x * x ^ (2 * sos.length - f.p.length) := by
  have ha : analog.getD false = false := by rcases han with rfl | rfl <;> rfl
  have hp : pairing.getD (if (false : Bool) = true then .minimal else .nearest) = .nearest := by
    rcases hpair with rfl | rfl <;> rfl
  unfold zpk2sos
  rw [ha]
  dsimp only
  rw [hp, if_neg (by simp)]
  by_cases h0 : f.z = [] ∧ f.p = []
  · rw [if_pos h0, if_pos rfl]
    refine ⟨_, rfl, by simp [h0.1, h0.2], by simp [Sos.new], fun x => ⟨?_, ?_⟩⟩
    · simp [sosNum, coeffVal_three, Sos.new, Zpk.num, h0.1]
    · simp [sosDen, coeffVal_three, Sos.new, Zpk.den, h0.2]
  rw [if_neg h0, if_pos (by simp)]
  have hpos : 0 < max f.z.length f.p.length := by
    rcases Nat.eq_zero_or_pos (max f.z.length f.p.length) with h | h
    · exact absurd ⟨List.length_eq_zero_iff.mp (by omega), List.length_eq_zero_iff.mp (by omega)⟩ h0
    · exact h
  set M := max f.z.length f.p.length with hM
  have hPl : (f.p ++ List.replicate (f.z.length - f.p.length) (0 : ℂ)).length = M := by
    rw [List.length_append, List.length_replicate]; omega
  rw [hPl]
  have hZl : (f.z ++ List.replicate (M - f.z.length) (0 : ℂ)).length = M := by
    rw [List.length_append, List.length_replicate]; omega
  rw [hZl, Nat.max_self, show f.z.length - f.p.length = M - f.p.length by omega]
  have hn : (M + 1) / 2 ≠ 0 := by omega
  have key : ∀ j, M + j = 2 * ((M + 1) / 2) →
      ∃ sos, pairUp eps s .nearest false (f.z ++ List.replicate (M - f.z.length + j) 0)
        (f.p ++ List.replicate (M - f.p.length + j) 0) f.k ((M + 1) / 2) = .ok sos ∧
        sos.length = max 1 ((M + 1) / 2) ∧
      (∀ c ∈ sos, c.a0 = 1 ∧ c.zi0 = 0 ∧ c.zi1 = 0) ∧
      ∀ x : ℂ, sosNum sos x = f.num x * x ^ (2 * sos.length - f.z.length) ∧
        sosDen sos x = f.den x * x ^ (2 * sos.length - f.p.length) := by
    intro j hj
    obtain ⟨sos, e, hl, hpr, hN, hD⟩ := pairUp_even hf.eps_nonneg hs .nearest false f.k hn
      (conjClosed_pad hf.z_conj (M - f.z.length + j)) (conjClosed_pad hf.p_conj (M - f.p.length + j))
      (separated_pad hf.z_sep _) (separated_pad hf.p_sep _)
      (by rw [List.length_append, List.length_replicate]; omega)
      (by rw [List.length_append, List.length_replicate]; omega)
    refine ⟨sos, e, by omega, hpr, fun x => ⟨?_, ?_⟩⟩
    · rw [hN x, prod_pad, hl, show M - f.z.length + j = 2 * ((M + 1) / 2) - f.z.length by omega, Zpk.num]
      ring
    · rw [hD x, prod_pad, hl, show M - f.p.length + j = 2 * ((M + 1) / 2) - f.p.length by omega, Zpk.den]
  by_cases hodd : M % 2 = 1
  · rw [if_pos ⟨hodd, rfl⟩]
    dsimp only
    rw [check_true (by simp [hZl]; omega), ok_bind, pad_append, pad_append]
    exact key 1 (by omega)
  · rw [if_neg (by simp [hodd])]
    dsimp only
    rw [check_true (by rw [hZl, List.length_append, List.length_replicate]; omega), ok_bind]
    exact key 0 (by omega)

/-- **C51.**  With as many zeros as poles the sections have the transfer function of the filter at every
`x ≠ 0`: the denominators vanish at the poles only, and the quotient is `H(x)`. -/
theorem C51_transfer {eps : ℝ} {s : Sorts} (hs : s.Correct) (order : ℕ) (f : Zpk) (hf : GoodRoots eps f)
    {pairing : Option Pairing} {analog : Option Bool} (hpair : pairing = none ∨ pairing = some .nearest)
    (han : analog = none ∨ analog = some false) (hzp : f.z.length = f.p.length) :
    ∃ sos, zpk2sos eps s order f pairing analog = .ok sos ∧ ∀ x : ℂ, x ≠ 0 →
      (sosDen sos x ≠ 0 ↔ f.Regular x) ∧ sosNum sos x / sosDen sos x = f.eval x := by
  obtain ⟨sos, e, -, -, h⟩ := C51_sections hs order f hf hpair han
  refine ⟨sos, e, fun x hx => ?_⟩
  obtain ⟨h1, h2⟩ := h x
  have hpow : x ^ (2 * sos.length - f.p.length) ≠ 0 := pow_ne_zero _ hx
  rw [h1, h2, hzp]
  refine ⟨?_, ?_⟩
  · unfold Zpk.Regular
    simp [hpow]
  · unfold Zpk.eval
    rw [mul_div_mul_right _ _ hpow]

/-- **C51**, different numbers of zeros and poles: the missing ones are put at the origin, so `1/(x+1)`
comes out as `x/(x+1)`. -/
theorem C51_missing_zeros_at_origin {eps : ℝ} {s : Sorts} (hs : s.Correct) (order : ℕ) (he : 0 ≤ eps) :
    ∃ (f : Zpk) (sos : List (Sos ℝ)), GoodRoots eps f ∧ zpk2sos eps s order f none none = .ok sos ∧
      sosDen sos 2 ≠ 0 ∧ sosNum sos 2 / sosDen sos 2 ≠ f.eval 2 := by
  have hg : GoodRoots eps ⟨[], [-1], 1⟩ := ⟨he, conjClosed_nil, by simp [ConjClosed], by simp [Separated],
    by simp [Separated]⟩
  obtain ⟨sos, e, hl, -, h⟩ := C51_sections hs order _ hg (Or.inl rfl) (Or.inl rfl)
  obtain ⟨h1, h2⟩ := h 2
  simp only [List.length_nil, List.length_cons] at hl
  norm_num at hl
  refine ⟨_, sos, hg, e, ?_, ?_⟩
  · rw [h2, hl]; simp only [Zpk.den]; norm_num
  · rw [h1, h2, hl]
    simp only [Zpk.eval, Zpk.num, Zpk.den]; norm_num

/-- **C52.**  No panic on a real filter, whatever its zeros and poles. -/
theorem C52_no_panic {eps : ℝ} {s : Sorts} (hs : s.Correct) (order : ℕ) (f : Zpk) (hf : GoodRoots eps f) :
    Returns (zpk2sos eps s order f none none) := by
  obtain ⟨sos, e, -⟩ := C51_sections hs order f hf (Or.inl rfl) (Or.inl rfl)
  exact ⟨sos, e⟩

/-- **C52 needs its distance from the real axis**: with a pair of poles `1 ± eps i` closer to it than the
tolerance, the function panics.  (`cplxreal_dyn` hands both back as "real" without clearing the imaginary
parts, and the loop then counts each of them as a pair.) -/
theorem C52_near_real_panics {eps : ℝ} (he : 0 < eps) {s : Sorts} (hs : s.Correct) (order : ℕ) :
    ∃ f : Zpk, ConjClosed f.z ∧ ConjClosed f.p ∧ Panics (zpk2sos eps s order f none none) := by
  have hcl : ConjClosed [1 + (eps : ℂ) * I, 1 - (eps : ℂ) * I] := by
    simp only [ConjClosed, List.map_cons, List.map_nil, map_add, map_sub, map_mul, map_one, conj_I, conj_ofReal,
      mul_neg, sub_neg_eq_add, ← sub_eq_add_neg]
    exact List.Perm.swap _ _ _
  refine ⟨⟨[0, 0], [1 + eps * I, 1 - eps * I], 1⟩, ?_, hcl, ?_⟩
  · simpa using conjClosed_replicate_real 2 0
  have hzs : Separated (eps * 100) [0, 0] := by simp [Separated]
  obtain ⟨zc, zr, ez, z1, z2⟩ := cplxreal_ok (t := none) hs (show 0 ≤ eps * 100 by positivity) hzs
    (by simpa using conjClosed_replicate_real 2 0)
  have hzc : zc = [] := by simpa [up] using z1
  have hzr : zr = [0, 0] := by
    have h3 : zr.Perm (List.replicate 2 0) := by simpa [onAxis] using z2
    exact List.perm_replicate.mp h3
  -- both poles are returned as they are
  set P : List ℂ := [1 + eps * I, 1 - eps * I] with hP
  have hperm := hs.key_perm P
  have hmem : ∀ x ∈ s.byKey P, x = 1 + eps * I ∨ x = 1 - eps * I := fun x hx => by
    simpa [hP] using hperm.mem_iff.mp hx
  have ep : cplxreal eps s P none = .ok ([], s.byKey P) := by
    unfold cplxreal
    rw [if_neg (by simp [hP])]
    dsimp only
    have : (s.byKey P).filter (fun zi => decide (|zi.im| ≤ (none : Option ℝ).getD (eps * 100) *
        (csqrt (zi * zi)).re)) = s.byKey P := by
      refine List.filter_eq_self.mpr (fun x hx => ?_)
      rw [csqrt_mul_self_re]
      rcases hmem x hx with rfl | rfl
      · simp [abs_of_pos he]; linarith
      · simp [abs_of_pos he]; linarith
    rw [this, if_pos rfl]
    rfl
  have him : ∀ x ∈ s.byKey P, x.im ≠ 0 := fun x hx => by
    rcases hmem x hx with rfl | rfl
    · simp [he.ne']
    · simp [he.ne']
  have hlen : (s.byKey P).length = 2 := hperm.length_eq
  have hPl : P.length = 2 := rfl
  have hz2 : ([0, 0] : List ℂ).length = 2 := rfl
  have hfold : zpk2sos eps s order ⟨[0, 0], P, 1⟩ none none = pairUp eps s .nearest false [0, 0] P 1 1 := by
    unfold zpk2sos
    simp only [Option.getD_none]
    rw [if_neg (by simp), if_neg (by simp), if_pos (by simp), hz2, hPl, Nat.sub_self, List.replicate_zero,
      List.append_nil, hPl, Nat.sub_self, List.replicate_zero, List.append_nil, hz2, if_neg (by simp)]
    rfl
  rw [hfold]
  unfold pairUp
  rw [ez, ep]
  simp only [ok_bind]
  rw [hzc, hzr]
  generalize s.byKey P = L at him hlen
  match L, hlen with
  | [a, b], _ =>
    have ha : a.im ≠ 0 := him a (by simp)
    have hb : b.im ≠ 0 := him b (by simp)
    have hstep : ∃ s1 q, pairStep .nearest false ⟨[] ++ [0, 0], [] ++ [a, b], []⟩ = .ok ⟨[], [q], [s1]⟩ := by
      obtain ⟨i, p1, pr, hi, hr, hperm, h⟩ := poles_ok false (p := [a, b]) (by simp)
      have hp1 : p1.im ≠ 0 := him p1 (hperm.mem_iff.mp (by simp))
      have hprl : pr.length = 1 := by simpa using hperm.length_eq
      have hpr0 : realCount pr = 0 := by
        unfold realCount
        rw [List.length_eq_zero_iff, List.filter_eq_nil_iff]
        intro x hx
        simpa using him x (hperm.mem_iff.mp (by simp [hx]))
      match pr, hprl with
      | [q], _ =>
        unfold pairStep
        simp only [List.nil_append]
        rw [hi, ok_bind, hr, ok_bind]
        dsimp only
        rw [if_neg (by simp [hp1]), if_neg (by rw [hpr0]; simp)]
        unfold secondPole
        rw [if_neg hp1]
        simp only [pure, Except.pure, ok_bind]
        unfold stepZeros
        dsimp only
        rw [if_pos (by simp)]
        obtain ⟨i1, x1, hi1, hx1, -⟩ := nearestIdx_ok (fro := [0, 0]) (t := p1) (w := .any) ⟨0, by simp, trivial⟩
        obtain ⟨hr1, hperm1⟩ := removeAt_ok hx1
        rw [hi1, ok_bind, hr1, ok_bind]
        have hx10 : x1 = 0 := by simpa using hperm1.mem_iff.mp (List.mem_cons_self ..)
        have hrest : [0, 0].eraseIdx i1 = [(0 : ℂ)] := by
          have h4 : (x1 :: [0, 0].eraseIdx i1) = List.replicate 2 0 := List.perm_replicate.mp hperm1
          simpa [List.replicate] using (List.cons.inj h4).2
        rw [hrest]
        dsimp only
        rw [if_neg (by simp [hx10]), if_pos (by simp)]
        obtain ⟨i2, x2, hi2, hx2, hx2r⟩ := nearestIdx_ok (fro := [0]) (t := p1) (w := .real)
          ⟨0, by simp, by simp [Accepts]⟩
        obtain ⟨hr2, hperm2⟩ := removeAt_ok hx2
        have hx2i : x2.im = 0 := hx2r
        rw [hi2, ok_bind, hr2, ok_bind]
        have hl2 : [0].eraseIdx i2 = ([] : List ℂ) := by
          have := hperm2.length_eq
          simpa using this
        rw [hl2]
        dsimp only
        rw [check_true hx2i, ok_bind]
        obtain ⟨s1, hs1, -⟩ := single_ok (z := [x1, x2]) (conjClosed_reals (by simp [hx10]) hx2i) (by simp)
          (conjClosed_pair p1)
        rw [hs1]
        exact ⟨s1, q, rfl⟩
    obtain ⟨s1, q, hstep⟩ := hstep
    simp only [List.range_succ, List.range_zero, List.nil_append, List.foldlM_cons, List.foldlM_nil]
    simp only [List.nil_append] at hstep
    norm_num
    rw [hstep]
    simp

/-- The hypotheses of C51 and C52 are met by a filter with three zeros and a pair of complex poles. -/
example : ∃ s : Sorts, s.Correct ∧ ∃ sos,
    zpk2sos (1 / 1000) s 7 ⟨[-1, 1, 2], [I, -I], 3⟩ none none = .ok sos ∧ sos.length = 2 := by
  obtain ⟨s, hs⟩ := exists_sorts
  have e2 : (starRingEnd ℂ) (2 : ℂ) = 2 := by
    rw [show (2 : ℂ) = ((2 : ℝ) : ℂ) by norm_num, conj_ofReal]
  have hg : GoodRoots (1 / 1000) ⟨[-1, 1, 2], [I, -I], 3⟩ := by
    refine ⟨by norm_num, ?_, ?_, ?_, ?_⟩
    · simp only [ConjClosed, List.map_cons, List.map_nil, map_neg, map_one, e2]
      exact List.Perm.refl _
    · simp only [ConjClosed, List.map_cons, List.map_nil, map_neg, conj_I, neg_neg]
      exact List.Perm.swap _ _ _
    · intro x hx
      simp only [List.mem_cons, List.not_mem_nil, or_false] at hx
      rcases hx with rfl | rfl | rfl <;> norm_num
    · intro x hx
      simp only [List.mem_cons, List.not_mem_nil, or_false] at hx
      rcases hx with rfl | rfl <;> norm_num
  obtain ⟨sos, e, hl, -⟩ := C51_sections hs 7 _ hg (Or.inl rfl) (Or.inl rfl)
  exact ⟨s, hs, sos, e, by rw [hl]; norm_num⟩

/-! ### Analog filters -/

/-- **C62** (partial: as many zeros as poles, and an even number of them; the two theorems below show
that it fails for filters without zeros).  The sections of an analog filter have its transfer function. -/
theorem C62_analog_partial {eps : ℝ} {s : Sorts} (hs : s.Correct) (order : ℕ) (f : Zpk)
    (hf : GoodRoots eps f) (hzp : f.z.length = f.p.length) (hev : f.p.length % 2 = 0) (hne : f.p ≠ []) :
    ∃ sos, zpk2sos eps s order f none (some true) = .ok sos ∧ ∀ x : ℂ,
      (sosDen sos x ≠ 0 ↔ f.Regular x) ∧ sosNum sos x / sosDen sos x = f.eval x := by
  have hpos := List.length_pos_iff.mpr hne
  obtain ⟨sos, e, hl, hpr, hN, hD⟩ := pairUp_even hf.eps_nonneg hs .minimal true f.k
    (n := (f.p.length + 1) / 2) (by omega) hf.z_conj hf.p_conj hf.z_sep hf.p_sep (by omega) (by omega)
  refine ⟨sos, ?_, fun x => ?_⟩
  · unfold zpk2sos
    simp only [Option.getD_none, Option.getD_some, if_true]
    rw [if_neg (by simp), if_neg (by simp [hne]), if_neg (by simp), if_neg (by omega)]
    exact e
  · rw [hN x, hD x]
    exact ⟨Iff.rfl, rfl⟩

/-- **C62 fails for every analog filter without zeros and with an even number of poles** (an analog
Butterworth or Chebyshev I low-pass, for instance): short numerators are padded at the wrong end, so they have
the transfer function `x^(#p) H(x)` in place of `H(x)`. -/
theorem C62_analog_all_pole_wrong {eps : ℝ} {s : Sorts} (hs : s.Correct) (order : ℕ) (f : Zpk)
    (hf : GoodRoots eps f) (hz : f.z = []) (hev : f.p.length % 2 = 0) (hne : f.p ≠ []) :
    ∃ sos, zpk2sos eps s order f none (some true) = .ok sos ∧ ∀ x : ℂ,
      sosDen sos x = f.den x ∧ sosNum sos x / sosDen sos x = x ^ f.p.length * f.eval x := by
  have hpos := List.length_pos_iff.mpr hne
  obtain ⟨zc, zr, ez, z1, z2⟩ := cplxreal_ok (t := none) hs
    (show 0 ≤ eps * 100 by have := hf.eps_nonneg; positivity) hf.z_sep hf.z_conj
  obtain ⟨pc, pr, ep, p1, p2⟩ := cplxreal_ok (t := none) hs
    (show 0 ≤ eps * 100 by have := hf.eps_nonneg; positivity) hf.p_sep hf.p_conj
  have hz0 : zc ++ zr = [] := by
    have := reps_wts hf.z_conj z1 z2
    rw [hz] at this
    exact wts_eq_zero this
  set n := (f.p.length + 1) / 2 with hn
  obtain ⟨new, e, hl, hpr, hN, hD⟩ := loop_allpole_even .minimal true (List.range n) (pc ++ pr) []
    (by rw [List.length_range, reps_wts hf.p_conj p1 p2]; omega)
  have hrev : ∀ t, sosNum new.reverse t = sosNum new t ∧ sosDen new.reverse t = sosDen new t := fun t =>
    ⟨((List.reverse_perm new).map _).prod_eq, ((List.reverse_perm new).map _).prod_eq⟩
  have hlr : new.reverse.length = n := by rw [List.length_reverse, hl, List.length_range]
  have key : ∃ sos, zpk2sos eps s order f none (some true) = .ok sos ∧
      ∀ t, sosNum sos t = f.k * t ^ (2 * n) ∧ sosDen sos t = f.den t := by
    unfold zpk2sos
    simp only [Option.getD_none, Option.getD_some, if_true]
    rw [if_neg (by simp), if_neg (by simp [hne]), if_neg (by simp), if_neg (by rw [hz]; simp)]
    unfold pairUp
    rw [ez, ep]
    simp only [ok_bind]
    rw [hz0, ← hn, e, ok_bind]
    dsimp only
    rw [check_true rfl, ok_bind, check_true rfl, ok_bind, List.nil_append]
    generalize new.reverse = r at hrev hlr
    match r, hlr with
    | [], h => simp at h; omega
    | s0 :: rest, h =>
      refine ⟨_, rfl, fun t => ⟨?_, ?_⟩⟩
      · rw [List.length_range] at hN
        rw [← hN t, ← (hrev t).1]
        simp only [sosNum, List.map_cons, List.prod_cons, coeffVal_three]
        push_cast
        ring
      · rw [Zpk.den, ← reps_facs hf.p_conj p1 p2 t, ← hD t, ← (hrev t).2]
        simp only [sosDen, List.map_cons, List.prod_cons]
  obtain ⟨sos, e', h⟩ := key
  refine ⟨sos, e', fun x => ⟨(h x).2, ?_⟩⟩
  rw [(h x).1, (h x).2, Zpk.eval, Zpk.num, hz, show 2 * n = f.p.length by omega]
  simp
  ring

/-- **C62 fails for every analog filter without zeros and with an odd number of poles**: it panics. -/
theorem C62_analog_all_pole_odd_panics {eps : ℝ} {s : Sorts} (hs : s.Correct) (order : ℕ) (f : Zpk)
    (hf : GoodRoots eps f) (hz : f.z = []) (hodd : f.p.length % 2 = 1) :
    Panics (zpk2sos eps s order f none (some true)) := by
  have hne : f.p ≠ [] := by rintro h; rw [h] at hodd; simp at hodd
  obtain ⟨zc, zr, ez, z1, z2⟩ := cplxreal_ok (t := none) hs
    (show 0 ≤ eps * 100 by have := hf.eps_nonneg; positivity) hf.z_sep hf.z_conj
  obtain ⟨pc, pr, ep, p1, p2⟩ := cplxreal_ok (t := none) hs
    (show 0 ≤ eps * 100 by have := hf.eps_nonneg; positivity) hf.p_sep hf.p_conj
  have hz0 : zc ++ zr = [] := by
    have := reps_wts hf.z_conj z1 z2
    rw [hz] at this
    exact wts_eq_zero this
  obtain ⟨er, hub, her⟩ := loop_allpole_odd true (List.range ((f.p.length + 1) / 2)) (pc ++ pr) []
    (by rw [List.length_range, reps_wts hf.p_conj p1 p2]; omega)
  unfold zpk2sos
  simp only [Option.getD_none, Option.getD_some, if_true]
  rw [if_neg (by simp), if_neg (by simp [hne]), if_neg (by simp), if_neg (by rw [hz]; simp)]
  unfold pairUp
  rw [ez, ep]
  simp only [ok_bind]
  rw [hz0, her]
  exact ⟨er, hub, rfl⟩

/-- The analog theorems are about real filters: two complex poles, and a single real pole. -/
example : ∃ s : Sorts, s.Correct ∧ Panics (zpk2sos (1 / 1000) s 1 ⟨[], [-1], 1⟩ none (some true)) ∧
    ∃ sos, zpk2sos (1 / 1000) s 1 ⟨[], [-1 + I, -1 - I], 2⟩ none (some true) = .ok sos ∧
      sosNum sos 2 / sosDen sos 2 = 4 * (2 / 10) := by
  obtain ⟨s, hs⟩ := exists_sorts
  refine ⟨s, hs, C62_analog_all_pole_odd_panics hs 1 _ ⟨by norm_num, conjClosed_nil, by simp [ConjClosed],
    by simp [Separated], by simp [Separated]⟩ rfl rfl, ?_⟩
  have hg : GoodRoots (1 / 1000) ⟨[], [-1 + I, -1 - I], 2⟩ := by
    refine ⟨by norm_num, conjClosed_nil, ?_, by simp [Separated], ?_⟩
    · simp only [ConjClosed, List.map_cons, List.map_nil, map_add, map_sub, map_neg, map_one, conj_I,
        sub_neg_eq_add, ← sub_eq_add_neg]
      exact List.Perm.swap _ _ _
    · intro x hx
      simp only [List.mem_cons, List.not_mem_nil, or_false] at hx
      rcases hx with rfl | rfl <;> norm_num
  obtain ⟨sos, e, h⟩ := C62_analog_all_pole_wrong hs 1 _ hg rfl rfl (by simp)
  refine ⟨sos, e, ?_⟩
  rw [(h 2).2]
  simp only [Zpk.eval, Zpk.num, Zpk.den, List.map_cons, List.map_nil, List.prod_cons, List.prod_nil]
  have : (2 - (-1 + I)) * ((2 - (-1 - I)) * 1) = 10 := by
    ring_nf; rw [I_sq]; norm_num
  rw [this]; norm_num

end SciRs.Props

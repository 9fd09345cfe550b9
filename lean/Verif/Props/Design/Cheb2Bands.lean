import Verif.Props.Design.DesignEnergy

/-! # C103: Chebyshev II high-pass and band-stop designs -/

namespace SciRs.Props

open SciRs.Design SciRs.Spec Complex

section

variable (eps : ℝ) (s : Sorts)

/-- **C103**, band-stop: every digital Chebyshev II band-stop request of order at least two is answered with gain
zero, so the filter removes everything. -/
theorem C103_bandstop_wrong (N : ℕ) (hN : 2 ≤ N) (wn : List ℝ) (rp rs : Option ℝ) (fs : Option ℝ)
    (hv : ValidRequest wn rp rs .bandstop .chebyshevII false fs) (hr : PositiveRipple .chebyshevII rp rs)
    (_hfin : ZerosFinite N .bandstop (edges wn fs)) :
    ∃ d, iirfilter eps s N wn rp rs (some .bandstop) (some .chebyshevII) none (some .zpk) fs = .ok (.zpk d) ∧
      d.k = 0 ∧ ∀ x : ℂ, d.eval x = 0 := by
  obtain ⟨f, g, d, hf, hg, hd, hdes, -, -, -, hlen, -⟩ := design_real (N := N) hv hr
  obtain ⟨h1, h2, h3, h4, h5, h6, -⟩ := prototype_good hf hr
  have hz : f.z ≠ [] := by
    rcases hv.family with h | h | ⟨-, hrp, hrs⟩
    · cases h
    · cases h.1
    · obtain ⟨r, rfl⟩ := Option.isSome_iff_exists.mp hrp
      obtain ⟨q, rfl⟩ := Option.isSome_iff_exists.mp hrs
      cases hf
      obtain ⟨-, hl, -⟩ := C47_poles_zeros N (by omega) q (hr.2 rfl q rfl)
      intro h0
      rw [h0] at hl
      simp at hl
      omega
  have hnum : ∀ (l : List ℂ) (a : ℝ), (∀ z ∈ l, z.re = 0) → l ≠ [] →
      l.foldl (fun (acc : ℝ) zi => acc * zi.re) a = 0 := by
    intro l
    induction l with
    | nil => intro a _ h; exact absurd rfl h
    | cons x l ih =>
      intro a h _
      rw [List.foldl_cons, h x (by simp), mul_zero]
      cases l with
      | nil => rfl
      | cons y l => exact ih 0 (fun z hz => h z (List.mem_cons_of_mem _ hz)) (by simp)
  have hgk : g.k = 0 := by
    obtain ⟨a, b, hab⟩ : ∃ a b, edges wn fs = [a, b] := by
      have hc := hv.count
      simp only [reduceCtorEq, or_self, if_false] at hc
      have : (edges wn fs).length = 2 := by
        cases fs <;> simp [edges, hc]
      exact List.length_eq_two.mp this
    rw [hab] at hg
    simp only [List.map_cons, List.map_nil, bandTransform, lp2bs, relativeDegree_ok h1, ok_bind] at hg
    cases hg
    dsimp only
    rw [hnum f.z 1 h4 hz]
    simp
  have hdk : d.k = 0 := by
    simp only [bilinear, relativeDegree_ok hlen, ok_bind] at hd
    cases hd
    dsimp only
    rw [hgk, zero_mul]
  refine ⟨d, ?_, hdk, fun x => by simp [Zpk.eval, Zpk.num, hdk]⟩
  rw [iirfilter_eq]
  simp only [Option.getD_some, Option.getD_none]
  rw [hdes]
  rfl

/-- **C103**, band-stop sections: whatever signal is filtered with them, the output is zero. -/
theorem C103_bandstop_silent (heps : 0 ≤ eps) (hs : s.Correct) (N : ℕ) (hN : 2 ≤ N) (wn : List ℝ) (rp rs : Option ℝ)
    (fs : Option ℝ) (hv : ValidRequest wn rp rs .bandstop .chebyshevII false fs)
    (hr : PositiveRipple .chebyshevII rp rs) (hfin : ZerosFinite N .bandstop (edges wn fs)) (l : List (Sos ℝ))
    (hl : iirfilter eps s N wn rp rs (some .bandstop) (some .chebyshevII) none (some .sos) fs = .ok (.sos l))
    (x : List ℝ) : ∀ y ∈ (sosfiltDyn x l).1, y = 0 := by
  obtain ⟨d, hd, hlen, hc, hx⟩ := C84_sound eps s heps hs N wn rp rs (some .bandstop) (some .chebyshevII) none
    (.inl rfl) fs hv hr (fun _ => hfin) l hl
  obtain ⟨d', hd', -, h0⟩ := C103_bandstop_wrong eps s N hN wn rp rs fs hv hr hfin
  rw [hd] at hd'
  cases hd'
  have hst := sections_stable hc
  have hen := C92_energy l hst (fun c hc' => ⟨(hc c hc').2.1, (hc c hc').2.2.1⟩) 0 (fun ω _ => by
    rw [show freqResponse l ω = d.eval (exp (I * ω)) from (hx _ (exp_ne_zero _)).2, h0, norm_zero]) x
  rw [zero_pow two_ne_zero, zero_mul] at hen
  intro y hy
  have : y ^ 2 ≤ energy (sosfiltDyn x l).1 :=
    List.single_le_sum (fun v hv' => by obtain ⟨w, -, rfl⟩ := List.mem_map.mp hv'; positivity) _
      (List.mem_map.mpr ⟨y, hy, rfl⟩)
  exact pow_eq_zero_iff two_ne_zero |>.mp (le_antisymm (this.trans hen) (sq_nonneg y))

theorem prod_range_real (N : ℕ) (f : ℕ → ℝ) : ((List.range N).map f).prod = ∏ j ∈ Finset.range N, f j := by
  induction N with
  | zero => simp
  | succ n ih => rw [List.range_succ, List.map_append, List.prod_append, ih, Finset.prod_range_succ]; simp

/-- The squared gain at the Nyquist frequency of a Chebyshev II high-pass filter. -/
theorem cheb2_leading (N : ℕ) (hN : N ≠ 0) (rs : ℝ) (hrs : 0 < rs) {f g : Zpk} (hf : cheb2ap N rs = f) {a : ℝ}
    (hg : lp2hp f (some a) = .ok g) :
    g.k ^ 2 = ((stepRange (-(N : ℤ) + 1) N).map (fun m : ℤ => 1 + Real.sin (th N m) ^ 2)).prod := by
  subst hf
  obtain ⟨hpl, hzl, hpc, hzc, hre, him⟩ := C47_poles_zeros N hN rs hrs
  obtain ⟨⟨hreg, hone⟩, -⟩ := C47_response N hN rs hrs
  obtain ⟨mu, hmu, hz, hp, hk⟩ := cheb2ap_fields N hN rs
  simp only [lp2hp, relativeDegree_ok (show (cheb2ap N rs).z.length ≤ (cheb2ap N rs).p.length by omega), ok_bind] at hg
  cases hg
  simp only [foldMul_eq]
  obtain ⟨f, hf⟩ : ∃ f, f = cheb2ap N rs := ⟨_, rfl⟩
  rw [← hf] at hpl hzl hpc hzc hone hz ⊢
  have hnumr : ((((f.z.map (fun zi => (-1 : ℂ) + zi)).prod.re : ℝ)) : ℂ) = (f.z.map (fun zi => (-1 : ℂ) + zi)).prod :=
    conjClosed_prod_real (conjClosed_map hzc (fun x => by simp))
  have hreal := real_div hnumr (conjClosed_prod_neg_real hpc)
  have hk' : ((f.k * ((f.z.map (fun zi => (-1 : ℂ) + zi)).prod / (f.p.map (fun z => -1 * z)).prod).re : ℝ) : ℂ) *
      (f.z.map (fun z => -1 * z)).prod = (f.z.map (fun zi => (-1 : ℂ) + zi)).prod := by
    rw [ofReal_mul, hreal]
    have hone : (f.k : ℂ) * (f.z.map (fun z => -1 * z)).prod / (f.p.map (fun z => -1 * z)).prod = 1 := by
      simp only [Zpk.eval, Zpk.num, Zpk.den, zero_sub] at hone
      simpa only [neg_one_mul] using hone
    have hd0 : (f.p.map (fun z => -1 * z)).prod ≠ 0 := by
      intro h0
      rw [h0, div_zero] at hone
      exact zero_ne_one hone
    rw [div_eq_one_iff_eq hd0] at hone
    rw [← mul_div_assoc, div_mul_eq_mul_div, div_eq_iff hd0]
    linear_combination (f.z.map (fun zi => (-1 : ℂ) + zi)).prod * hone
  obtain ⟨K, hK⟩ : ∃ K : ℝ, K = f.k * ((f.z.map (fun zi => (-1 : ℂ) + zi)).prod / (f.p.map (fun z => -1 * z)).prod).re :=
    ⟨_, rfl⟩
  rw [← hK] at hk' ⊢
  have hsq := congrArg normSq hk'
  rw [normSq_mul, normSq_ofReal, ← sq, normSq_prod, normSq_prod, hz, cheb2Zeros_eq, List.map_map, List.map_map] at hsq
  have hperm : ((stepRange (-(N : ℤ) + 1) N).map (fun m : ℤ => 1 + Real.sin (th N m) ^ 2)).prod =
      ((cheb2Ms N).map (fun m : ℤ => 1 + Real.sin (th N m) ^ 2)).prod := by
    rw [((cheb2Ms_perm N).map _).prod_eq]
    split
    · rw [List.map_cons, List.prod_cons]
      simp [th]
    · rfl
  rw [hperm]
  have hpos : ∀ m ∈ cheb2Ms N, Real.sin (th N m) ≠ 0 := fun m hm => cheb2Ms_sin hm
  have hne : ((cheb2Ms N).map (fun m : ℤ => 1 / Real.sin (th N m) ^ 2)).prod ≠ 0 := by
    refine List.prod_ne_zero fun h0 => ?_
    obtain ⟨m, hm, h0⟩ := List.mem_map.mp h0
    exact one_div_ne_zero (pow_ne_zero 2 (hpos m hm)) h0
  have e1 : (cheb2Ms N).map ((fun z : ℂ => normSq (-1 * z)) ∘ fun m : ℤ => I / ((Real.sin (th N m) : ℝ) : ℂ)) =
      (cheb2Ms N).map (fun m : ℤ => 1 / Real.sin (th N m) ^ 2) := by
    refine List.map_congr_left fun m _ => ?_
    simp only [Function.comp_apply]
    rw [neg_one_mul, normSq_neg, normSq_div, normSq_I, normSq_ofReal, sq]
  have e2 : (cheb2Ms N).map ((fun z : ℂ => normSq (-1 + z)) ∘ fun m : ℤ => I / ((Real.sin (th N m) : ℝ) : ℂ)) =
      (cheb2Ms N).map (fun m : ℤ => (1 + Real.sin (th N m) ^ 2) * (1 / Real.sin (th N m) ^ 2)) := by
    refine List.map_congr_left fun m hm => ?_
    have h0 := hpos m hm
    simp only [Function.comp_apply]
    rw [show (-1 : ℂ) + I / ((Real.sin (th N m) : ℝ) : ℂ) = ⟨-1, 1 / Real.sin (th N m)⟩ by
      apply Complex.ext <;> simp only [add_re, add_im, neg_re, neg_im, one_re, one_im, div_ofReal_re, div_ofReal_im,
        I_re, I_im, zero_div, add_zero, neg_zero, zero_add], normSq_mk]
    field_simp
    ring
  rw [e1, e2, List.prod_map_mul] at hsq
  exact mul_right_cancel₀ hne hsq

/-- **C103**, high-pass: a digital Chebyshev II high-pass filter does not have gain one at the Nyquist frequency, in
the middle of its pass band, but `∏ (1 + sin²(πm/2N))` over `m = 1-N, 3-N, …, N-1`, square-rooted: at least 1.5 for
every order above one. -/
theorem C103_highpass_wrong (N : ℕ) (hN : 2 ≤ N) (wn W : ℝ) (rp rs : ℝ) (hrp : 0 ≤ rp) (hrs : 0 < rs) (fs : Option ℝ)
    (hW : edges [wn] fs = [W]) (h0 : 0 < W) (h1 : W < 1) (hfin : ZerosFinite N .highpass [W]) :
    ∃ d, iirfilter eps s N [wn] (some rp) (some rs) (some .highpass) (some .chebyshevII) none (some .zpk) fs =
        .ok (.zpk d) ∧
      ‖d.eval (-1)‖ ^ 2 = ∏ j ∈ Finset.range N, (1 + Real.sin (Real.pi * (2 * j + 1 - N) / (2 * N)) ^ 2) ∧
      3 / 2 ≤ ‖d.eval (-1)‖ := by
  have hv : ValidRequest [wn] (some rp) (some rs) .highpass .chebyshevII false fs :=
    valid_single (.inr rfl) hW h0 h1 (fun r hr => by cases hr; exact hrp) (fun r hr => by cases hr; exact hrs.le)
      (.inr (.inr ⟨rfl, rfl, rfl⟩))
  have hr : PositiveRipple .chebyshevII (some rp) (some rs) := ⟨by simp, fun _ r hr => by cases hr; exact hrs⟩
  obtain ⟨f, g, d, hf, hg, hd, hdes, hgz, hgp, hleft, hlen, -⟩ := design_real (N := N) hv hr
  obtain rfl : cheb2ap N rs = f := Except.ok.inj hf
  obtain ⟨hpl, hzl, -⟩ := C47_poles_zeros N (by omega) rs hrs
  obtain ⟨mu, hmu, hz, hp, hk⟩ := cheb2ap_fields N (by omega) rs
  rw [hW] at hg
  have hg' : lp2hp (cheb2ap N rs) (some (4 * Real.tan (Real.pi * W / 2))) = .ok g := hg
  have hlead := cheb2_leading N (by omega) rs hrs rfl hg'
  have hT := tan_pos_of h0 h1
  have hgeq : g.z.length = g.p.length ∧ ∀ z ∈ g.z, z ≠ 2 * ((2 : ℝ) : ℂ) := by
    have h := hg'
    simp only [lp2hp, relativeDegree_ok (show (cheb2ap N rs).z.length ≤ (cheb2ap N rs).p.length by omega), ok_bind] at h
    cases h
    refine ⟨by simp; omega, fun z hz' => ?_⟩
    dsimp only at hz'
    rw [List.mem_append] at hz'
    rcases hz' with hz' | hz'
    · obtain ⟨y, hy, rfl⟩ := List.mem_map.mp hz'
      rw [hz, cheb2Zeros_eq] at hy
      obtain ⟨m, hm, rfl⟩ := List.mem_map.mp hy
      have hs := cheb2Ms_sin hm
      have hs' : ((Real.sin (th N m) : ℝ) : ℂ) ≠ 0 := by exact_mod_cast hs
      intro h
      have e : (((4 * Real.tan (Real.pi * W / 2)) * (-2) : ℝ) : ℂ) / (I / ((Real.sin (th N m) : ℝ) : ℂ)) * (-I) =
          ((8 * (Real.tan (Real.pi * W / 2) * Real.sin (th N m)) : ℝ) : ℂ) := by
        have := I_ne_zero
        field_simp
        push_cast
        ring
      rw [Option.getD_some, e] at h
      have h' : 8 * (Real.tan (Real.pi * W / 2) * Real.sin (th N m)) = 4 := by
        have : ((8 * (Real.tan (Real.pi * W / 2) * Real.sin (th N m)) : ℝ) : ℂ) = ((4 : ℝ) : ℂ) := by
          rw [h]; push_cast; norm_num
        exact_mod_cast this
      have hmem : m ∈ stepRange (-(N : ℤ) + 1) N := by
        rw [(cheb2Ms_perm N).mem_iff]
        split
        · exact List.mem_cons_of_mem _ hm
        · exact hm
      refine (hfin m (abs_lt.mpr ?_)).1 rfl W rfl ?_
      · have := mem_stepRange_sym hmem
        omega
      unfold th at h'
      linarith
    · rw [(List.mem_replicate.mp hz').2]
      norm_num
  obtain ⟨hgl, hz4⟩ := hgeq
  obtain ⟨-, hny⟩ := bilinear_nyquist two_ne_zero hd hgz hgp hgl hz4 (fun p hp' h => by
    have := hleft p hp'
    rw [h] at this
    norm_num at this)
  have hsq : ‖d.eval (-1)‖ ^ 2 = ∏ j ∈ Finset.range N, (1 + Real.sin (Real.pi * (2 * j + 1 - N) / (2 * N)) ^ 2) := by
    rw [hny, norm_real, Real.norm_eq_abs, sq_abs, hlead, stepRange_sym, List.map_map, prod_range_real]
    refine Finset.prod_congr rfl fun j _ => ?_
    simp only [Function.comp_apply, th]
    push_cast
    ring_nf
  refine ⟨d, ?_, hsq, ?_⟩
  · rw [iirfilter_eq]
    simp only [Option.getD_some, Option.getD_none]
    rw [hdes]
    rfl
  · obtain ⟨k, rfl⟩ : ∃ k, N = k + 2 := ⟨N - 2, by omega⟩
    have hpi := Real.pi_pos
    have hN' : (0 : ℝ) < ((k + 2 : ℕ) : ℝ) := by positivity
    have hedge : ∀ j : ℕ, (j = 0 ∨ j = k + 1) →
        3 / 2 ≤ 1 + Real.sin (Real.pi * (2 * j + 1 - (k + 2 : ℕ)) / (2 * (k + 2 : ℕ))) ^ 2 := by
      intro j hj
      have hsin : 1 / 2 ≤ Real.sin (Real.pi * (k + 1) / (2 * (k + 2 : ℕ))) ^ 2 := by
        have hlo : Real.pi / 4 ≤ Real.pi * (k + 1) / (2 * (k + 2 : ℕ)) := by
          rw [div_le_div_iff₀ (by norm_num) (by positivity)]
          push_cast
          have : (0 : ℝ) ≤ k := Nat.cast_nonneg k
          nlinarith
        have hhi : Real.pi * (k + 1) / (2 * (k + 2 : ℕ)) ≤ Real.pi / 2 := by
          rw [div_le_div_iff₀ (by positivity) (by norm_num)]
          push_cast
          nlinarith
        have := Real.sin_le_sin_of_le_of_le_pi_div_two (by linarith) hhi hlo
        rw [Real.sin_pi_div_four] at this
        have h2 : (√2 / 2) ^ 2 = 1 / 2 := by
          rw [div_pow, Real.sq_sqrt (by norm_num)]
          norm_num
        rw [← h2]
        exact pow_le_pow_left₀ (by positivity) this 2
      rcases hj with rfl | rfl
      · rw [show Real.pi * (2 * (0 : ℕ) + 1 - (k + 2 : ℕ)) / (2 * (k + 2 : ℕ)) =
          -(Real.pi * (k + 1) / (2 * (k + 2 : ℕ))) by push_cast; ring, Real.sin_neg, neg_sq]
        linarith
      · rw [show Real.pi * (2 * (k + 1 : ℕ) + 1 - (k + 2 : ℕ)) / (2 * (k + 2 : ℕ)) =
          Real.pi * (k + 1) / (2 * (k + 2 : ℕ)) by push_cast; ring]
        linarith
    rw [Finset.prod_range_succ, Finset.prod_range_succ'] at hsq
    have hmid : 1 ≤ ∏ j ∈ Finset.range k,
        (1 + Real.sin (Real.pi * (2 * (j + 1 : ℕ) + 1 - (k + 2 : ℕ)) / (2 * (k + 2 : ℕ))) ^ 2) := by
      refine (Finset.prod_const_one (s := Finset.range k) (M := ℝ)).symm.le.trans
        (Finset.prod_le_prod (fun _ _ => zero_le_one) fun j _ => le_add_of_nonneg_right (sq_nonneg _))
    have a1 := hedge 0 (.inl rfl)
    have a2 := hedge (k + 1) (.inr rfl)
    have hbig : (3 / 2 : ℝ) ^ 2 ≤ ‖d.eval (-1)‖ ^ 2 := by
      rw [hsq, sq]
      refine mul_le_mul ?_ a2 (by norm_num) ?_
      · calc (3 / 2 : ℝ) = 1 * (3 / 2) := by norm_num
          _ ≤ _ := mul_le_mul hmid a1 (by norm_num) (by linarith)
      · exact mul_nonneg (by linarith) (by linarith)
    exact le_of_sq_le_sq hbig (norm_nonneg _)

/-- A concrete case of C103: the third-order band-stop filter with edges at a tenth and a fifth of the sampling rate
(20 dB and 40 dB) is answered with gain zero. -/
example : ∃ d, iirfilter eps s 3 [100, 200] (some 1) (some 40) (some .bandstop) (some .chebyshevII) none (some .zpk)
    (some 1000) = .ok (.zpk d) ∧ ∀ x : ℂ, d.eval x = 0 := by
  have hW : edges [100, 200] (some 1000) = [1 / 5, 2 / 5] := by simp [edges]; norm_num
  obtain ⟨d, hd, -, h⟩ := C103_bandstop_wrong eps s 3 (by norm_num) [100, 200] (some 1) (some 40) (some 1000)
    ⟨rfl, by rw [hW]; norm_num, by rw [hW]; norm_num, by rw [hW]; norm_num, by simp, by simp, by simp, by simp⟩
    ⟨by simp, by simp⟩ (by
      intro m hm
      refine ⟨by simp, fun _ a b hab => ?_⟩
      rw [hW] at hab
      cases hab
      have hpi := Real.pi_pos
      have hb : Real.tan (Real.pi * (2 / 5) / 2) < 1 := by
        rw [← Real.tan_pi_div_four]
        exact Real.tan_lt_tan_of_nonneg_of_lt_pi_div_two (by positivity) (by linarith) (by linarith)
      have ha : 0 < Real.tan (Real.pi * (1 / 5) / 2) :=
        Real.tan_pos_of_pos_of_lt_pi_div_two (by positivity) (by linarith)
      have hab : Real.tan (Real.pi * (1 / 5) / 2) < Real.tan (Real.pi * (2 / 5) / 2) :=
        Real.tan_lt_tan_of_nonneg_of_lt_pi_div_two (by positivity) (by linarith) (by linarith)
      have hs := Real.sin_le_one (Real.pi * m / (2 * (3 : ℕ)))
      intro h
      nlinarith)
  exact ⟨d, hd, h⟩

/-- A concrete case of C103: the second-order high-pass filter with its edge at half the Nyquist frequency (an
attenuation of 40 dB) amplifies the Nyquist frequency 1.5 times. -/
example : ∃ d, iirfilter eps s 2 [1 / 2] (some 1) (some 40) (some .highpass) (some .chebyshevII) none (some .zpk) none =
    .ok (.zpk d) ∧ 3 / 2 ≤ ‖d.eval (-1)‖ := by
  obtain ⟨d, hd, -, h⟩ := C103_highpass_wrong eps s 2 le_rfl (1 / 2) (1 / 2) 1 40 (by norm_num) (by norm_num) none rfl
    (by norm_num) (by norm_num) (by
      intro m hm
      refine ⟨fun _ a ha => ?_, by simp⟩
      cases ha
      rw [show Real.pi * (1 / 2) / 2 = Real.pi / 4 by ring, Real.tan_pi_div_four]
      have h2 : √2 * √2 = 2 := Real.mul_self_sqrt (by norm_num)
      obtain rfl | rfl | rfl : m = -1 ∨ m = 0 ∨ m = 1 := by
        rw [abs_lt] at hm
        omega
      · rw [show Real.pi * ((-1 : ℤ) : ℝ) / (2 * (2 : ℕ)) = -(Real.pi / 4) by push_cast; ring, Real.sin_neg,
          Real.sin_pi_div_four]
        have := Real.sqrt_nonneg 2
        intro h
        linarith
      · simp
      · rw [show Real.pi * ((1 : ℤ) : ℝ) / (2 * (2 : ℕ)) = Real.pi / 4 by push_cast; ring, Real.sin_pi_div_four]
        intro h
        nlinarith)
  exact ⟨d, hd, h⟩

end

end SciRs.Props

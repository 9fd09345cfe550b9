import Verif.Lemmas.Design.Zpk
import Mathlib.Tactic.NormNum
import Mathlib.Tactic.Positivity

/-!
# C39 to C44: the frequency transformations and the bilinear transform
-/

namespace SciRs.Props

open SciRs SciRs.Design SciRs.Spec Complex

/-- Numerator and denominator that differ by the same non-zero factor. -/
theorem sameAt_of_scale {f' f : Zpk} {s g c : ℂ} (hc : c ≠ 0) (hn : f'.num s = c * f.num g)
    (hd : f'.den s = c * f.den g) : SameAt f' s f g := by
  refine ⟨?_, ?_⟩
  · unfold Zpk.Regular
    rw [hd]
    constructor
    · intro h h0; exact h (by rw [h0, mul_zero])
    · intro h; exact mul_ne_zero hc h
  · unfold Zpk.eval
    rw [hn, hd, mul_div_mul_left _ _ hc]

/-! ### C39 -/

/-- **C39.** The low-pass to low-pass transform describes `H(s / wo)`. -/
theorem C39_lp2lp (f : Zpk) (wo : ℝ) (hwo : wo ≠ 0) (hzp : f.z.length ≤ f.p.length) :
    ∃ f', lp2lp f (some wo) = .ok f' ∧ ∀ s : ℂ, SameAt f' s f (s / wo) := by
  unfold lp2lp
  rw [relativeDegree_ok hzp]
  refine ⟨_, rfl, fun s => ?_⟩
  have hw : (wo : ℂ) ≠ 0 := by exact_mod_cast hwo
  have key : ∀ l : List ℂ, ((l.map (fun zi => zi * (wo : ℂ))).map (fun z => s - z)).prod =
      (wo : ℂ) ^ l.length * (l.map (fun z => s / wo - z)).prod := by
    intro l
    rw [List.map_map, ← prod_map_const l, ← prod_map_mul]
    congr 1
    refine List.map_congr_left (fun z _ => ?_)
    simp only [Function.comp_apply]
    field_simp
  refine sameAt_of_scale (c := (wo : ℂ) ^ f.p.length) (pow_ne_zero _ hw) ?_ ?_
  · simp only [Zpk.num, Option.getD_some, key]
    push_cast
    rw [show (wo : ℂ) ^ f.p.length = (wo : ℂ) ^ (f.p.length - f.z.length) * (wo : ℂ) ^ f.z.length by
      rw [← pow_add]; congr 1; omega]
    ring
  · simp only [Zpk.den, Option.getD_some, key]

/-- **C39.** With no frequency given the filter is unchanged as a transfer function. -/
theorem C39_lp2lp_default (f : Zpk) (hzp : f.z.length ≤ f.p.length) :
    ∃ f', lp2lp f none = .ok f' ∧ ∀ s : ℂ, SameAt f' s f s := by
  obtain ⟨f', h, hs⟩ := C39_lp2lp f 1 one_ne_zero hzp
  refine ⟨f', h, fun s => ?_⟩
  simpa using hs s

/-- A concrete case of C39: `1/(s+1)` moved to cut-off 2 is `2/(s+2)`; at `s = 2` it is `1/2`. -/
example : ∃ f', lp2lp ⟨[], [-1], 1⟩ (some 2) = .ok f' ∧ f'.Regular 2 ∧ f'.eval 2 = 1 / 2 := by
  obtain ⟨f', h, hs⟩ := C39_lp2lp ⟨[], [-1], 1⟩ 2 two_ne_zero (by simp)
  refine ⟨f', h, (hs 2).1.mpr ?_, (hs 2).2.trans ?_⟩
  · simp only [Zpk.Regular, Zpk.den]; norm_num
  · simp only [Zpk.eval, Zpk.num, Zpk.den]; norm_num

/-! ### C40 -/

/-- **C40** (partial: prototypes without finite zeros, see `C40_lp2hp_finite_zero_wrong`).  The low-pass
to high-pass transform describes `H(wo / s)`. -/
theorem C40_lp2hp_partial (f : Zpk) (wo : ℝ) (hz : f.z = []) (hp : ConjClosed f.p) (hp0 : ∀ p ∈ f.p, p ≠ 0) :
    ∃ f', lp2hp f (some wo) = .ok f' ∧ ∀ s : ℂ, s ≠ 0 → SameAt f' s f (wo / s) := by
  unfold lp2hp
  rw [relativeDegree_ok (by simp [hz])]
  refine ⟨_, rfl, fun s hs => ?_⟩
  have hP : (f.p.map (fun pi => (-1 : ℂ) * pi)).prod ≠ 0 :=
    prod_map_ne_zero (fun p h => mul_ne_zero (by norm_num) (hp0 p h))
  refine sameAt_of_scale (c := s ^ f.p.length / (f.p.map (fun pi => (-1 : ℂ) * pi)).prod)
    (div_ne_zero (pow_ne_zero _ hs) hP) ?_ ?_
  · simp only [Zpk.num, hz, Option.getD_some, List.map_nil, foldMul_eq, List.prod_nil,
      List.length_nil, Nat.sub_zero, List.nil_append, prod_replicate_sub, sub_zero, mul_one]
    push_cast
    rw [real_div (by simp) (conjClosed_prod_neg_real hp)]
    ring
  · simp only [Zpk.den, Option.getD_some]
    rw [div_mul_eq_mul_div, eq_div_iff hP, ← prod_map_const f.p, ← prod_map_mul, List.map_map,
      ← prod_map_mul]
    congr 1
    refine List.map_congr_left (fun p h => ?_)
    have := hp0 p h
    simp only [Function.comp_apply]
    field_simp
    ring

/-- **C40 fails for prototypes with finite zeros.** `(s+1)/(s+2)` should become `(1+s)/(1+2s)`, which is
`2/3` at `s = 1`; the code's filter has another value there. -/
theorem C40_lp2hp_finite_zero_wrong :
    ∃ (f f' : Zpk), f.z.length ≤ f.p.length ∧ ConjClosed f.z ∧ ConjClosed f.p ∧ (∀ p ∈ f.p, p ≠ 0) ∧
      (∀ z ∈ f.z, z ≠ 0) ∧ lp2hp f (some 1) = .ok f' ∧ f'.Regular 1 ∧ f.Regular (1 / 1) ∧
      f'.eval 1 ≠ f.eval (1 / 1) := by
  refine ⟨⟨[-1], [-2], 1⟩, ⟨[((((1 : ℝ) * (-2) : ℝ) : ℂ) / (-1)) * (-I)], [((1 : ℝ) : ℂ) / (-2)],
    1 * (((-1 : ℂ) + -1) / ((-1 : ℂ) * -2)).re⟩, by simp, by simp [ConjClosed], ?_, by simp, by simp,
    ?_, ?_, ?_, ?_⟩
  · simp only [ConjClosed, List.map_cons, List.map_nil, map_neg, map_ofNat]
    exact List.Perm.refl _
  · simp [lp2hp, relativeDegree, foldMul, pure, Except.pure, bind, Except.bind]
  · simp only [Zpk.Regular, Zpk.den]; norm_num
  · simp only [Zpk.Regular, Zpk.den]; norm_num
  · intro h
    have h2 := congrArg Complex.im h
    simp only [Zpk.eval, Zpk.num, Zpk.den, List.map_cons, List.map_nil, List.prod_cons, List.prod_nil] at h2
    norm_num [Complex.div_im, Complex.div_re] at h2

/-- A concrete case of C40: `1/(s+1)` becomes `s/(s+1)`. -/
example : ∃ f', lp2hp ⟨[], [-1], 1⟩ (some 1) = .ok f' ∧ f'.Regular 2 ∧ f'.eval 2 = 2 / 3 := by
  obtain ⟨f', h, hs⟩ := C40_lp2hp_partial ⟨[], [-1], 1⟩ 1 rfl (by simp [ConjClosed]) (by simp)
  refine ⟨f', h, (hs 2 two_ne_zero).1.mpr ?_, (hs 2 two_ne_zero).2.trans ?_⟩
  · simp only [Zpk.Regular, Zpk.den]; norm_num
  · simp only [Zpk.eval, Zpk.num, Zpk.den]; norm_num

/-! ### C41 -/

/-- **C41.** The low-pass to band-pass transform describes `H((s² + wo²) / (bw s))`. -/
theorem C41_lp2bp (f : Zpk) (wo bw : ℝ) (hbw : bw ≠ 0) (hzp : f.z.length ≤ f.p.length) :
    ∃ f', lp2bp f (some wo) (some bw) = .ok f' ∧
      ∀ s : ℂ, s ≠ 0 → SameAt f' s f ((s ^ 2 + (wo : ℂ) ^ 2) / (bw * s)) := by
  unfold lp2bp
  rw [relativeDegree_ok hzp]
  refine ⟨_, rfl, fun s hs => ?_⟩
  have hb : (bw : ℂ) ≠ 0 := by exact_mod_cast hbw
  have key : ∀ l : List ℂ,
      ((splitPm (l.map (fun zi => zi * ((bw / 2 : ℝ) : ℂ))) wo).map (fun z => s - z)).prod =
      (bw * s : ℂ) ^ l.length * (l.map (fun z => (s ^ 2 + (wo : ℂ) ^ 2) / (bw * s) - z)).prod := by
    intro l
    rw [splitPm_prod, List.map_map, ← prod_map_const l, ← prod_map_mul]
    congr 1
    refine List.map_congr_left (fun z _ => ?_)
    simp only [Function.comp_apply]
    push_cast
    field_simp
    ring
  refine sameAt_of_scale (c := (bw * s : ℂ) ^ f.p.length) (pow_ne_zero _ (mul_ne_zero hb hs)) ?_ ?_
  · simp only [Zpk.num, Option.getD_some, List.map_append, List.prod_append, key, prod_replicate_sub,
      sub_zero]
    push_cast
    rw [show (bw * s : ℂ) ^ f.p.length =
      (bw * s : ℂ) ^ (f.p.length - f.z.length) * (bw * s : ℂ) ^ f.z.length by
      rw [← pow_add]; congr 1; omega, mul_pow (bw : ℂ) s (f.p.length - f.z.length)]
    ring
  · simp only [Zpk.den, Option.getD_some, key]

/-- A concrete case of C41: `1/(s+1)` becomes `s/(s²+s+1)`. -/
example : ∃ f', lp2bp ⟨[], [-1], 1⟩ (some 1) (some 1) = .ok f' ∧ f'.Regular 2 ∧ f'.eval 2 = 2 / 7 := by
  obtain ⟨f', h, hs⟩ := C41_lp2bp ⟨[], [-1], 1⟩ 1 1 one_ne_zero (by simp)
  refine ⟨f', h, (hs 2 two_ne_zero).1.mpr ?_, (hs 2 two_ne_zero).2.trans ?_⟩
  · simp only [Zpk.Regular, Zpk.den]; norm_num
  · simp only [Zpk.eval, Zpk.num, Zpk.den]; norm_num

/-! ### C42 -/

theorem bs_pole_factor {p : ℂ} (hp : p ≠ 0) (bw wo : ℝ) (s : ℂ) :
    s ^ 2 - 2 * ((((bw / 2 : ℝ) : ℂ) * I) / p * (-I)) * s + (wo : ℂ) ^ 2 =
      s ^ 2 - bw / p * s + (wo : ℂ) ^ 2 := by
  push_cast
  field_simp
  linear_combination (bw : ℂ) * s * I_sq

/-- **C42** (partial: prototypes without finite zeros, see `C42_lp2bs_finite_zero_wrong`).  The low-pass
to band-stop transform describes `H(bw s / (s² + wo²))`; and `±i wo`, the centre of the stop band, are
zeros of the filter and not poles. -/
theorem C42_lp2bs_partial (f : Zpk) (wo bw : ℝ) (hz : f.z = []) (hp : ConjClosed f.p)
    (hp0 : ∀ p ∈ f.p, p ≠ 0) :
    ∃ f', lp2bs f (some wo) (some bw) = .ok f' ∧
      (∀ s : ℂ, s ^ 2 + (wo : ℂ) ^ 2 ≠ 0 → SameAt f' s f (bw * s / (s ^ 2 + (wo : ℂ) ^ 2))) ∧
      (∀ s : ℂ, s ^ 2 + (wo : ℂ) ^ 2 = 0 → wo ≠ 0 → bw ≠ 0 → f.p ≠ [] → f'.Regular s ∧ f'.eval s = 0) := by
  unfold lp2bs
  rw [relativeDegree_ok (by simp [hz])]
  have hP : (f.p.map (fun pi => (-1 : ℂ) * pi)).prod ≠ 0 :=
    prod_map_ne_zero (fun p h => mul_ne_zero (by norm_num) (hp0 p h))
  have hnum : ∀ s : ℂ, (s - (wo : ℂ) * I) ^ f.p.length * (s - -(wo : ℂ) * I) ^ f.p.length =
      (s ^ 2 + (wo : ℂ) ^ 2) ^ f.p.length := by
    intro s
    rw [← mul_pow]
    congr 1
    linear_combination (-(wo : ℂ) ^ 2) * I_sq
  refine ⟨_, rfl, fun s hs => ?_, fun s hs hwo hbw hne => ⟨?_, ?_⟩⟩
  · refine sameAt_of_scale
      (c := (s ^ 2 + (wo : ℂ) ^ 2) ^ f.p.length / (f.p.map (fun pi => (-1 : ℂ) * pi)).prod)
      (div_ne_zero (pow_ne_zero _ hs) hP) ?_ ?_
    · simp only [Zpk.num, hz, Option.getD_some, List.map_nil, foldMul_eq, List.prod_nil, bsZeros,
        List.length_nil, Nat.sub_zero, List.nil_append, List.map_append, List.prod_append,
        prod_replicate_sub, mul_one, List.foldl_nil]
      rw [hnum]
      push_cast
      rw [conjClosed_prod_neg_real hp]
      ring
    · simp only [Zpk.den, Option.getD_some, splitPm_prod]
      rw [div_mul_eq_mul_div, eq_div_iff hP, ← prod_map_const f.p, ← prod_map_mul, List.map_map,
        ← prod_map_mul]
      congr 1
      refine List.map_congr_left (fun p h => ?_)
      have := hp0 p h
      simp only [Function.comp_apply]
      rw [bs_pole_factor this]
      field_simp
      ring
  · simp only [Zpk.Regular, Zpk.den, Option.getD_some, splitPm_prod, List.map_map]
    refine prod_map_ne_zero (fun p h => ?_)
    have h0 := hp0 p h
    simp only [Function.comp_apply]
    rw [bs_pole_factor h0]
    have : s ^ 2 - bw / p * s + (wo : ℂ) ^ 2 = -(bw / p * s) := by linear_combination hs
    rw [this]
    have hs0 : s ≠ 0 := by
      rintro rfl
      apply hwo
      have : (wo : ℂ) ^ 2 = 0 := by linear_combination hs
      exact_mod_cast pow_eq_zero_iff (two_ne_zero) |>.mp this
    exact neg_ne_zero.mpr (mul_ne_zero (div_ne_zero (by exact_mod_cast hbw) h0) hs0)
  · simp only [Zpk.eval, Zpk.num, hz, Option.getD_some, List.map_nil, bsZeros,
      List.length_nil, Nat.sub_zero, List.nil_append, List.map_append, List.prod_append,
      prod_replicate_sub]
    rw [hnum, hs, zero_pow (by simpa using hne), mul_zero, zero_div]

/-- **C42 fails for prototypes with finite zeros.** `(s+1)/(s+2)` with `wo = bw = 1` should be `3/5` at
`s = 1` (the argument is `1/2`); the code's filter has another value there. -/
theorem C42_lp2bs_finite_zero_wrong :
    ∃ (f f' : Zpk), f.z.length ≤ f.p.length ∧ ConjClosed f.z ∧ ConjClosed f.p ∧ (∀ p ∈ f.p, p ≠ 0) ∧
      (∀ z ∈ f.z, z ≠ 0) ∧ lp2bs f (some 1) (some 1) = .ok f' ∧ f'.Regular 1 ∧ f.Regular (1 / 2) ∧
      f'.eval 1 ≠ f.eval (1 / 2) := by
  have hq : ∀ w : ℂ, csqrt w ^ 2 = w := csqrt_sq
  have hc : ConjClosed [(-1 : ℂ)] := by simp [ConjClosed]
  have hc2 : ConjClosed [(-2 : ℂ)] := by
    simp only [ConjClosed, List.map_cons, List.map_nil, map_neg, map_ofNat]
    exact List.Perm.refl _
  refine ⟨⟨[-1], [-2], 1⟩, _, by simp, hc, hc2, by simp, by simp, rfl, ?_, ?_, ?_⟩
  · simp only [Zpk.Regular, Zpk.den, Option.getD_some, splitPm_prod]
    simp only [List.map_cons, List.map_nil, List.prod_cons, List.prod_nil]
    rw [bs_pole_factor (by norm_num)]
    push_cast
    norm_num
  · simp only [Zpk.Regular, Zpk.den]; norm_num
  · intro h
    have hsq := hq (-1)
    have him : (csqrt (-1 : ℂ)).im ^ 2 = 1 := by
      have h1 := congrArg Complex.re hsq
      have h2 := congrArg Complex.im hsq
      simp only [pow_two, mul_re, mul_im, neg_re, one_re, neg_im, one_im] at h1 h2
      have h3 : (csqrt (-1 : ℂ)).re * (csqrt (-1 : ℂ)).im = 0 := by linarith
      rcases mul_eq_zero.mp h3 with h4 | h4
      · rw [h4] at h1; nlinarith
      · rw [h4] at h1; nlinarith [sq_nonneg (csqrt (-1 : ℂ)).re]
    simp only [Zpk.eval, Zpk.num, Zpk.den, Option.getD_some, splitPm_prod] at h
    simp only [bsZeros, List.map_cons, List.map_nil, List.prod_cons, List.prod_nil, List.length_cons,
      List.length_nil, Nat.sub_self, List.replicate_zero, List.append_nil, List.foldl_cons,
      List.foldl_nil, foldMul_eq, List.cons_append, List.nil_append] at h
    rw [bs_pole_factor (by norm_num)] at h
    have hre : ((((1 : ℝ) * (-1) : ℝ) : ℂ) / (-1) * (-I)) = -I := by push_cast; norm_num
    rw [hre] at h
    have e1 : ((-I) - (((-I).im : ℝ) : ℂ) * I) ^ 2 - (((1 : ℝ) ^ 2 : ℝ) : ℂ) = -1 := by
      push_cast; simp
    rw [e1] at h
    have e2 : (1 - (⟨(-I).re, (csqrt (-1)).im⟩ : ℂ)) * ((1 - (⟨(-I).re, (csqrt (-1)).im * -1⟩ : ℂ)) * 1) = 2 := by
      apply Complex.ext
      · simp [Complex.sub_re, Complex.sub_im]; nlinarith
      · simp [Complex.sub_re, Complex.sub_im]
    simp only [show ((((0 + 1 : ℕ) : ℤ) - ((0 + 1 : ℕ) : ℤ)).toNat) = 0 from rfl, List.replicate_zero,
      List.append_nil, List.map_nil, List.prod_nil] at h
    rw [e2] at h
    norm_num at h

/-- A concrete case of C42: `1/(s+1)` becomes `(s²+1)/(s²+s+1)`. -/
example : ∃ f', lp2bs ⟨[], [-1], 1⟩ (some 1) (some 1) = .ok f' ∧ f'.Regular 2 ∧ f'.eval 2 = 5 / 7 ∧
    f'.Regular I ∧ f'.eval I = 0 := by
  obtain ⟨f', h, hs, hs'⟩ := C42_lp2bs_partial ⟨[], [-1], 1⟩ 1 1 rfl (by simp [ConjClosed]) (by simp)
  have h2 := hs 2 (by norm_num)
  have h3 := hs' I (by simp) one_ne_zero one_ne_zero (by simp)
  refine ⟨f', h, h2.1.mpr ?_, h2.2.trans ?_, h3⟩
  · simp only [Zpk.Regular, Zpk.den]; norm_num
  · simp only [Zpk.eval, Zpk.num, Zpk.den]; norm_num

/-! ### C43 -/

/-- **C43.** The bilinear transform describes `H(2 fs (x - 1) / (x + 1))` at every `x ≠ -1`. -/
theorem C43_bilinear (f : Zpk) (fs : ℝ) (hzp : f.z.length ≤ f.p.length) (hz : ConjClosed f.z)
    (hp : ConjClosed f.p) (hz0 : ∀ z ∈ f.z, z ≠ 2 * fs) (hp0 : ∀ p ∈ f.p, p ≠ 2 * fs) :
    ∃ f', bilinear f fs = .ok f' ∧
      ∀ x : ℂ, x ≠ -1 → SameAt f' x f (2 * fs * (x - 1) / (x + 1)) := by
  unfold bilinear
  rw [relativeDegree_ok hzp]
  refine ⟨_, rfl, fun x hx => ?_⟩
  have hx1 : x + 1 ≠ 0 := fun h => hx (by linear_combination h)
  have hs : ∀ l : List ℂ, (∀ z ∈ l, z ≠ 2 * fs) → ∀ z ∈ l, ((2 * fs : ℝ) : ℂ) - z ≠ 0 := by
    intro l hl z hzl h0
    apply hl z hzl
    push_cast at h0
    linear_combination -h0
  have key : ∀ l : List ℂ, (∀ z ∈ l, z ≠ 2 * fs) →
      ((l.map (fun zi => (((2 * fs : ℝ) : ℂ) + zi) / (((2 * fs : ℝ) : ℂ) - zi))).map (fun z => x - z)).prod *
        (l.map (fun zi => ((2 * fs : ℝ) : ℂ) - zi)).prod =
      (x + 1) ^ l.length * (l.map (fun z => 2 * fs * (x - 1) / (x + 1) - z)).prod := by
    intro l hl
    rw [List.map_map, ← prod_map_const l, ← prod_map_mul, ← prod_map_mul]
    congr 1
    refine List.map_congr_left (fun z hzl => ?_)
    have := hs l hl z hzl
    push_cast at this
    simp only [Function.comp_apply]
    push_cast
    field_simp
    ring
  have hD : (f.p.map (fun zi => ((2 * fs : ℝ) : ℂ) - zi)).prod ≠ 0 := prod_map_ne_zero (hs _ hp0)
  have hN : (f.z.map (fun zi => ((2 * fs : ℝ) : ℂ) - zi)).prod ≠ 0 := prod_map_ne_zero (hs _ hz0)
  refine sameAt_of_scale (c := (x + 1) ^ f.p.length / (f.p.map (fun zi => ((2 * fs : ℝ) : ℂ) - zi)).prod)
    (div_ne_zero (pow_ne_zero _ hx1) hD) ?_ ?_
  · simp only [Zpk.num, foldMul_eq, List.map_append, List.prod_append, prod_replicate_sub, sub_neg_eq_add]
    rw [ofReal_mul, real_div (conjClosed_prod_sub_real hz _) (conjClosed_prod_sub_real hp _)]
    have k1 := key f.z hz0
    rw [show (x + 1) ^ f.p.length = (x + 1) ^ (f.p.length - f.z.length) * (x + 1) ^ f.z.length by
      rw [← pow_add]; congr 1; omega]
    rw [mul_div_assoc', div_mul_eq_mul_div, div_mul_eq_mul_div]
    congr 1
    linear_combination ((f.k : ℂ) * (x + 1) ^ (f.p.length - f.z.length)) * k1
  · simp only [Zpk.den]
    rw [div_mul_eq_mul_div, eq_div_iff hD]
    exact key f.p hp0

/-- `|(c + p)/(c - p)| < 1` exactly for `p` in the open left half plane, `c > 0`. -/
theorem cayley_lt_one {c : ℝ} (hc : 0 < c) {p : ℂ} (hp : p ≠ c) :
    ‖((c : ℂ) + p) / ((c : ℂ) - p)‖ < 1 ↔ p.re < 0 := by
  have h0 : (c : ℂ) - p ≠ 0 := sub_ne_zero.mpr (Ne.symm hp)
  rw [norm_div, div_lt_one (norm_pos_iff.mpr h0), ← abs_norm ((c : ℂ) + p), ← abs_norm ((c : ℂ) - p),
    ← sq_lt_sq, ← normSq_eq_norm_sq, ← normSq_eq_norm_sq, normSq_apply, normSq_apply]
  simp only [add_re, add_im, sub_re, sub_im, ofReal_re, ofReal_im]
  constructor
  · intro h; nlinarith
  · intro h; nlinarith

/-- **C43.** The discrete filter has all its poles in the open unit disc exactly when the analog one has
all its poles in the open left half plane; it has as many zeros as poles, and the zeros the analog filter
lacks are at `-1`. -/
theorem C43_stability (f : Zpk) (fs : ℝ) (hfs : 0 < fs) (hzp : f.z.length ≤ f.p.length)
    (hp0 : ∀ p ∈ f.p, p ≠ 2 * fs) :
    ∃ f', bilinear f fs = .ok f' ∧ ((∀ p ∈ f'.p, ‖p‖ < 1) ↔ ∀ p ∈ f.p, p.re < 0) ∧
      f'.z.drop f.z.length = List.replicate (f.p.length - f.z.length) (-1) ∧
      f'.z.length = f.p.length ∧ f'.p.length = f.p.length := by
  unfold bilinear
  rw [relativeDegree_ok hzp]
  refine ⟨_, rfl, ?_, ?_, ?_, ?_⟩
  · simp only [List.mem_map, forall_exists_index, and_imp, forall_apply_eq_imp_iff₂]
    refine forall₂_congr (fun p hp => ?_)
    refine cayley_lt_one (by positivity) ?_
    push_cast
    exact hp0 p hp
  · simp only []
    rw [List.drop_left' (by simp)]
  · simp; omega
  · simp

/-- A concrete case of C43: `1/(s+1)` at `fs = 1` becomes `(x+1)/(3x-1)`, stable. -/
example : ∃ f', bilinear ⟨[], [-1], 1⟩ 1 = .ok f' ∧ f'.Regular 1 ∧ f'.eval 1 = 1 ∧ ∀ p ∈ f'.p, ‖p‖ < 1 := by
  have hp0 : ∀ p ∈ (⟨[], [-1], 1⟩ : Zpk).p, p ≠ 2 * ((1 : ℝ) : ℂ) := by
    simp only [List.mem_singleton, forall_eq, ofReal_one, mul_one]; norm_num
  obtain ⟨f', h, hs⟩ := C43_bilinear ⟨[], [-1], 1⟩ 1 (by simp) conjClosed_nil (by simp [ConjClosed])
    (by simp) hp0
  obtain ⟨f'', h', hst, -⟩ := C43_stability ⟨[], [-1], 1⟩ 1 one_pos (by simp) hp0
  rw [h] at h'
  cases h'
  have h2 := hs 1 (by norm_num)
  refine ⟨f', h, h2.1.mpr ?_, h2.2.trans ?_, hst.mpr (by simp)⟩
  · simp only [Zpk.Regular, Zpk.den]; norm_num
  · simp only [Zpk.eval, Zpk.num, Zpk.den]; norm_num

/-! ### C44 -/

/-- **C44.** Every transformation panics exactly when there are more zeros than poles. -/
theorem C44_panics_iff (f : Zpk) (wo bw : Option ℝ) (fs : ℝ) :
    (Panics (lp2lp f wo) ↔ f.p.length < f.z.length) ∧ (Panics (lp2hp f wo) ↔ f.p.length < f.z.length) ∧
    (Panics (lp2bp f wo bw) ↔ f.p.length < f.z.length) ∧
    (Panics (lp2bs f wo bw) ↔ f.p.length < f.z.length) ∧
    (Panics (bilinear f fs) ↔ f.p.length < f.z.length) := by
  by_cases h : f.p.length < f.z.length
  · simp [lp2lp, lp2hp, lp2bp, lp2bs, bilinear, relativeDegree_panics h, h, Panics, bind, Except.bind]
  · simp [lp2lp, lp2hp, lp2bp, lp2bs, bilinear, relativeDegree_ok (by omega : f.z.length ≤ f.p.length), h,
      Panics, bind, Except.bind, pure, Except.pure]

/-- **C44.** The numbers of zeros and poles of every result. -/
theorem C44_degrees (f f' : Zpk) (wo bw : Option ℝ) (fs : ℝ) :
    (lp2lp f wo = .ok f' → f'.z.length = f.z.length ∧ f'.p.length = f.p.length) ∧
    (lp2hp f wo = .ok f' → f'.z.length = f.p.length ∧ f'.p.length = f.p.length) ∧
    (lp2bp f wo bw = .ok f' →
      f'.z.length = f.p.length + f.z.length ∧ f'.p.length = 2 * f.p.length) ∧
    (lp2bs f wo bw = .ok f' → f'.z.length = 2 * f.p.length ∧ f'.p.length = 2 * f.p.length) ∧
    (bilinear f fs = .ok f' → f'.z.length = f.p.length ∧ f'.p.length = f.p.length) := by
  by_cases h : f.p.length < f.z.length
  · simp [lp2lp, lp2hp, lp2bp, lp2bs, bilinear, relativeDegree_panics h, bind, Except.bind]
  · have h' : f.z.length ≤ f.p.length := by omega
    simp only [lp2lp, lp2hp, lp2bp, lp2bs, bilinear, relativeDegree_ok h', bind, Except.bind, pure,
      Except.pure, Except.ok.injEq]
    refine ⟨?_, ?_, ?_, ?_, ?_⟩ <;> rintro rfl <;>
      simp only [List.length_map, List.length_append, List.length_replicate, splitPm_length, bsZeros] <;>
      (refine ⟨?_, ?_⟩ <;> first | trivial | omega)

/-- Both outcomes of C44 occur. -/
example : Panics (lp2hp ⟨[1], [], 1⟩ none) ∧ ¬ Panics (lp2hp ⟨[1], [2], 1⟩ none) :=
  ⟨(C44_panics_iff _ none none 1).2.1.mpr (by simp), fun h => by
    have := (C44_panics_iff _ none none 1).2.1.mp h; simp at this⟩

/-! ### Real filters stay real -/

/-- **C43** (supplement to C39 to C43). If the zeros and the poles of a filter are closed under
conjugation, so are those of every transform (for high-pass and band-stop, of a filter without finite
zeros). -/
theorem C43_real_filters (f f' : Zpk) (wo bw : Option ℝ) (fs : ℝ) (hz : ConjClosed f.z)
    (hp : ConjClosed f.p) :
    (lp2lp f wo = .ok f' → ConjClosed f'.z ∧ ConjClosed f'.p) ∧
    (lp2hp f wo = .ok f' → f.z = [] → ConjClosed f'.z ∧ ConjClosed f'.p) ∧
    (lp2bp f wo bw = .ok f' → ConjClosed f'.z ∧ ConjClosed f'.p) ∧
    (lp2bs f wo bw = .ok f' → f.z = [] → ConjClosed f'.z ∧ ConjClosed f'.p) ∧
    (bilinear f fs = .ok f' → ConjClosed f'.z ∧ ConjClosed f'.p) := by
  by_cases h : f.p.length < f.z.length
  · simp [lp2lp, lp2hp, lp2bp, lp2bs, bilinear, relativeDegree_panics h, bind, Except.bind]
  · have h' : f.z.length ≤ f.p.length := by omega
    have h0 : ∀ n, ConjClosed (List.replicate n (0 : ℂ)) := fun n => by
      simpa using conjClosed_replicate_real n 0
    simp only [lp2lp, lp2hp, lp2bp, lp2bs, bilinear, relativeDegree_ok h', bind, Except.bind, pure,
      Except.pure, Except.ok.injEq]
    refine ⟨?_, ?_, ?_, ?_, ?_⟩
    · rintro rfl
      exact ⟨conjClosed_map hz (fun x => by simp only [map_mul, map_div₀, map_add, map_sub, map_neg, conj_ofReal, conj_I]; try ring), conjClosed_map hp (fun x => by simp only [map_mul, map_div₀, map_add, map_sub, map_neg, conj_ofReal, conj_I]; try ring)⟩
    · rintro rfl he
      refine ⟨?_, conjClosed_map hp (fun x => by simp only [map_mul, map_div₀, map_add, map_sub, map_neg, conj_ofReal, conj_I]; try ring)⟩
      simp only [he, List.map_nil, List.nil_append]
      exact h0 _
    · rintro rfl
      exact ⟨conjClosed_append (conjClosed_splitPm (conjClosed_map hz (fun x => by simp only [map_mul, map_div₀, map_add, map_sub, map_neg, conj_ofReal, conj_I]; try ring)) _) (h0 _),
        conjClosed_splitPm (conjClosed_map hp (fun x => by simp only [map_mul, map_div₀, map_add, map_sub, map_neg, conj_ofReal, conj_I]; try ring)) _⟩
    · rintro rfl he
      refine ⟨?_, conjClosed_splitPm (conjClosed_map hp (fun x => by simp only [map_mul, map_div₀, map_add, map_sub, map_neg, conj_ofReal, conj_I]; try ring)) _⟩
      simp only [he, bsZeros, List.map_nil, List.nil_append]
      unfold ConjClosed
      simp only [List.map_append, List.map_replicate, map_mul, map_neg, conj_ofReal, conj_I, mul_neg,
        neg_mul, neg_neg]
      exact List.perm_append_comm
    · rintro rfl
      refine ⟨conjClosed_append (conjClosed_map hz (fun x => by simp only [map_mul, map_div₀, map_add, map_sub, map_neg, conj_ofReal, conj_I]; try ring)) ?_,
        conjClosed_map hp (fun x => by simp only [map_mul, map_div₀, map_add, map_sub, map_neg, conj_ofReal, conj_I]; try ring)⟩
      simpa using conjClosed_replicate_real (f.p.length - f.z.length) (-1)

/-- A concrete case: a conjugate pair of poles. -/
example : ConjClosed [-1 + I, -1 - I] := by
  unfold ConjClosed
  simp only [List.map_cons, List.map_nil, map_add, map_sub, map_neg, map_one, conj_I, sub_neg_eq_add,
    ← sub_eq_add_neg]
  exact List.Perm.swap _ _ _

end SciRs.Props

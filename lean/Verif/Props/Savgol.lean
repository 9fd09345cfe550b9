import Verif.Lemmas.Savgol
import Verif.Lemmas.LeastSquares

/-! # C32, C33 and C61: the Savitzky-Golay filter -/

namespace SciRs.Props

open SciRs.Spec SciRs.Savgol Polynomial

/-- The computed coefficients when there is no overflow, in any arithmetic. -/
theorem savgol_coeffs_free {F : Type} [Zero F] [One F] [Sub F] [Div F] [SavNum F] (c : Cfg)
    (solve : Solver F) (w p : ℕ) (hp : p < w) (deriv : Option ℕ)
    (delta : Option F) (hf : deriv.getD 0 ≤ p → (((deriv.getD 0).factorial : ℕ) : ℤ) ≤ c.usizeMax) :
    savgolCoeffsDyn c solve w p deriv delta = .ok (if deriv.getD 0 > p then List.replicate w 0 else
      solve (p + 1) w (fun i j => SavNum.powi (pos w j) i)
        (fun i => if i = deriv.getD 0 then
          SavNum.ofUsize (deriv.getD 0).factorial / SavNum.powi (delta.getD 1) (deriv.getD 0) else 0)) := by
  unfold savgolCoeffsDyn
  rw [if_neg (by omega)]
  dsimp only
  by_cases h : deriv.getD 0 > p
  · rw [if_pos h, if_pos h]
  · rw [if_neg h, if_neg h, factorial_ok c _ (hf (by omega)), ok_bind]
    rfl

/-- The computed coefficients when there is no overflow. -/
theorem savgol_coeffs_ok (c : Cfg) (solve : Solver ℝ) (w p : ℕ) (hp : p < w) (deriv : Option ℕ)
    (delta : Option ℝ) (hf : deriv.getD 0 ≤ p → (((deriv.getD 0).factorial : ℕ) : ℤ) ≤ c.usizeMax) :
    savgolCoeffsDyn c solve w p deriv delta = .ok (if deriv.getD 0 > p then List.replicate w 0 else
      solve (p + 1) w (fun i j => pos w j ^ i)
        (fun i => if i = deriv.getD 0 then
          ((deriv.getD 0).factorial : ℝ) / delta.getD 1 ^ deriv.getD 0 else 0)) := by
  exact savgol_coeffs_free c solve w p hp deriv delta hf

theorem savgol_filter_eq {F : Type} [Zero F] [One F] [Add F] [Sub F] [Mul F] [Div F] [SavNum F] (c : Cfg)
    (solve : Solver F) (y : List F) (h p : ℕ) (hp : p + 2 ≤ 2 * h + 1)
    (hw : ((2 * h + 1 : ℕ) : ℤ) ≤ c.usizeMax) (deriv : Option ℕ) (delta : Option F) :
    savgolFilterDyn c solve y (2 * h + 1) p deriv delta = (do
      let fir ← savgolCoeffsDyn c solve (2 * h + 1) p deriv delta
      match y with
      | [] => .ok []
      | y0 :: ys =>
        .ok ((windows (2 * h + 1) (padNearest (2 * h + 1) y0 ys)).map (fun w => dot w fir.reverse))) := by
  unfold savgolFilterDyn Cfg.usizeAdd
  have : ((p + 2 : ℕ) : ℤ) ≤ c.usizeMax := le_trans (by exact_mod_cast hp) hw
  rw [if_neg (by omega), if_pos this, ok_bind, if_neg (by omega)]
  cases y <;> rfl

/-- **C32.** The call panics exactly when the window is even, smaller than `polyorder + 2`, or (with
overflow checks) when the factorial of the requested derivative does not fit in `usize`.  This holds for
every solver and in every arithmetic. -/
theorem C32_panics_iff {F : Type} [Zero F] [One F] [Add F] [Sub F] [Mul F] [Div F] [SavNum F] (c : Cfg)
    (solve : Solver F) (y : List F) (w p : ℕ) (deriv : Option ℕ)
    (delta : Option F) (hw : (w : ℤ) < c.usizeMax) (hp : (p : ℤ) ≤ c.usizeMax) :
    Panics (savgolFilterDyn c solve y w p deriv delta) ↔
      w % 2 = 0 ∨ w < p + 2 ∨
      (c.checked = true ∧ deriv.getD 0 ≤ p ∧ c.usizeMax < (((deriv.getD 0).factorial : ℕ) : ℤ)) := by
  by_cases h1 : w % 2 = 0
  · simp [savgolFilterDyn, h1]
  by_cases h2 : w < p + 2
  · refine ⟨fun _ => Or.inr (Or.inl h2), fun _ => ?_⟩
    unfold savgolFilterDyn Cfg.usizeAdd
    rw [if_neg h1]
    by_cases ho : ((p + 2 : ℕ) : ℤ) ≤ c.usizeMax
    · rw [if_pos ho, ok_bind, if_pos h2]; simp
    · rw [if_neg ho]
      cases hc : c.checked
      · simp only [Bool.false_eq_true, if_false, ok_bind]
        split_ifs
        · simp
        · unfold savgolCoeffsDyn
          rw [if_pos (by push_cast at ho; omega)]
          simp
      · simp
  · obtain ⟨h, rfl⟩ : ∃ h, w = 2 * h + 1 := ⟨w / 2, by omega⟩
    rw [savgol_filter_eq c solve y h p (by omega) (le_of_lt hw)]
    have hret : ∀ fir : List F, ¬ Panics ((match y with
      | [] => .ok []
      | y0 :: ys => .ok ((windows (2 * h + 1) (padNearest (2 * h + 1) y0 ys)).map
          (fun w => dot w fir.reverse)) : Res (List F))) := by
      intro fir; cases y <;> simp
    by_cases hf : deriv.getD 0 ≤ p → (((deriv.getD 0).factorial : ℕ) : ℤ) ≤ c.usizeMax
    · rw [savgol_coeffs_free c solve _ p (by omega) deriv delta hf, ok_bind]
      constructor
      · intro h'; exact absurd h' (hret _)
      · rintro (h' | h' | ⟨-, h3, h4⟩)
        · omega
        · omega
        · exact absurd (hf h3) (by omega)
    · push Not at hf
      obtain ⟨h3, h4⟩ := hf
      cases hc : c.checked
      · obtain ⟨f, hf, -⟩ := factorial_unchecked c hc (deriv.getD 0)
        have : ∃ fir, savgolCoeffsDyn c solve (2 * h + 1) p deriv delta = .ok fir := by
          unfold savgolCoeffsDyn
          rw [if_neg (by omega)]
          dsimp only
          rw [if_neg (by omega), hf, ok_bind]
          exact ⟨_, rfl⟩
        obtain ⟨fir, hfir⟩ := this
        rw [hfir, ok_bind]
        constructor
        · intro h'; exact absurd h' (hret _)
        · rintro (h' | h' | ⟨h', -⟩)
          · omega
          · omega
          · cases h'
      · constructor
        · intro _; exact Or.inr (Or.inr ⟨rfl, h3, h4⟩)
        · intro _
          have : savgolCoeffsDyn c solve (2 * h + 1) p deriv delta = .error Err.overflow := by
            unfold savgolCoeffsDyn
            rw [if_neg (by omega)]
            dsimp only
            rw [if_neg (by omega), factorial_overflow c hc _ (by omega), error_bind]
          rw [this, error_bind]
          simp

/-- **C32.** When it does not panic, the output has the length of the input, also for inputs shorter than
the window and for the empty input, for every solver and in every arithmetic. -/
theorem C32_length {F : Type} [Zero F] [One F] [Add F] [Sub F] [Mul F] [Div F] [SavNum F] (c : Cfg)
    (solve : Solver F) (y : List F) (w p : ℕ)
    (deriv : Option ℕ) (delta : Option F) (out : List F)
    (h : savgolFilterDyn c solve y w p deriv delta = .ok out) : out.length = y.length := by
  have hodd : ¬ w % 2 = 0 := by
    intro h1
    simp [savgolFilterDyn, h1] at h
  unfold savgolFilterDyn at h
  rw [if_neg hodd] at h
  cases ha : c.usizeAdd p 2 with
  | error e => rw [ha, error_bind] at h; cases h
  | ok s =>
    rw [ha, ok_bind] at h
    split_ifs at h with hlt
    cases hc : savgolCoeffsDyn c solve w p deriv delta with
    | error e => rw [hc, error_bind] at h; cases h
    | ok fir =>
      rw [hc, ok_bind] at h
      obtain ⟨k, rfl⟩ : ∃ k, w = 2 * k + 1 := ⟨w / 2, by omega⟩
      cases y with
      | nil => cases h; rfl
      | cons y0 ys =>
        cases h
        exact windows_dot_length k y0 ys fir

/-- The filter as a weighted sum over the extended signal. -/
theorem savgol_output (c : Cfg) (solve : Solver ℝ) (hs : SolvesLeastSquares solve) (y : List ℝ) (h p : ℕ)
    (hp : p + 2 ≤ 2 * h + 1) (hw : ((2 * h + 1 : ℕ) : ℤ) ≤ c.usizeMax) (deriv : Option ℕ)
    (delta : Option ℝ) (hf : deriv.getD 0 ≤ p → (((deriv.getD 0).factorial : ℕ) : ℤ) ≤ c.usizeMax) :
    ∃ fir out : List ℝ,
      fir = (if deriv.getD 0 > p then List.replicate (2 * h + 1) 0 else
        solve (p + 1) (2 * h + 1) (fun i j => pos (2 * h + 1) j ^ i)
        (fun i => if i = deriv.getD 0 then
          ((deriv.getD 0).factorial : ℝ) / delta.getD 1 ^ deriv.getD 0 else 0)) ∧
      savgolFilterDyn c solve y (2 * h + 1) p deriv delta = .ok out ∧ out.length = y.length ∧
      (∀ i, i < p + 1 → ∑ j ∈ Finset.range (2 * h + 1), pos (2 * h + 1) j ^ i * fir.getD j 0 =
        if i = deriv.getD 0 then ((deriv.getD 0).factorial : ℝ) / delta.getD 1 ^ deriv.getD 0 else 0) ∧
      ∀ i, i < y.length → out.getD i 0 =
        ∑ j ∈ Finset.range (2 * h + 1), fir.getD j 0 * extendNearest y ((i : ℤ) + h - j) := by
  have hco := savgol_coeffs_ok c solve (2 * h + 1) p (by omega) deriv delta hf
  generalize hfir : (if deriv.getD 0 > p then List.replicate (2 * h + 1) 0 else
      solve (p + 1) (2 * h + 1) (fun i j => pos (2 * h + 1) j ^ i)
        (fun i => if i = deriv.getD 0 then
          ((deriv.getD 0).factorial : ℝ) / delta.getD 1 ^ deriv.getD 0 else 0)) = fir at *
  have hlen : fir.length = 2 * h + 1 := by
    rw [← hfir]; split_ifs
    · simp
    · exact (hs _ _ _ _).1
  have hex : ∀ i, i < p + 1 → ∑ j ∈ Finset.range (2 * h + 1), pos (2 * h + 1) j ^ i * fir.getD j 0 =
        if i = deriv.getD 0 then ((deriv.getD 0).factorial : ℝ) / delta.getD 1 ^ deriv.getD 0 else 0 := by
    intro i hi
    rw [← hfir]
    by_cases hd : deriv.getD 0 > p
    · rw [if_pos hd, if_neg (by omega)]
      refine Finset.sum_eq_zero (fun j hj => ?_)
      rw [List.getD_eq_getElem _ _ (by simpa using hj), List.getElem_replicate, mul_zero]
    · rw [if_neg hd]
      exact exact_of_leastSquares hs (2 * h + 1) p (by omega) _ i hi
  have hflt := savgol_filter_eq c solve y h p hp hw deriv delta
  rw [hco, ok_bind] at hflt
  cases y with
  | nil => exact ⟨fir, [], rfl, hflt, rfl, hex, by simp⟩
  | cons y0 ys =>
    obtain ⟨h1, h2⟩ := windows_dot h y0 ys fir hlen
    exact ⟨fir, _, rfl, hflt, h1, hex, h2⟩

theorem extendNearest_inside (y : List ℝ) (k : ℤ) (h0 : 0 ≤ k) (h1 : k < y.length) :
    extendNearest y k = y.getD k.toNat 0 := by
  unfold extendNearest
  rw [if_neg (by omega), if_pos h1]

/-- **C33.** Away from the ends, the filter returns the requested derivative of a sampled polynomial of
degree at most `polyorder`, exactly, whatever least-squares solution the solver picks.  `delta` is the
sampling interval. -/
theorem C33_polynomial_exact (c : Cfg) (solve : Solver ℝ) (hs : SolvesLeastSquares solve) (q : ℝ[X])
    (x0 : ℝ) (y : List ℝ) (h p : ℕ) (hp : p + 2 ≤ 2 * h + 1)
    (hw : ((2 * h + 1 : ℕ) : ℤ) ≤ c.usizeMax) (hq : q.natDegree ≤ p) (deriv : Option ℕ)
    (delta : Option ℝ) (hδ : delta.getD 1 ≠ 0)
    (hf : deriv.getD 0 ≤ p → (((deriv.getD 0).factorial : ℕ) : ℤ) ≤ c.usizeMax)
    (hy : ∀ i, i < y.length → y.getD i 0 = q.eval (x0 + delta.getD 1 * i)) :
    ∃ out, savgolFilterDyn c solve y (2 * h + 1) p deriv delta = .ok out ∧ out.length = y.length ∧
      ∀ i, h ≤ i → i + h < y.length →
        out.getD i 0 = (derivative^[deriv.getD 0] q).eval (x0 + delta.getD 1 * i) := by
  obtain ⟨fir, out, -, ho, hl, hex, hv⟩ := savgol_output c solve hs y h p hp hw deriv delta hf
  refine ⟨out, ho, hl, fun i hi1 hi2 => ?_⟩
  generalize deriv.getD 0 = d at *
  generalize delta.getD 1 = δ at *
  rw [hv i (by omega)]
  let P : ℝ[X] := q.comp (C (x0 + δ * i) + C δ * X)
  have hP : P.natDegree ≤ p := by
    have h1 : (C (x0 + δ * i) + C δ * X).natDegree ≤ 1 := by
      rw [add_comm]; exact natDegree_linear_le
    calc P.natDegree ≤ q.natDegree * (C (x0 + δ * i) + C δ * X).natDegree := natDegree_comp_le
      _ ≤ q.natDegree * 1 := Nat.mul_le_mul_left _ h1
      _ ≤ p := by omega
  have e1 : ∀ j ∈ Finset.range (2 * h + 1),
      fir.getD j 0 * extendNearest y ((i : ℤ) + h - j) = fir.getD j 0 * P.eval (pos (2 * h + 1) j) := by
    intro j hj
    have hj := Finset.mem_range.mp hj
    rw [extendNearest_inside y _ (by omega) (by omega), hy _ (by omega), pos_odd]
    simp only [P, eval_comp, eval_add, eval_C, eval_mul, eval_X]
    congr 2
    rw [show ((i : ℤ) + h - j).toNat = i + h - j by omega, Nat.cast_sub (by omega)]
    push_cast; ring
  rw [Finset.sum_congr rfl e1, sum_eval_of_exact _ p _ _ hex P hP]
  have e2 : ∑ k ∈ Finset.range (p + 1), P.coeff k * (if k = d then (d.factorial : ℝ) / δ ^ d else 0) =
      P.coeff d * d.factorial / δ ^ d := by
    by_cases hd : d < p + 1
    · rw [Finset.sum_eq_single d]
      · rw [if_pos rfl]; ring
      · intro k _ hk; rw [if_neg hk, mul_zero]
      · intro hn; exact absurd (Finset.mem_range.mpr hd) hn
    · rw [coeff_eq_zero_of_natDegree_lt (by omega), zero_mul, zero_div]
      refine Finset.sum_eq_zero (fun k hk => ?_)
      have := Finset.mem_range.mp hk
      rw [if_neg (by omega), mul_zero]
  rw [e2, coeff_mul_factorial, iterate_derivative_comp_linear]
  simp only [eval_mul, eval_C, eval_comp, eval_add, eval_X, mul_zero, add_zero]
  field_simp

/-- **C33.** Constants are reproduced everywhere, the ends included, when no derivative is requested. -/
theorem C33_constant_exact (c : Cfg) (solve : Solver ℝ) (hs : SolvesLeastSquares solve) (v : ℝ)
    (n h p : ℕ) (hp : p + 2 ≤ 2 * h + 1) (hw : ((2 * h + 1 : ℕ) : ℤ) ≤ c.usizeMax)
    (delta : Option ℝ) :
    savgolFilterDyn c solve (List.replicate n v) (2 * h + 1) p none delta = .ok (List.replicate n v) := by
  have h1 : (1 : ℤ) ≤ c.usizeMax := le_trans (by push_cast; omega) hw
  obtain ⟨fir, out, -, ho, hl, hex, hv⟩ := savgol_output c solve hs (List.replicate n v) h p hp hw none delta
    (by intro _; simpa using h1)
  rw [ho]
  congr 1
  refine List.ext_getElem hl (fun i hi1 hi2 => ?_)
  rw [← List.getD_eq_getElem _ (0 : ℝ), List.getElem_replicate, hv i (by simpa using hi2)]
  have hn : 0 < n := by
    have : i < n := by simpa using hi2
    omega
  have e : ∀ k : ℤ, extendNearest (List.replicate n v) k = v := by
    intro k
    obtain ⟨m, rfl⟩ : ∃ m, n = m + 1 := ⟨n - 1, by omega⟩
    unfold extendNearest
    split_ifs with ha hb
    · simp [List.replicate_succ]
    · rw [List.getD_eq_getElem _ _ (by omega), List.getElem_replicate]
    · rw [List.getLastD_eq_getLast?, List.getLast?_replicate]; rfl
  have := hex 0 (by omega)
  simp at this
  rw [Finset.sum_congr rfl (fun j _ => by rw [e]), ← Finset.sum_mul]
  simp [this]

/-- **C33 fails silently for high derivatives in a build without overflow checks**: on a 64-bit target
`66!` wraps to zero, so every sample of the 66th derivative is reported as `0`, whatever polynomial of
degree at most 67 is sampled, although the 66th derivative of `x ^ 66` is `66!`. -/
theorem C33_derivative_overflow_false (c : Cfg) (hc : c.checked = false) (hb : c.ptrBits = 64)
    (solve : Solver ℝ) (hs : SolvesLeastSquares solve) :
    ∃ (y : List ℝ) (q : ℝ[X]) (out : List ℝ), q.natDegree ≤ 67 ∧ y.length = 69 ∧
      (∀ i, i < y.length → y.getD i 0 = q.eval (i : ℝ)) ∧
      savgolFilterDyn c solve y 69 67 (some 66) none = .ok out ∧
      out.getD 34 0 = 0 ∧ (derivative^[66] q).eval (34 : ℝ) = Nat.factorial 66 := by
  obtain ⟨f, hf, hm, hlt⟩ := factorial_unchecked c hc 66
  have hf0 : f = 0 := by
    rw [Nat.mod_eq_of_lt hlt, hb] at hm
    rw [hm]
    decide +kernel
  rw [hf0] at hf
  let y : List ℝ := (List.range 69).map (fun i : ℕ => (i : ℝ) ^ 66)
  have hyl : y.length = 69 := by simp [y]
  have hw : ((2 * 34 + 1 : ℕ) : ℤ) ≤ c.usizeMax := by unfold Cfg.usizeMax; rw [hb]; norm_num
  let fir := solve 68 69 (fun i j => pos 69 j ^ i) (fun i => if i = 66 then (0 : ℝ) / 1 ^ 66 else 0)
  have hfir : savgolCoeffsDyn c solve (2 * 34 + 1) 67 (some 66) none = .ok fir := by
    unfold savgolCoeffsDyn
    rw [if_neg (by norm_num)]
    dsimp only [Option.getD_some, Option.getD_none]
    rw [if_neg (by norm_num), hf, ok_bind]
    norm_num [fir]
    rfl
  have hout := savgol_filter_eq c solve y 34 67 (by norm_num) hw (some 66) none
  rw [hfir, ok_bind] at hout
  have hfl : fir.length = 2 * 34 + 1 := (hs _ _ _ _).1
  obtain ⟨y0, ys, hys⟩ : ∃ y0 ys, y = y0 :: ys := by
    cases hy : y with
    | nil => rw [hy] at hyl; cases hyl
    | cons a l => exact ⟨a, l, rfl⟩
  rw [hys] at hout
  obtain ⟨-, hv⟩ := windows_dot 34 y0 ys fir hfl
  refine ⟨y, X ^ 66, _, by rw [natDegree_X_pow]; norm_num, hyl, ?_, by rw [hys]; exact hout, ?_, ?_⟩
  · intro i hi
    rw [List.getD_eq_getElem _ _ hi]
    simp [y]
  · rw [hv 34 (by rw [← hys, hyl]; norm_num), ← hys]
    let P : ℝ[X] := (X ^ 66 : ℝ[X]).comp (C 34 + C 1 * X)
    have hP : P.natDegree ≤ 67 := by
      have h1 : (C (34 : ℝ) + C 1 * X).natDegree ≤ 1 := by
        rw [add_comm]; exact natDegree_linear_le
      calc P.natDegree ≤ (X ^ 66 : ℝ[X]).natDegree * (C (34 : ℝ) + C 1 * X).natDegree := natDegree_comp_le
        _ ≤ 66 * 1 := by rw [natDegree_X_pow]; exact Nat.mul_le_mul_left _ h1
        _ ≤ 67 := by norm_num
    have e1 : ∀ j ∈ Finset.range (2 * 34 + 1),
        fir.getD j 0 * extendNearest y (((34 : ℕ) : ℤ) + (34 : ℕ) - j) = fir.getD j 0 * P.eval (pos 69 j) := by
      intro j hj
      have hj := Finset.mem_range.mp hj
      rw [extendNearest_inside y _ (by push_cast; omega) (by push_cast [hyl]; omega),
        List.getD_eq_getElem y _ (by rw [hyl]; omega), pos_odd 34]
      simp only [P, y, List.getElem_map, List.getElem_range, eval_comp, eval_add, eval_C, eval_mul, eval_X,
        eval_pow]
      congr 2
      rw [show (((34 : ℕ) : ℤ) + (34 : ℕ) - j).toNat = 68 - j by push_cast; omega, Nat.cast_sub (by omega)]
      push_cast; ring
    have hex : ∀ i, i < 67 + 1 → ∑ j ∈ Finset.range 69, pos 69 j ^ i * fir.getD j 0 =
        (fun i => if i = 66 then (0 : ℝ) / 1 ^ 66 else 0) i := fun i hi =>
      exact_of_leastSquares hs 69 67 (by norm_num) (fun i => if i = 66 then (0 : ℝ) / 1 ^ 66 else 0) i hi
    rw [Finset.sum_congr rfl e1, sum_eval_of_exact 69 67 _ _ hex P hP]
    refine Finset.sum_eq_zero (fun k _ => ?_)
    simp
  · rw [iterate_derivative_X_pow_eq_natCast_mul]
    rw [Nat.sub_self, pow_zero, mul_one, Nat.descFactorial_self, eval_natCast]

/-- A linear form that is non-negative up to a quadratic term vanishes. -/
theorem linear_zero {a b : ℝ} (h : ∀ t : ℝ, 0 ≤ t * a + t ^ 2 * b) : a = 0 := by
  by_contra hne
  have hb : 0 ≤ b := by
    have h1 := h 1; have h2 := h (-1); nlinarith
  have := h (-(a / (b + 1)) / 1)
  have hb1 : 0 < b + 1 := by linarith
  have e : -(a / (b + 1)) / 1 * a + (-(a / (b + 1)) / 1) ^ 2 * b = -(a ^ 2 / (b + 1) ^ 2) := by
    field_simp; ring
  rw [e] at this
  have hpos : 0 < a ^ 2 / (b + 1) ^ 2 := by positivity
  linarith

/-- **C61.** With the minimum-norm solver, every output sample (the ends included, with the signal extended
by its end values) is the requested derivative, at the centre of the window, of a polynomial of degree at
most `polyorder` that fits the samples of the window best in the least-squares sense. -/
theorem C61_is_best_fit (c : Cfg) (solve : Solver ℝ) (hs : SolvesMinimumNorm solve)
    (y : List ℝ) (h p : ℕ) (hp : p + 2 ≤ 2 * h + 1)
    (hw : ((2 * h + 1 : ℕ) : ℤ) ≤ c.usizeMax) (deriv : Option ℕ) (delta : Option ℝ)
    (hf : deriv.getD 0 ≤ p → (((deriv.getD 0).factorial : ℕ) : ℤ) ≤ c.usizeMax) :
    ∃ out, savgolFilterDyn c solve y (2 * h + 1) p deriv delta = .ok out ∧ out.length = y.length ∧
      ∀ i, i < y.length → ∀ P, BestFit y h p i P →
        out.getD i 0 = (derivative^[deriv.getD 0] P).eval 0 / delta.getD 1 ^ deriv.getD 0 := by
  obtain ⟨fir, out, hfir, ho, hl, hex, hv⟩ := savgol_output c solve hs.1 y h p hp hw deriv delta hf
  refine ⟨out, ho, hl, fun i hi P ⟨hP, hmin⟩ => ?_⟩
  rw [hv i hi]
  generalize deriv.getD 0 = d at *
  generalize delta.getD 1 = δ at *
  set w := 2 * h + 1 with hwd
  let e : ℕ → ℝ := fun j => extendNearest y ((i : ℤ) + h - j)
  let r : ℕ → ℝ := fun j => e j - P.eval (pos w j)
  -- the normal equations of the fit
  have hnormal : ∀ k, k < p + 1 → ∑ j ∈ Finset.range w, pos w j ^ k * r j = 0 := by
    intro k hk
    have := linear_zero (a := -2 * ∑ j ∈ Finset.range w, pos w j ^ k * r j)
      (b := ∑ j ∈ Finset.range w, (pos w j ^ k) ^ 2) (fun t => by
        have hQ := hmin (P + C t * X ^ k) (le_trans (natDegree_add_le _ _)
          (max_le hP (le_trans (natDegree_C_mul_X_pow_le t k) (by omega))))
        have e1 : ∀ j : ℕ, (extendNearest y ((i : ℤ) + h - j) - (P + C t * X ^ k).eval ((h : ℝ) - j)) ^ 2 =
            (extendNearest y ((i : ℤ) + h - j) - P.eval ((h : ℝ) - j)) ^ 2 +
            (t * (-2 * (pos w j ^ k * r j)) + t ^ 2 * (pos w j ^ k) ^ 2) := by
          intro j
          simp only [r, e, hwd, pos_odd, eval_add, eval_mul, eval_C, eval_pow, eval_X]
          ring
        rw [Finset.sum_congr rfl (fun j _ => e1 j), Finset.sum_add_distrib, Finset.sum_add_distrib] at hQ
        rw [← Finset.mul_sum, ← Finset.mul_sum, ← Finset.mul_sum] at hQ
        linarith)
    linarith
  -- the coefficients are orthogonal to the residual of the fit
  have horth : ∑ j ∈ Finset.range w, fir.getD j 0 * r j = 0 := by
    by_cases hd : d > p
    · rw [hfir, if_pos hd]
      refine Finset.sum_eq_zero (fun j hj => ?_)
      rw [List.getD_eq_getElem _ _ (by simpa using hj), List.getElem_replicate, zero_mul]
    · rw [if_neg hd] at hfir
      set b : ℕ → ℝ := fun i => if i = d then (d.factorial : ℝ) / δ ^ d else 0
      have h1 : ∀ t : ℝ, 0 ≤ t * (2 * ∑ j ∈ Finset.range w, fir.getD j 0 * r j) +
          t ^ 2 * ∑ j ∈ Finset.range w, r j ^ 2 := by
        intro t
        have hmn := hs.2 (p + 1) w (fun i j => pos w j ^ i) b (fun j => fir.getD j 0 + t * r j) (by
          intro c'
          have hz : Spec.residual (p + 1) w (fun i j => pos w j ^ i) b (fun j => fir.getD j 0 + t * r j) = 0 := by
            unfold Spec.residual
            refine Finset.sum_eq_zero (fun k hk => ?_)
            have hk := Finset.mem_range.mp hk
            have : ∑ j ∈ Finset.range w, pos w j ^ k * (fir.getD j 0 + t * r j) = b k := by
              have e2 : ∀ j, pos w j ^ k * (fir.getD j 0 + t * r j) =
                  pos w j ^ k * fir.getD j 0 + t * (pos w j ^ k * r j) := fun j => by ring
              rw [Finset.sum_congr rfl (fun j _ => e2 j), Finset.sum_add_distrib, ← Finset.mul_sum,
                hnormal k hk, hex k hk]
              simp [b]
            rw [this, sub_self]; ring
          rw [hz]
          exact Finset.sum_nonneg (fun _ _ => sq_nonneg _))
        rw [← hfir] at hmn
        have e3 : ∀ j, (fir.getD j 0 + t * r j) ^ 2 =
            fir.getD j 0 ^ 2 + (t * (2 * (fir.getD j 0 * r j)) + t ^ 2 * r j ^ 2) := fun j => by ring
        rw [Finset.sum_congr rfl (fun j _ => e3 j), Finset.sum_add_distrib, Finset.sum_add_distrib,
          ← Finset.mul_sum, ← Finset.mul_sum, ← Finset.mul_sum] at hmn
        linarith
      have := linear_zero h1
      linarith
  have e4 : ∀ j, fir.getD j 0 * extendNearest y ((i : ℤ) + h - j) =
      fir.getD j 0 * r j + fir.getD j 0 * P.eval (pos w j) := by
    intro j; simp only [r, e]; ring
  rw [Finset.sum_congr rfl (fun j _ => e4 j), Finset.sum_add_distrib, horth, zero_add,
    sum_eval_of_exact w p _ _ hex P hP]
  have e2 : ∑ k ∈ Finset.range (p + 1), P.coeff k * (if k = d then (d.factorial : ℝ) / δ ^ d else 0) =
      P.coeff d * d.factorial / δ ^ d := by
    by_cases hd : d < p + 1
    · rw [Finset.sum_eq_single d]
      · rw [if_pos rfl]; ring
      · intro k _ hk; rw [if_neg hk, mul_zero]
      · intro hn; exact absurd (Finset.mem_range.mpr hd) hn
    · rw [coeff_eq_zero_of_natDegree_lt (by omega), zero_mul, zero_div]
      refine Finset.sum_eq_zero (fun k hk => ?_)
      have := Finset.mem_range.mp hk
      rw [if_neg (by omega), mul_zero]
  rw [e2, coeff_mul_factorial]

/-! ### The hypotheses are met -/

example : ∃ solve, SolvesMinimumNorm solve := exists_minimumNorm_solver

/-- The second derivative of `x² + 1` sampled with spacing two, window five, order two. -/
example (solve : Solver ℝ) (hs : SolvesLeastSquares solve) :
    ∃ out, savgolFilterDyn ⟨64, true, by norm_num⟩ solve [1, 5, 17, 37, 65] 5 2 (some 2) (some 2) = .ok out ∧
      out.getD 2 0 = 2 := by
  obtain ⟨out, h1, h2, h3⟩ := C33_polynomial_exact ⟨64, true, by norm_num⟩ solve hs (X ^ 2 + 1) 0
    [1, 5, 17, 37, 65] 2 2 (by norm_num) (by simp [Cfg.usizeMax])
    (by
      have : (X ^ 2 + 1 : ℝ[X]).natDegree = 2 := by
        rw [show (1 : ℝ[X]) = C 1 from rfl, natDegree_X_pow_add_C]
      omega) (some 2) (some 2) (by norm_num) (by intro _; simp [Cfg.usizeMax, Nat.factorial])
    (by
      intro i hi
      have hi : i < 5 := by simpa using hi
      obtain rfl | rfl | rfl | rfl | rfl : i = 0 ∨ i = 1 ∨ i = 2 ∨ i = 3 ∨ i = 4 := by omega
      all_goals (simp; try norm_num))
  refine ⟨out, h1, ?_⟩
  rw [h3 2 (by norm_num) (by simp)]
  simp [Function.iterate_succ]; norm_num

/-! ### The coefficients -/

theorem pos_centred (w j : ℕ) : pos w j = ((w : ℝ) - 1) / 2 - j := by
  unfold pos
  split_ifs with h
  · obtain ⟨k, rfl⟩ : ∃ k, w = 2 * k := ⟨w / 2, by omega⟩
    rw [show 2 * k / 2 = k by omega]; rw [ofUsize_real, ofUsize_real]; try rw [half_real]
    push_cast; ring
  · obtain ⟨k, rfl⟩ : ∃ k, w = 2 * k + 1 := ⟨w / 2, by omega⟩
    rw [show (2 * k + 1) / 2 = k by omega]; rw [ofUsize_real, ofUsize_real]; try rw [half_real]
    push_cast; ring

theorem derivative_coefficient (P : ℝ[X]) (p d : ℕ) (δ : ℝ) (hP : P.natDegree ≤ p) :
    ∑ k ∈ Finset.range (p + 1), P.coeff k * (if k = d then (d.factorial : ℝ) / δ ^ d else 0) =
      (derivative^[d] P).eval 0 / δ ^ d := by
  rw [← coeff_mul_factorial]
  by_cases hd : d < p + 1
  · rw [Finset.sum_eq_single d]
    · rw [if_pos rfl]; ring
    · intro k _ hk; rw [if_neg hk, mul_zero]
    · intro hn; exact absurd (Finset.mem_range.mpr hd) hn
  · rw [coeff_eq_zero_of_natDegree_lt (by omega), zero_mul, zero_div]
    refine Finset.sum_eq_zero (fun k hk => ?_)
    have := Finset.mem_range.mp hk
    rw [if_neg (by omega), mul_zero]

/-- Weights `f` that, applied in reverse order to `w` samples with spacing `δ`, give the derivative of
order `d`, at the centre of the window, of every polynomial of degree at most `p`. -/
def Differentiates (w p d : ℕ) (δ : ℝ) (f : ℕ → ℝ) : Prop :=
  ∀ (q : ℝ[X]) (x0 : ℝ), q.natDegree ≤ p →
    ∑ j ∈ Finset.range w, f j * q.eval (x0 + δ * (((w : ℝ) - 1) / 2 - j)) =
      (derivative^[d] q).eval x0

/-- **C73.** `savgol_coeffs_dyn` panics exactly when the order is not below the window length or, with
overflow checks, the factorial of the derivative does not fit in `usize`. -/
theorem C73_panics_iff {F : Type} [Zero F] [One F] [Sub F] [Div F] [SavNum F] (c : Cfg) (solve : Solver F)
    (w p : ℕ) (deriv : Option ℕ) (delta : Option F) :
    Panics (savgolCoeffsDyn c solve w p deriv delta) ↔
      w ≤ p ∨
      (c.checked = true ∧ deriv.getD 0 ≤ p ∧ c.usizeMax < (((deriv.getD 0).factorial : ℕ) : ℤ)) := by
  by_cases hp : w ≤ p
  · unfold savgolCoeffsDyn
    rw [if_pos hp]
    simp [hp]
  by_cases hf : deriv.getD 0 ≤ p → (((deriv.getD 0).factorial : ℕ) : ℤ) ≤ c.usizeMax
  · rw [savgol_coeffs_free c solve w p (by omega) deriv delta hf]
    constructor
    · intro h; simp at h
    · rintro (h | ⟨-, h3, h4⟩)
      · exact absurd h hp
      · exact absurd (hf h3) (by omega)
  · push Not at hf
    unfold savgolCoeffsDyn
    rw [if_neg hp]
    dsimp only
    rw [if_neg (by omega)]
    cases hc : c.checked
    · obtain ⟨f, hf', -⟩ := factorial_unchecked c hc (deriv.getD 0)
      rw [hf', ok_bind]
      constructor
      · intro h; exact absurd h (by simp [pure, Except.pure])
      · rintro (h | ⟨h, -⟩)
        · exact absurd h hp
        · cases h
    · rw [factorial_overflow c hc _ (by omega)]
      simp [hf]

/-- **C73.** For every window length, odd or even, and every solver that minimises the residual, the
coefficients of `savgol_coeffs_dyn` differentiate the polynomials up to `polyorder` exactly at the
centre of the window.  The spacing of the samples is `delta`. -/
theorem C73_coeffs_differentiate (c : Cfg) (solve : Solver ℝ) (hs : SolvesLeastSquares solve) (w p : ℕ)
    (hp : p < w) (deriv : Option ℕ) (delta : Option ℝ) (hδ : delta.getD 1 ≠ 0)
    (hf : deriv.getD 0 ≤ p → (((deriv.getD 0).factorial : ℕ) : ℤ) ≤ c.usizeMax) :
    ∃ fir, savgolCoeffsDyn c solve w p deriv delta = .ok fir ∧ fir.length = w ∧
      Differentiates w p (deriv.getD 0) (delta.getD 1) (fun j => fir.getD j 0) := by
  rw [savgol_coeffs_ok c solve w p hp deriv delta hf]
  refine ⟨_, rfl, ?_, ?_⟩
  · split_ifs
    · simp
    · exact (hs _ _ _ _).1
  generalize deriv.getD 0 = d at *
  generalize delta.getD 1 = δ at *
  intro q x0 hq
  let P : ℝ[X] := q.comp (C x0 + C δ * X)
  have hP : P.natDegree ≤ p := by
    have h1 : (C x0 + C δ * X).natDegree ≤ 1 := by
      rw [add_comm]; exact natDegree_linear_le
    calc P.natDegree ≤ q.natDegree * (C x0 + C δ * X).natDegree := natDegree_comp_le
      _ ≤ q.natDegree * 1 := Nat.mul_le_mul_left _ h1
      _ ≤ p := by omega
  have hPe : ∀ j : ℕ, q.eval (x0 + δ * (((w : ℝ) - 1) / 2 - j)) = P.eval (pos w j) := by
    intro j
    simp only [P, eval_comp, eval_add, eval_C, eval_mul, eval_X, pos_centred]
  by_cases hd : d > p
  · simp only [if_pos hd]
    rw [iterate_derivative_eq_zero (by omega)]
    simp
  · simp only [if_neg hd]
    rw [Finset.sum_congr rfl (fun j _ => by rw [hPe j])]
    rw [sum_eval_of_exact w p _ (fun i => if i = d then (d.factorial : ℝ) / δ ^ d else 0)
      (fun i hi => exact_of_leastSquares hs w p hp _ i hi) P hP, derivative_coefficient P p d δ hP,
      iterate_derivative_comp_linear]
    simp only [eval_mul, eval_C, eval_comp, eval_add, eval_X, mul_zero, add_zero]
    field_simp

/-- **C73.** With the minimum-norm solver the coefficients have, among all weights that differentiate,
the least sum of squares, that is, the least amplification of uncorrelated noise. -/
theorem C73_least_noise (c : Cfg) (solve : Solver ℝ) (hs : SolvesMinimumNorm solve) (w p : ℕ)
    (hp : p < w) (deriv : Option ℕ) (delta : Option ℝ) (hδ : delta.getD 1 ≠ 0)
    (hf : deriv.getD 0 ≤ p → (((deriv.getD 0).factorial : ℕ) : ℤ) ≤ c.usizeMax) (g : ℕ → ℝ)
    (hg : Differentiates w p (deriv.getD 0) (delta.getD 1) g) :
    ∃ fir, savgolCoeffsDyn c solve w p deriv delta = .ok fir ∧
      ∑ j ∈ Finset.range w, fir.getD j 0 ^ 2 ≤ ∑ j ∈ Finset.range w, g j ^ 2 := by
  rw [savgol_coeffs_ok c solve w p hp deriv delta hf]
  refine ⟨_, rfl, ?_⟩
  generalize deriv.getD 0 = d at *
  generalize delta.getD 1 = δ at *
  by_cases hd : d > p
  · simp only [if_pos hd]
    have e : ∀ j, (List.replicate w (0 : ℝ)).getD j 0 = 0 := by
      intro j; simp
    simp only [e]
    simp
    exact Finset.sum_nonneg (fun j _ => sq_nonneg _)
  · simp only [if_neg hd]
    refine hs.2 _ _ _ _ g (fun c' => ?_)
    have h0 : Spec.residual (p + 1) w (fun i j => pos w j ^ i)
        (fun i => if i = d then (d.factorial : ℝ) / δ ^ d else 0) g = 0 := by
      unfold Spec.residual
      refine Finset.sum_eq_zero (fun i hi => ?_)
      have hi := Finset.mem_range.mp hi
      -- the monomial `(x / δ) ^ i`
      have := hg (C (δ⁻¹ ^ i) * X ^ i) 0 (natDegree_C_mul_X_pow_le _ _ |>.trans (by omega))
      have e1 : ∀ j : ℕ, g j * (C (δ⁻¹ ^ i) * X ^ i : ℝ[X]).eval (0 + δ * (((w : ℝ) - 1) / 2 - j))
          = pos w j ^ i * g j := by
        intro j
        simp only [eval_mul, eval_C, eval_pow, eval_X, zero_add, pos_centred]
        rw [← mul_pow, ← mul_assoc, inv_mul_cancel₀ hδ, one_mul, mul_comm]
      rw [Finset.sum_congr rfl (fun j _ => e1 j)] at this
      rw [this, ← coeff_mul_factorial, coeff_C_mul, coeff_X_pow]
      by_cases hid : i = d
      · subst hid
        simp only [if_true, inv_pow]
        field_simp
        simp
      · simp [Ne.symm hid, hid]
    rw [h0]
    unfold Spec.residual
    exact Finset.sum_nonneg (fun i _ => sq_nonneg _)

/-- An even window and a first derivative: `(1, -1)` differentiates polynomials of degree at most one. -/
example : Differentiates 2 1 1 1 (fun j => if j = 0 then 1 else -1) := by
  intro q x0 hq
  obtain ⟨a, b, rfl⟩ := exists_eq_X_add_C_of_natDegree_le_one hq
  simp [Finset.sum_range_succ]
  ring

end SciRs.Props

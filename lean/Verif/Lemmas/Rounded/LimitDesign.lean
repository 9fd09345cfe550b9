import Verif.Lemmas.Rounded.Limit
import Verif.Lemmas.Design.Formats

/-! # Lemmas: zeros, poles and gain as the precision grows -/

namespace SciRs.Rounded

open Complex SciRs.Design SciRs.Spec Filter Topology

/-- A list of fixed length that depends on the arithmetic, element by element related to a limit. -/
inductive Along {α : Type} (R : (Setup → α) → α → Prop) : (Setup → List α) → List α → Prop
  | nil : Along R (fun _ => []) []
  | cons {a : Setup → α} {b : α} {F : Setup → List α} {L : List α} :
      R a b → Along R F L → Along R (fun i => a i :: F i) (b :: L)

namespace Along

variable {α β : Type} {R R' : (Setup → α) → α → Prop} {Q : (Setup → β) → β → Prop} {F G : Setup → List α} {L M : List α}

theorem map (h : Along R F L) (g : Setup → α → β) (g0 : α → β)
    (hg : ∀ a b, b ∈ L → R a b → Q (fun i => g i (a i)) (g0 b)) :
    Along Q (fun i => (F i).map (g i)) (L.map g0) := by
  induction h with
  | nil => exact .nil
  | cons h _ ih => exact .cons (hg _ _ (by simp) h) (ih fun a b hb => hg a b (List.mem_cons_of_mem _ hb))

theorem imp (h : Along R F L) (hg : ∀ a b, b ∈ L → R a b → R' a b) : Along R' F L := by
  induction h with
  | nil => exact .nil
  | cons h _ ih => exact .cons (hg _ _ (by simp) h) (ih fun a b hb => hg a b (List.mem_cons_of_mem _ hb))

theorem append (h : Along R F L) (h' : Along R G M) : Along R (fun i => F i ++ G i) (L ++ M) := by
  induction h with
  | nil => exact h'
  | cons h _ ih => exact .cons h ih

theorem replicate {a : Setup → α} {b : α} (h : R a b) (n : ℕ) :
    Along R (fun i => List.replicate n (a i)) (List.replicate n b) := by
  induction n with
  | zero => exact .nil
  | succ n ih => exact .cons h ih

theorem of_map {γ : Type} (ms : List γ) (P : Setup → γ → α) (p : γ → α) (h : ∀ m ∈ ms, R (fun i => P i m) (p m)) :
    Along R (fun i => ms.map (P i)) (ms.map p) := by
  induction ms with
  | nil => exact .nil
  | cons m ms ih => exact .cons (h m (by simp)) (ih fun x hx => h x (List.mem_cons_of_mem _ hx))

theorem length (h : Along R F L) (i : Setup) : (F i).length = L.length := by
  induction h with
  | nil => rfl
  | cons _ _ ih => simp [ih]

theorem eventually_forall (h : Along R F L) {P : α → Prop}
    (hP : ∀ a b, b ∈ L → R a b → ∀ᶠ i in fine, P (a i)) : ∀ᶠ i in fine, ∀ x ∈ F i, P x := by
  induction h with
  | nil => simp
  | cons h _ ih =>
    filter_upwards [hP _ _ (by simp) h, ih fun a b hb => hP a b (List.mem_cons_of_mem _ hb)] with i h1 h2
    intro x hx
    rcases List.mem_cons.mp hx with rfl | hx
    · exact h1
    · exact h2 x hx

theorem eventually_forall₂ (h : Along R F L) {P : α → α → Prop}
    (hP : ∀ a b, b ∈ L → R a b → ∀ᶠ i in fine, P (a i) b) : ∀ᶠ i in fine, List.Forall₂ P (F i) L := by
  induction h with
  | nil => simp
  | cons h _ ih =>
    filter_upwards [hP _ _ (by simp) h, ih fun a b hb => hP a b (List.mem_cons_of_mem _ hb)] with i h1 h2
    exact .cons h1 h2

theorem one {b : α} (h : Along R F [b]) : ∃ a, F = (fun i => [a i]) ∧ R a b := by
  cases h with
  | cons h h' => cases h'; exact ⟨_, rfl, h⟩

theorem two {b c : α} (h : Along R F [b, c]) : ∃ a a', F = (fun i => [a i, a' i]) ∧ R a b ∧ R a' c := by
  cases h with
  | cons h h' =>
    obtain ⟨a', rfl, h2⟩ := h'.one
    exact ⟨_, _, rfl, h, h2⟩

theorem nil_of {F : Setup → List α} (h : Along R F []) : F = fun _ => [] := by cases h; rfl

end Along

/-- Convergence. -/
def Tends {α : Type} [TopologicalSpace α] (a : Setup → α) (b : α) : Prop := Tendsto a fine (𝓝 b)

/-- Convergence, and a real limit is the limit of numbers that are exactly real. -/
def KeepsReal (a : Setup → ℂ) (b : ℂ) : Prop := Tends a b ∧ (b.im = 0 → ∀ i, (a i).im = 0)

/-- Convergence on the imaginary axis, and an exact zero is the limit of exact zeros. -/
def Axis (a : Setup → ℂ) (b : ℂ) : Prop :=
  Tends a b ∧ b.re = 0 ∧ (∀ i, (a i).re = 0) ∧ (b.im = 0 → ∀ i, (a i).im = 0)

/-- Exact arithmetic. -/
noncomputable abbrev E : Arith := .exact 0

theorem tendsto_foldMul {F : Setup → List ℂ} {L : List ℂ} (h : Along Tends F L) :
    Tendsto (fun i => foldMul i.A (F i)) fine (𝓝 (foldMul E L)) := by
  unfold foldMul
  have key : ∀ (a : Setup → ℂ) (b : ℂ), Tendsto a fine (𝓝 b) → Tendsto (fun i => (F i).foldl (fun acc x => i.A.cmul acc x) (a i)) fine
      (𝓝 (L.foldl (fun acc x => E.cmul acc x) b)) := by
    induction h with
    | nil => exact fun a b h => h
    | cons h _ ih => exact fun a b hab => ih _ _ (tendsto_cmul hab h)
  exact key _ _ tendsto_const_nhds

/-- Convergence of zeros, poles and gain. -/
structure ZpkLim (Rz Rp : (Setup → ℂ) → ℂ → Prop) (f : Setup → Zpk) (g : Zpk) : Prop where
  z : Along Rz (fun i => (f i).z) g.z
  p : Along Rp (fun i => (f i).p) g.p
  k : Tendsto (fun i => (f i).k) fine (𝓝 g.k)

/-! ### Exact zeros -/

section exactZeros

variable (i : Setup)

theorem sin_zero' : i.m.sin 0 = 0 := by
  have := i.m.sin_neg 0
  rw [neg_zero] at this
  linarith

theorem flMul_im {a b : ℂ} (ha : a.im = 0) (hb : b.im = 0) : (i.A.cmul a b).im = 0 := by
  change i.r.rnd (i.r.rnd (a.re * b.im) + i.r.rnd (a.im * b.re)) = 0
  simp [ha, hb, i.r.zero]

theorem flMul_re {a : ℂ} (ha : a.re = 0) (w : ℝ) : (i.A.cmul a w).re = 0 := by
  change i.r.rnd (i.r.rnd (a.re * (w : ℂ).re) - i.r.rnd (a.im * (w : ℂ).im)) = 0
  simp [ha, i.r.zero]

theorem flDiv_im {a b : ℂ} (ha : a.im = 0) (hb : b.im = 0) : (i.A.cdiv a b).im = 0 := by
  change i.r.rnd (i.r.rnd (i.r.rnd (a.im * b.re) - i.r.rnd (a.re * b.im)) / _) = 0
  simp [ha, hb, i.r.zero]

theorem flSq_im {a : ℂ} (ha : a.re = 0 ∨ a.im = 0) : (i.A.csq a).im = 0 := by
  change i.r.rnd (i.r.rnd (a.re * a.im) + i.r.rnd (a.im * a.re)) = 0
  rcases ha with ha | ha <;> simp [ha, i.r.zero]

theorem flSub_im {a b : ℂ} (ha : a.im = 0) (hb : b.im = 0) : (i.A.csub a b).im = 0 := by
  change i.r.rnd (a.im - b.im) = 0
  simp [ha, hb, i.r.zero]

theorem flAdd_im {a b : ℂ} (ha : a.im = 0) (hb : b.im = 0) : (i.A.cadd a b).im = 0 := by
  change i.r.rnd (a.im + b.im) = 0
  simp [ha, hb, i.r.zero]

theorem flSub_re {a b : ℂ} (ha : a.re = 0) (hb : b.re = 0) : (i.A.csub a b).re = 0 := by
  change i.r.rnd (a.re - b.re) = 0
  simp [ha, hb, i.r.zero]

theorem flAdd_re {a b : ℂ} (ha : a.re = 0) (hb : b.re = 0) : (i.A.cadd a b).re = 0 := by
  change i.r.rnd (a.re + b.re) = 0
  simp [ha, hb, i.r.zero]

end exactZeros

/-! ### Prototypes -/

theorem sin_th_zero {n : ℕ} (hn : n ≠ 0) {m : ℤ} (hm : m ∈ stepRange (-(n : ℤ) + 1) n) (h : Real.sin (th n m) = 0) :
    m = 0 := by
  obtain ⟨h1, h2⟩ := th_bound hn hm
  have h3 := (Real.sin_eq_zero_iff_of_lt_of_lt (by linarith [Real.pi_pos]) (by linarith [Real.pi_pos])).mp h
  unfold th at h3
  have hn' : (2 * (n : ℝ)) ≠ 0 := by positivity
  rw [div_eq_zero_iff] at h3
  rcases h3 with h3 | h3
  · rcases mul_eq_zero.mp h3 with h4 | h4
    · exact absurd h4 Real.pi_pos.ne'
    · exact_mod_cast h4
  · exact absurd h3 hn'

theorem th_lt_four {n : ℕ} (hn : n ≠ 0) {m : ℤ} (hm : m ∈ stepRange (-(n : ℤ) + 1) n) : |th n m| < 4 := by
  obtain ⟨h1, h2⟩ := th_bound hn hm
  rw [abs_lt]
  constructor <;> linarith [Real.pi_lt_four]

/-- The angle of a Butterworth pole. -/
theorem tendsto_angle {n : ℕ} (hn : n ≠ 0) (m : ℤ) :
    Tendsto (fun i => i.A.div (i.A.mul i.A.pi (i.A.ofInt m)) (i.A.ofInt (2 * (n : ℤ)))) fine (𝓝 (th n m)) := by
  have e : th n m = Real.pi * (m : ℝ) / ((2 * (n : ℤ) : ℤ) : ℝ) := by unfold th; push_cast; rfl
  rw [e]
  refine tendsto_div (tendsto_mul tendsto_pi (tendsto_ofInt m)) (tendsto_ofInt _) ?_
  push_cast
  positivity

theorem cexp_th (x : ℝ) : exp ⟨0, x⟩ = ⟨Real.cos x, Real.sin x⟩ := by
  apply Complex.ext <;> simp [exp_re, exp_im]

theorem cexp_real (i : Setup) : (i.A.cexp ⟨0, 0⟩).im = 0 := by
  change i.r.rnd (i.m.exp 0 * i.m.sin 0) = 0
  rw [sin_zero', mul_zero, i.r.zero]

theorem buttap_lim {n : ℕ} (hn : n ≠ 0) : ZpkLim Axis KeepsReal (fun i => buttap i.A n) (buttap E n) := by
  refine ⟨.nil, ?_, tendsto_const_nhds⟩
  refine Along.of_map _ _ _ (fun m hm => ⟨?_, ?_⟩)
  · have h := (tendsto_cexp (tendsto_angle hn m) (th_lt_four hn hm)).neg
    have e : E.div (E.mul E.pi (E.ofInt m)) (E.ofInt (2 * (n : ℤ))) = th n m := by
      simp [Arith.exact, th]
    change Tendsto _ _ (𝓝 (-E.cexp ⟨0, E.div (E.mul E.pi (E.ofInt m)) (E.ofInt (2 * (n : ℤ)))⟩))
    rw [e]
    exact h
  · intro h0 i
    have e : E.div (E.mul E.pi (E.ofInt m)) (E.ofInt (2 * (n : ℤ))) = th n m := by
      simp [Arith.exact, th]
    have h1 : (-exp ⟨0, th n m⟩ : ℂ).im = 0 := by rw [← e]; exact h0
    rw [cexp_th] at h1
    have hm0 := sin_th_zero hn hm (by simpa using h1)
    subst hm0
    have e1 : i.A.ofInt 0 = 0 := by change i.r.rnd ((0 : ℤ) : ℝ) = 0; rw [Int.cast_zero, i.r.zero]
    have e2 : i.A.div (i.A.mul i.A.pi (i.A.ofInt 0)) (i.A.ofInt (2 * (n : ℤ))) = 0 := by
      rw [e1]
      change i.r.rnd (i.r.rnd (i.m.pi * 0) / _) = 0
      rw [mul_zero, i.r.zero, zero_div, i.r.zero]
    beta_reduce
    rw [e2, neg_im, cexp_real, neg_zero]

theorem cheb1Poles_lim {n : ℕ} (hn : n ≠ 0) {mu : Setup → ℝ} {mu0 : ℝ} (h : Tendsto mu fine (𝓝 mu0)) (h0 : 0 < mu0) :
    Along KeepsReal (fun i => cheb1Poles i.A n (mu i)) (cheb1Poles E n mu0) := by
  refine Along.of_map _ _ _ (fun m hm => ?_)
  have hang : Tendsto (fun i => i.A.mul i.A.pi (i.A.div (i.A.ofInt m) (i.A.ofInt (2 * (n : ℤ))))) fine (𝓝 (th n m)) := by
    have e : th n m = Real.pi * ((m : ℝ) / ((2 * (n : ℤ) : ℤ) : ℝ)) := by unfold th; push_cast; ring
    rw [e]
    refine tendsto_mul tendsto_pi (tendsto_div (tendsto_ofInt m) (tendsto_ofInt _) ?_)
    push_cast
    positivity
  have e : E.mul E.pi (E.div (E.ofInt m) (E.ofInt (2 * (n : ℤ)))) = th n m := by
    simp [Arith.exact, th]; ring
  rw [e]
  refine ⟨(tendsto_csinh h h0 hang (th_lt_four hn hm)).neg, fun h1 i => ?_⟩
  have h2 : (-Complex.sinh ⟨mu0, th n m⟩ : ℂ).im = 0 := h1
  have h3 : Complex.sinh ⟨mu0, th n m⟩ = ⟨Real.sinh mu0 * Real.cos (th n m), Real.cosh mu0 * Real.sin (th n m)⟩ := by
    have : (⟨mu0, th n m⟩ : ℂ) = (mu0 : ℂ) + (th n m : ℂ) * I := by apply Complex.ext <;> simp
    rw [this, Complex.sinh_add, Complex.cosh_mul_I, Complex.sinh_mul_I, ← ofReal_sinh, ← ofReal_cosh, ← ofReal_sin,
      ← ofReal_cos]
    apply Complex.ext <;> simp [-ofReal_sin, -ofReal_cos, -ofReal_sinh, -ofReal_cosh]
  rw [h3] at h2
  have h4 : Real.cosh mu0 * Real.sin (th n m) = 0 := by simpa using h2
  have hm0 := sin_th_zero hn hm ((mul_eq_zero.mp h4).resolve_left (Real.cosh_pos _).ne')
  subst hm0
  have e1 : i.A.ofInt 0 = 0 := by change i.r.rnd ((0 : ℤ) : ℝ) = 0; rw [Int.cast_zero, i.r.zero]
  have e2 : i.A.mul i.A.pi (i.A.div (i.A.ofInt 0) (i.A.ofInt (2 * (n : ℤ)))) = 0 := by
    rw [e1]
    change i.r.rnd (i.m.pi * i.r.rnd (0 / _)) = 0
    rw [zero_div, i.r.zero, mul_zero, i.r.zero]
  beta_reduce
  rw [e2, neg_im]
  change -i.r.rnd (i.m.cosh (mu i) * i.m.sin 0) = 0
  rw [sin_zero', mul_zero, i.r.zero, neg_zero]

theorem KeepsReal.tends {a : Setup → ℂ} {b : ℂ} (h : KeepsReal a b) : Tends a b := h.1
theorem Axis.tends {a : Setup → ℂ} {b : ℂ} (h : Axis a b) : Tends a b := h.1

theorem cheb1ap_lim {n : ℕ} (hn : n ≠ 0) {rp : ℝ} (hrp : 0 < rp) :
    ZpkLim Axis KeepsReal (fun i => cheb1ap i.A n rp) (cheb1ap E n rp) := by
  have hten : Tendsto (fun i : Setup => i.A.powf 10 (i.A.div rp 10)) fine (𝓝 ((10 : ℝ) ^ (rp / 10))) :=
    tendsto_powf (tendsto_div tendsto_const_nhds tendsto_const_nhds (by norm_num)) (by positivity)
  have h1 : (1 : ℝ) < (10 : ℝ) ^ (rp / 10) := Real.one_lt_rpow (by norm_num) (by positivity)
  have heps := tendsto_sqrt (tendsto_sub hten (b := fun _ => 1) (y := 1) tendsto_const_nhds)
  have hpos : 0 < √((10 : ℝ) ^ (rp / 10) - 1) := Real.sqrt_pos.mpr (by linarith)
  have hmu := tendsto_div (tendsto_asinh (tendsto_div (a := fun _ => 1) (x := 1) tendsto_const_nhds heps hpos.ne')
    (by positivity)) (tendsto_ofInt (n : ℤ)) (by push_cast; positivity)
  have hmu0 : 0 < Real.arsinh (1 / √((10 : ℝ) ^ (rp / 10) - 1)) / ((n : ℤ) : ℝ) := by
    have := Real.arsinh_pos_iff.mpr (show 0 < 1 / √((10 : ℝ) ^ (rp / 10) - 1) by positivity)
    push_cast
    positivity
  have hP := cheb1Poles_lim hn hmu hmu0
  have hk := tendsto_re (tendsto_foldMul (hP.map (Q := Tends) (fun _ z => -z) (fun z => -z) (fun a b _ h => h.tends.neg)))
  have e1 : ∀ A : Arith, cheb1ap A n rp = { z := [], p := cheb1Poles A n (A.div (A.asinh (A.div 1 (A.sqrt (A.sub (A.powf 10 (A.div rp 10)) 1)))) (A.ofInt n)), k := if n % 2 = 0 then A.div (foldMul A ((cheb1Poles A n (A.div (A.asinh (A.div 1 (A.sqrt (A.sub (A.powf 10 (A.div rp 10)) 1)))) (A.ofInt n))).map (fun z => -z))).re (A.sqrt (A.add 1 (A.mul (A.sqrt (A.sub (A.powf 10 (A.div rp 10)) 1)) (A.sqrt (A.sub (A.powf 10 (A.div rp 10)) 1))))) else (foldMul A ((cheb1Poles A n (A.div (A.asinh (A.div 1 (A.sqrt (A.sub (A.powf 10 (A.div rp 10)) 1)))) (A.ofInt n))).map (fun z => -z))).re } := by
    intro A
    unfold cheb1ap
    rw [if_neg hn]
  refine ⟨?_, ?_, ?_⟩
  · simp only [e1]; exact .nil
  · simp only [e1]; exact hP
  · simp only [e1]
    split
    · refine tendsto_div hk (tendsto_sqrt (tendsto_add (a := fun _ => 1) (x := 1) tendsto_const_nhds (tendsto_mul heps heps))) ?_
      exact (Real.sqrt_pos.mpr (add_pos one_pos (mul_pos hpos hpos))).ne'
    · exact hk

theorem cheb2Zeros_lim {n : ℕ} (hn : n ≠ 0) : Along Axis (fun i => cheb2Zeros i.A n) (cheb2Zeros E n) := by
  refine Along.of_map _ _ _ (fun m hm => ?_)
  have hs := Props.cheb2Ms_sin hm
  have hm' : m ∈ stepRange (-(n : ℤ) + 1) n := by
    rw [(Props.cheb2Ms_perm n).mem_iff]
    split
    · exact List.mem_cons_of_mem _ hm
    · exact hm
  have hang : Tendsto (fun i => i.A.mul (i.A.ofInt m) (i.A.div i.A.pi (i.A.mul 2 (i.A.ofInt (n : ℤ))))) fine (𝓝 (th n m)) := by
    have e : th n m = (m : ℝ) * (Real.pi / (2 * ((n : ℤ) : ℝ))) := by unfold th; push_cast; ring
    rw [e]
    refine tendsto_mul (tendsto_ofInt m) (tendsto_div tendsto_pi (tendsto_mul tendsto_const_nhds (tendsto_ofInt _)) ?_)
    push_cast
    positivity
  have e : E.mul (E.ofInt m) (E.div E.pi (E.mul 2 (E.ofInt (n : ℤ)))) = th n m := by
    simp [Arith.exact, th]; ring
  rw [e]
  have hS := tendsto_ofReal (tendsto_sin hang (th_lt_four hn hm'))
  have hq := tendsto_cdiv (a := fun _ => I) (x := I) tendsto_const_nhds hS (by exact_mod_cast hs)
  have hre : ∀ (i : Setup) (x : ℝ), (i.A.cdiv I (x : ℂ)).re = 0 := by
    intro i x
    change i.r.rnd (i.r.rnd (i.r.rnd (I.re * (x : ℂ).re) + i.r.rnd (I.im * (x : ℂ).im)) / _) = 0
    simp [i.r.zero]
  have e2 : (E.cdiv I ((E.sin (th n m) : ℝ) : ℂ)) = ⟨0, 1 / Real.sin (th n m)⟩ := by
    change I / ((Real.sin (th n m) : ℝ) : ℂ) = _
    apply Complex.ext
    · simp [-ofReal_sin]
    · simp [-ofReal_sin]
  refine ⟨((continuous_conj.tendsto _).comp hq).neg, ?_, fun i => ?_, fun h => ?_⟩
  · rw [e2]; simp
  · rw [neg_re, conj_re, hre, neg_zero]
  · rw [e2] at h
    simp at h
    exact absurd h hs

theorem cheb2Poles_lim {n : ℕ} (hn : n ≠ 0) {mu : Setup → ℝ} {mu0 : ℝ} (h : Tendsto mu fine (𝓝 mu0)) (h0 : 0 < mu0) :
    Along KeepsReal (fun i => cheb2Poles i.A n (mu i)) (cheb2Poles E n mu0) := by
  refine Along.of_map _ _ _ (fun m hm => ?_)
  have hang : Tendsto (fun i => i.A.div (i.A.mul i.A.pi (i.A.ofInt m)) (i.A.mul 2 (i.A.ofInt (n : ℤ)))) fine (𝓝 (th n m)) := by
    have e : th n m = Real.pi * (m : ℝ) / (2 * ((n : ℤ) : ℝ)) := by unfold th; push_cast; rfl
    rw [e]
    refine tendsto_div (tendsto_mul tendsto_pi (tendsto_ofInt m)) (tendsto_mul tendsto_const_nhds (tendsto_ofInt _)) ?_
    push_cast
    positivity
  have e : E.div (E.mul E.pi (E.ofInt m)) (E.mul 2 (E.ofInt (n : ℤ))) = th n m := by
    simp [Arith.exact, th]
  dsimp only
  rw [e]
  have hz := (tendsto_cexp hang (th_lt_four hn hm)).neg
  have hcos := cos_th_pos hn hm
  have hb := tendsto_mk (tendsto_mul (tendsto_sinh h h0) (tendsto_re hz)) (tendsto_mul (tendsto_cosh h h0) (tendsto_im hz))
  have hne : (⟨Real.sinh mu0 * (-exp ⟨0, th n m⟩ : ℂ).re, Real.cosh mu0 * (-exp ⟨0, th n m⟩ : ℂ).im⟩ : ℂ) ≠ 0 := by
    intro h1
    have h2 := congrArg Complex.re h1
    rw [cexp_th] at h2
    have h3 : Real.sinh mu0 * -Real.cos (th n m) = 0 := h2
    have := Real.sinh_pos_iff.mpr h0
    rcases mul_eq_zero.mp h3 with h4 | h4 <;> linarith
  have hq := tendsto_cdiv (a := fun _ => 1) (x := 1) tendsto_const_nhds hb hne
  refine ⟨hq, fun h1 i => ?_⟩
  have h2 : (1 / (⟨Real.sinh mu0 * (-exp ⟨0, th n m⟩ : ℂ).re, Real.cosh mu0 * (-exp ⟨0, th n m⟩ : ℂ).im⟩ : ℂ)).im = 0 := h1
  rw [cexp_th, one_div, inv_im, div_eq_zero_iff] at h2
  have h3 : Real.cosh mu0 * -Real.sin (th n m) = 0 := by
    rcases h2 with h2 | h2
    · simpa using h2
    · rw [cexp_th] at hne
      exact absurd (normSq_eq_zero.mp h2) hne
  have hm0 := sin_th_zero hn hm (by
    have := (mul_eq_zero.mp h3).resolve_left (Real.cosh_pos _).ne'
    linarith)
  subst hm0
  have e1 : i.A.ofInt 0 = 0 := by change i.r.rnd ((0 : ℤ) : ℝ) = 0; rw [Int.cast_zero, i.r.zero]
  have e2 : i.A.div (i.A.mul i.A.pi (i.A.ofInt 0)) (i.A.mul 2 (i.A.ofInt (n : ℤ))) = 0 := by
    rw [e1]
    change i.r.rnd (i.r.rnd (i.m.pi * 0) / _) = 0
    rw [mul_zero, i.r.zero, zero_div, i.r.zero]
  beta_reduce
  rw [e2]
  refine flDiv_im i rfl ?_
  change i.r.rnd (_ * (-i.A.cexp ⟨0, 0⟩).im) = 0
  rw [neg_im, cexp_real, neg_zero, mul_zero, i.r.zero]

theorem prod_ne_zero_of {l : List ℂ} (h : ∀ x ∈ l, x ≠ 0) : l.prod ≠ 0 := by
  rw [Ne, List.prod_eq_zero_iff]
  exact fun h0 => h 0 h0 rfl

theorem foldMul_E (l : List ℂ) : foldMul E l = l.prod := by rw [foldMul_exact]; exact foldMul_eq l

theorem cheb2ap_lim {n : ℕ} (hn : n ≠ 0) {rs : ℝ} (hrs : 0 < rs) :
    ZpkLim Axis KeepsReal (fun i => cheb2ap i.A n rs) (cheb2ap E n rs) := by
  have hten : Tendsto (fun i : Setup => i.A.powf 10 (i.A.mul (i.A.div 1 10) rs)) fine (𝓝 ((10 : ℝ) ^ (1 / 10 * rs))) :=
    tendsto_powf (tendsto_mul (tendsto_div tendsto_const_nhds tendsto_const_nhds (by norm_num)) tendsto_const_nhds)
      (by positivity)
  have h1 : (1 : ℝ) < (10 : ℝ) ^ (1 / 10 * rs) := Real.one_lt_rpow (by norm_num) (by positivity)
  have heps := tendsto_sqrt (tendsto_sub hten (b := fun _ => 1) (y := 1) tendsto_const_nhds)
  have hpos : 0 < √((10 : ℝ) ^ (1 / 10 * rs) - 1) := Real.sqrt_pos.mpr (by linarith)
  have hde := tendsto_div (a := fun _ => 1) (x := 1) tendsto_const_nhds heps hpos.ne'
  have hde0 : 0 < 1 / √((10 : ℝ) ^ (1 / 10 * rs) - 1) := by positivity
  have hmu := tendsto_div (tendsto_asinh (tendsto_div (a := fun _ => 1) (x := 1) tendsto_const_nhds hde hde0.ne')
    (by positivity)) (tendsto_ofInt (n : ℤ)) (by push_cast; positivity)
  have hmu0 : 0 < Real.arsinh (1 / (1 / √((10 : ℝ) ^ (1 / 10 * rs) - 1))) / ((n : ℤ) : ℝ) := by
    have := Real.arsinh_pos_iff.mpr (show 0 < 1 / (1 / √((10 : ℝ) ^ (1 / 10 * rs) - 1)) by positivity)
    push_cast
    positivity
  have hP := cheb2Poles_lim hn hmu hmu0
  have hZ := cheb2Zeros_lim hn
  have hkp := tendsto_foldMul (hP.map (Q := Tends) (fun _ z => -z) (fun z => -z) (fun a b _ h => h.tends.neg))
  have hkz := tendsto_foldMul (hZ.map (Q := Tends) (fun _ z => -z) (fun z => -z) (fun a b _ h => h.tends.neg))
  have hz0 : foldMul E ((cheb2Zeros E n).map (fun x => -x)) ≠ 0 := by
    rw [foldMul_E]
    refine prod_ne_zero_of (fun x hx => ?_)
    obtain ⟨y, hy, rfl⟩ := List.mem_map.mp hx
    have : y ∈ Design.cheb2Zeros n := by
      have : cheb2Zeros E n = Design.cheb2Zeros n := by simp [cheb2Zeros, Design.cheb2Zeros, Arith.exact]
      rwa [← this]
    intro h0
    rw [Props.cheb2Zeros_eq] at this
    obtain ⟨m, hm, rfl⟩ := List.mem_map.mp this
    have hs := Props.cheb2Ms_sin hm
    rcases div_eq_zero_iff.mp (neg_eq_zero.mp h0) with h1 | h1
    · exact I_ne_zero h1
    · exact hs (by exact_mod_cast h1)
  have hk := tendsto_re (tendsto_cdiv hkp hkz hz0)
  have e1 : ∀ A : Arith, cheb2ap A n rs = { z := cheb2Zeros A n, p := cheb2Poles A n (A.div (A.asinh (A.div 1 (A.div 1 (A.sqrt (A.sub (A.powf 10 (A.mul (A.div 1 10) rs)) 1))))) (A.ofInt n)), k := (A.cdiv (foldMul A ((cheb2Poles A n (A.div (A.asinh (A.div 1 (A.div 1 (A.sqrt (A.sub (A.powf 10 (A.mul (A.div 1 10) rs)) 1))))) (A.ofInt n))).map (fun x => -x))) (foldMul A ((cheb2Zeros A n).map (fun x => -x)))).re } := by
    intro A
    unfold cheb2ap
    rw [if_neg hn]
  refine ⟨?_, ?_, ?_⟩
  · simp only [e1]; exact hZ
  · simp only [e1]; exact hP
  · simp only [e1]; exact hk

theorem prototype_lim {n : ℕ} (hn : n ≠ 0) {ftype : FType} {rp rs : Option ℝ} (hr : PositiveRipple ftype rp rs) {g : Zpk}
    (h : Design.prototype n ftype rp rs = .ok g) :
    ∃ f : Setup → Zpk, (∀ i, prototype i.A n ftype rp rs = .ok (f i)) ∧ ZpkLim Axis KeepsReal f g := by
  rw [← prototype_exact 0] at h
  cases ftype with
  | butterworth => cases h; exact ⟨_, fun i => rfl, buttap_lim hn⟩
  | chebyshevI =>
    cases rp with
    | none => simp [prototype] at h
    | some r => cases h; exact ⟨_, fun i => rfl, cheb1ap_lim hn (hr.1 rfl r rfl)⟩
  | chebyshevII =>
    cases rp with
    | none => simp [prototype] at h
    | some r =>
      cases rs with
      | none => simp [prototype] at h
      | some q => cases h; exact ⟨_, fun i => rfl, cheb2ap_lim hn (hr.2 rfl q rfl)⟩
  | cauerElliptic => simp [prototype] at h
  | besselThomson => simp [prototype] at h

/-! ### The frequency transformations -/

theorem relDeg_const {f : Setup → Zpk} {g : Zpk} {Rz Rp : (Setup → ℂ) → ℂ → Prop} (h : ZpkLim Rz Rp f g)
    (hl : g.z.length ≤ g.p.length) (i : Setup) :
    relativeDegree (f i).z (f i).p = .ok (g.p.length - g.z.length) := by
  have h1 := h.z.length i
  have h2 := h.p.length i
  rw [relativeDegree_ok (by omega), h1, h2]

theorem Axis.scale {a : Setup → ℂ} {b : ℂ} (h : Axis a b) {w : Setup → ℝ} {w0 : ℝ} (hw : Tendsto w fine (𝓝 w0))
    (hw0 : w0 ≠ 0) : Axis (fun i => i.A.cmul (a i) (w i : ℂ)) (b * (w0 : ℂ)) := by
  obtain ⟨h1, h2, h3, h4⟩ := h
  refine ⟨tendsto_cmul h1 (tendsto_ofReal hw), ?_, fun i => flMul_re i (h3 i) _, fun h i => flMul_im i (h4 ?_ i) rfl⟩
  · rw [re_mul_ofReal, h2, zero_mul]
  · rw [im_mul_ofReal] at h
    exact (mul_eq_zero.mp h).resolve_right hw0

theorem KeepsReal.scale {a : Setup → ℂ} {b : ℂ} (h : KeepsReal a b) {w : Setup → ℝ} {w0 : ℝ} (hw : Tendsto w fine (𝓝 w0))
    (hw0 : w0 ≠ 0) : KeepsReal (fun i => i.A.cmul (a i) (w i : ℂ)) (b * (w0 : ℂ)) := by
  obtain ⟨h1, h4⟩ := h
  refine ⟨tendsto_cmul h1 (tendsto_ofReal hw), fun h i => flMul_im i (h4 ?_ i) rfl⟩
  rw [im_mul_ofReal] at h
  exact (mul_eq_zero.mp h).resolve_right hw0

theorem axis_const {w : Setup → ℝ} {w0 : ℝ} (hw : Tendsto w fine (𝓝 w0)) (h0 : w0 ≠ 0) :
    Axis (fun i => ⟨0, w i⟩) ⟨0, w0⟩ :=
  ⟨tendsto_mk tendsto_const_nhds hw, rfl, fun _ => rfl, fun h => absurd h h0⟩

theorem axis_zero : Axis (fun _ => 0) 0 := ⟨tendsto_const_nhds, rfl, fun _ => rfl, fun _ _ => rfl⟩

/-- The square root in the band transformations, for a root that is on the left. -/
theorem tendsto_root {a : Setup → ℂ} {b : ℂ} (h : KeepsReal a b) (hb : b.re < 0) {w : Setup → ℝ} {w0 : ℝ}
    (hw : Tendsto w fine (𝓝 w0)) (hw0 : 0 < w0) :
    Tendsto (fun i => i.A.csqrt (i.A.csub (i.A.csq (a i)) (i.A.powi (w i) 2 : ℝ))) fine
      (𝓝 (csqrt (b ^ 2 - ((w0 ^ 2 : ℝ) : ℂ)))) := by
  have hD := tendsto_csub (tendsto_csq h.1) (tendsto_ofReal (tendsto_powi 2 hw hw0))
  by_cases hb0 : b.im = 0
  · refine tendsto_csqrt_real hD ?_ (fun i => flSub_im i (flSq_im i (.inr (h.2 hb0 i))) rfl)
    rw [sub_im, ofReal_im, sq, mul_im, hb0]
    ring
  · refine tendsto_csqrt hD ?_
    rw [sub_im, ofReal_im, sq, mul_im]
    intro h0
    have : b.re * b.im = 0 := by linarith
    rcases mul_eq_zero.mp this with h1 | h1
    · linarith
    · exact hb0 h1

theorem splitPm_lim {F : Setup → List ℂ} {L : List ℂ} (h : Along KeepsReal F L) (hL : ∀ b ∈ L, b.re < 0)
    {w : Setup → ℝ} {w0 : ℝ} (hw : Tendsto w fine (𝓝 w0)) (hw0 : 0 < w0) :
    Along Tends (fun i => splitPm i.A (F i) (w i)) (splitPm E L w0) := by
  simp only [splitPm_eq]
  refine Along.append (h.map _ _ (fun a b hb hab => ?_)) (h.map _ _ (fun a b hb hab => ?_))
  · exact tendsto_cadd hab.1 (tendsto_root hab (hL b hb) hw hw0)
  · exact tendsto_csub hab.1 (tendsto_root hab (hL b hb) hw hw0)

/-- Real square roots of negative numbers. -/
theorem axis_root {a : Setup → ℂ} {b : ℂ} (h : Axis a b) {w : Setup → ℝ} {w0 : ℝ}
    (hw : Tendsto w fine (𝓝 w0)) (hw0 : 0 < w0) :
    ∃ s : ℝ, |b.im| < s ∧ csqrt (b ^ 2 - ((w0 ^ 2 : ℝ) : ℂ)) = ⟨0, s⟩ ∧
      Tendsto (fun i => i.A.csqrt (i.A.csub (i.A.csq (a i)) (i.A.powi (w i) 2 : ℝ))) fine (𝓝 ⟨0, s⟩) := by
  obtain ⟨h1, h2, h3, h4⟩ := h
  have hD := tendsto_csub (tendsto_csq h1) (tendsto_ofReal (tendsto_powi 2 hw hw0))
  have e : b ^ 2 - ((w0 ^ 2 : ℝ) : ℂ) = ((-(b.im ^ 2 + w0 ^ 2) : ℝ) : ℂ) := by
    apply Complex.ext
    · simp [sq, h2]; ring
    · rw [sub_im, ofReal_im, ofReal_im, sq, mul_im, h2]; ring
  have hneg : -(b.im ^ 2 + w0 ^ 2) < 0 := by
    have := sq_nonneg b.im
    have := sq_pos_of_pos hw0
    linarith
  have hT := tendsto_csqrt_real hD (by rw [e, ofReal_im]) (fun i => flSub_im i (flSq_im i (.inl (h3 i))) rfl)
  rw [e, csqrt_neg hneg] at hT
  refine ⟨√(-(-(b.im ^ 2 + w0 ^ 2))), ?_, by rw [e, csqrt_neg hneg], hT⟩
  refine Real.lt_sqrt_of_sq_lt ?_
  rw [sq_abs]
  have := sq_pos_of_pos hw0
  linarith

/-- A limit on the imaginary axis. -/
def OnAxis (a : Setup → ℂ) (b : ℂ) : Prop := KeepsReal a b ∧ b.re = 0

theorem Axis.onAxis {a : Setup → ℂ} {b : ℂ} (h : Axis a b) : OnAxis a b := ⟨⟨h.1, h.2.2.2⟩, h.2.1⟩

theorem onAxis_of {a : Setup → ℂ} {y : ℝ} (h : Tendsto a fine (𝓝 ⟨0, y⟩)) (hy : y ≠ 0) : OnAxis a ⟨0, y⟩ :=
  ⟨⟨h, fun h0 => absurd h0 hy⟩, rfl⟩

theorem splitPm_axis {F : Setup → List ℂ} {L : List ℂ} (h : Along Axis F L)
    {w : Setup → ℝ} {w0 : ℝ} (hw : Tendsto w fine (𝓝 w0)) (hw0 : 0 < w0) :
    Along OnAxis (fun i => splitPm i.A (F i) (w i)) (splitPm E L w0) := by
  simp only [splitPm_eq]
  refine Along.append (h.map _ _ (fun a b hb hab => ?_)) (h.map _ _ (fun a b hb hab => ?_))
  · obtain ⟨s, hs, e, hT⟩ := axis_root hab hw hw0
    have h1 := tendsto_cadd hab.1 hT
    have e1 : b + ⟨0, s⟩ = ⟨0, b.im + s⟩ := by apply Complex.ext <;> simp [hab.2.1]
    change OnAxis _ (b + csqrt (b ^ 2 - ((w0 ^ 2 : ℝ) : ℂ)))
    rw [e1] at h1
    rw [e, e1]
    exact onAxis_of h1 (by have := abs_lt.mp hs; linarith)
  · obtain ⟨s, hs, e, hT⟩ := axis_root hab hw hw0
    have h1 := tendsto_csub hab.1 hT
    have e1 : b - ⟨0, s⟩ = ⟨0, b.im - s⟩ := by apply Complex.ext <;> simp [hab.2.1]
    change OnAxis _ (b - csqrt (b ^ 2 - ((w0 ^ 2 : ℝ) : ℂ)))
    rw [e1] at h1
    rw [e, e1]
    exact onAxis_of h1 (by have := abs_lt.mp hs; linarith)

theorem lp2lp_lim {f : Setup → Zpk} {g : Zpk} (h : ZpkLim Axis KeepsReal f g) (hl : g.z.length ≤ g.p.length)
    {w : Setup → ℝ} {w0 : ℝ} (hw : Tendsto w fine (𝓝 w0)) (hw0 : 0 < w0) {g' : Zpk} (hg : lp2lp E g (some w0) = .ok g') :
    ∃ f' : Setup → Zpk, (∀ i, lp2lp i.A (f i) (some (w i)) = .ok (f' i)) ∧ ZpkLim OnAxis KeepsReal f' g' := by
  simp only [lp2lp, relativeDegree_ok hl, ok_bind] at hg
  cases hg
  refine ⟨_, fun i => by simp only [lp2lp, relDeg_const h hl, ok_bind]; rfl, ?_, ?_, ?_⟩
  · exact h.z.map _ _ (fun a b _ hab => (hab.scale hw hw0.ne').onAxis)
  · exact h.p.map _ _ (fun a b _ hab => hab.scale hw hw0.ne')
  · exact tendsto_mul h.k (tendsto_powi _ hw hw0)

theorem neg_prod {f : Setup → Zpk} {g : Zpk} {Rz : (Setup → ℂ) → ℂ → Prop} (h : ZpkLim Rz KeepsReal f g) :
    Tendsto (fun i => foldMul i.A ((f i).p.map (fun pi => i.A.cmul (-1 : ℂ) pi))) fine
      (𝓝 (foldMul E (g.p.map (fun pi => E.cmul (-1 : ℂ) pi)))) :=
  tendsto_foldMul (h.p.map (Q := Tends) _ _ (fun _ _ _ hab => tendsto_cmul tendsto_const_nhds hab.1))

theorem neg_prod_ne {l : List ℂ} (h : ∀ b ∈ l, b.re < 0) : foldMul E (l.map (fun pi => E.cmul (-1 : ℂ) pi)) ≠ 0 := by
  rw [foldMul_E]
  refine prod_ne_zero_of (fun x hx => ?_)
  obtain ⟨y, hy, rfl⟩ := List.mem_map.mp hx
  change -1 * y ≠ 0
  intro h0
  have h1 : y = 0 := by simpa using h0
  have := h y hy
  rw [h1] at this
  simp at this

theorem lp2hp_lim {f : Setup → Zpk} {g : Zpk} (h : ZpkLim Axis KeepsReal f g) (hz : g.z = []) (hp : ∀ b ∈ g.p, b.re < 0)
    {w : Setup → ℝ} {w0 : ℝ} (hw : Tendsto w fine (𝓝 w0)) (hw0 : w0 ≠ 0) {g' : Zpk} (hg : lp2hp E g (some w0) = .ok g') :
    ∃ f' : Setup → Zpk, (∀ i, lp2hp i.A (f i) (some (w i)) = .ok (f' i)) ∧ ZpkLim OnAxis KeepsReal f' g' := by
  have hl : g.z.length ≤ g.p.length := by rw [hz]; simp
  have hz' := h.z
  rw [hz] at hz'
  have hzf : ∀ i, (f i).z = [] := fun i => congrFun hz'.nil_of i
  simp only [lp2hp, relativeDegree_ok hl, ok_bind] at hg
  cases hg
  refine ⟨_, fun i => by simp only [lp2hp, relDeg_const h hl, ok_bind]; rfl, ?_, ?_, ?_⟩
  · refine Along.append ?_ (Along.replicate axis_zero.onAxis _)
    simp only [hzf, hz]
    exact .nil
  · refine h.p.map _ _ (fun a b hb hab => ?_)
    have hb0 : b ≠ 0 := by
      intro h0
      have := hp b hb
      rw [h0] at this
      simp at this
    refine ⟨tendsto_cdiv (tendsto_ofReal hw) hab.1 hb0, fun h0 i => flDiv_im i rfl (hab.2 ?_ i)⟩
    have h1 : ((w0 : ℂ) / b).im = 0 := h0
    rw [div_eq_mul_inv, im_ofReal_mul, inv_im] at h1
    rcases div_eq_zero_iff.mp ((mul_eq_zero.mp h1).resolve_left hw0) with h3 | h3
    · linarith
    · exact absurd (normSq_eq_zero.mp h3) hb0
  · simp only [hzf, hz]
    exact tendsto_mul h.k (tendsto_re (tendsto_cdiv tendsto_const_nhds (neg_prod h) (neg_prod_ne hp)))

theorem lp2bp_lim {f : Setup → Zpk} {g : Zpk} (h : ZpkLim Axis KeepsReal f g) (hl : g.z.length ≤ g.p.length)
    (hp : ∀ b ∈ g.p, b.re < 0)
    {w v : Setup → ℝ} {w0 v0 : ℝ} (hw : Tendsto w fine (𝓝 w0)) (hw0 : 0 < w0) (hv : Tendsto v fine (𝓝 v0)) (hv0 : 0 < v0)
    {g' : Zpk} (hg : lp2bp E g (some w0) (some v0) = .ok g') :
    ∃ f' : Setup → Zpk, (∀ i, lp2bp i.A (f i) (some (w i)) (some (v i)) = .ok (f' i)) ∧ ZpkLim OnAxis Tends f' g' := by
  simp only [lp2bp, relativeDegree_ok hl, ok_bind] at hg
  cases hg
  have hh := tendsto_div hv (b := fun _ => 2) (y := 2) tendsto_const_nhds (by norm_num)
  have hh0 : v0 / 2 ≠ 0 := by positivity
  refine ⟨_, fun i => by simp only [lp2bp, relDeg_const h hl, ok_bind]; rfl, ?_, ?_, ?_⟩
  · refine Along.append ?_ (Along.replicate axis_zero.onAxis _)
    exact splitPm_axis (h.z.map _ _ (fun a b _ hab => hab.scale hh hh0)) hw hw0
  · refine splitPm_lim (h.p.map _ _ (fun a b _ hab => hab.scale hh hh0)) ?_ hw hw0
    intro b hb
    obtain ⟨q, hq, rfl⟩ := List.mem_map.mp hb
    exact mul_left_half (show 0 < v0 / 2 by positivity) (hp q hq)
  · exact tendsto_mul h.k (tendsto_powi _ hv hv0)

theorem mk_div_I (c : ℝ) (q : ℂ) : (⟨0, c⟩ : ℂ) / q * (-I) = (c : ℂ) / q := by
  rw [mk_zero_im]
  have := I_mul_I
  linear_combination (-(c : ℂ) / q) * this

theorem lp2bs_lim {f : Setup → Zpk} {g : Zpk} (h : ZpkLim Axis KeepsReal f g) (hz : g.z = []) (hp : ∀ b ∈ g.p, b.re < 0)
    (hc : ConjClosed g.p)
    {w v : Setup → ℝ} {w0 v0 : ℝ} (hw : Tendsto w fine (𝓝 w0)) (hw0 : 0 < w0) (hv : Tendsto v fine (𝓝 v0)) (hv0 : 0 < v0)
    {g' : Zpk} (hg : lp2bs E g (some w0) (some v0) = .ok g') :
    ∃ f' : Setup → Zpk, (∀ i, lp2bs i.A (f i) (some (w i)) (some (v i)) = .ok (f' i)) ∧ ZpkLim OnAxis Tends f' g' := by
  have hl : g.z.length ≤ g.p.length := by rw [hz]; simp
  have hz' := h.z
  rw [hz] at hz'
  have hzf : ∀ i, (f i).z = [] := fun i => congrFun hz'.nil_of i
  simp only [lp2bs, relativeDegree_ok hl, ok_bind] at hg
  cases hg
  have hh := tendsto_div hv (b := fun _ => 2) (y := 2) tendsto_const_nhds (by norm_num)
  have hh0 : v0 / 2 ≠ 0 := by positivity
  refine ⟨_, fun i => by simp only [lp2bs, relDeg_const h hl, ok_bind]; rfl, ?_, ?_, ?_⟩
  · refine Along.append (Along.append ?_ (Along.replicate ?_ _)) (Along.replicate ?_ _)
    · simp only [hzf, hz]
      exact .nil
    · refine (axis_const (tendsto_mul tendsto_const_nhds hw) ?_).onAxis
      rw [one_mul]; exact hw0.ne'
    · refine (axis_const (tendsto_mul tendsto_const_nhds hw) ?_).onAxis
      rw [neg_one_mul]; exact (neg_lt_zero.mpr hw0).ne
  · refine splitPm_lim (h.p.map _ _ (fun a b hb hab => ?_)) ?_ hw hw0
    · have hb0 : b ≠ 0 := by
        intro h0
        have := hp b hb
        rw [h0] at this
        simp at this
      have hT := tendsto_cmul (tendsto_cdiv (tendsto_mk (a := fun _ => 0) (x := 0) tendsto_const_nhds hh) hab.1 hb0) (b := fun _ => -I) (y := -I)
        tendsto_const_nhds
      refine ⟨hT, fun h0 i => ?_⟩
      have hbi : b.im = 0 := by
        have h1 : ((⟨0, v0 / 2⟩ : ℂ) / b * (-I)).im = 0 := h0
        rw [mk_div_I, div_eq_mul_inv, im_ofReal_mul, inv_im] at h1
        rcases mul_eq_zero.mp h1 with h2 | h2
        · exact absurd h2 hh0
        · rcases div_eq_zero_iff.mp h2 with h3 | h3
          · linarith
          · exact absurd (normSq_eq_zero.mp h3) hb0
      have ha := hab.2 hbi i
      have hre : (i.A.cdiv (⟨0, i.A.div (v i) 2⟩ : ℂ) (a i)).re = 0 := by
        change i.r.rnd (i.r.rnd (i.r.rnd (0 * (a i).re) + i.r.rnd (_ * (a i).im)) / _) = 0
        simp [ha, i.r.zero]
      change i.r.rnd (i.r.rnd ((i.A.cdiv (⟨0, i.A.div (v i) 2⟩ : ℂ) (a i)).re * (-I).im) + i.r.rnd (_ * (-I).re)) = 0
      rw [hre]
      simp [i.r.zero]
    · intro b hb
      obtain ⟨q, hq, rfl⟩ := List.mem_map.mp hb
      change ((⟨0, v0 / 2⟩ : ℂ) / q * (-I)).re < 0
      rw [mk_div_I]
      exact inv_left (by positivity) (hp q hq)
  · simp only [hzf, hz]
    refine tendsto_mul h.k (tendsto_div tendsto_const_nhds (tendsto_re (neg_prod h)) ?_)
    have h1 := neg_prod_ne hp
    have h2 : (foldMul E (g.p.map (fun pi => E.cmul (-1 : ℂ) pi))).im = 0 := by
      rw [foldMul_E]
      have h4 := congrArg Complex.im (conjClosed_prod_neg_real hc)
      rw [ofReal_im] at h4
      exact h4.symm
    intro h3
    exact h1 (Complex.ext h3 h2)

theorem bandTransform_lim {f : Setup → Zpk} {g : Zpk} (h : ZpkLim Axis KeepsReal f g) (hl : g.z.length ≤ g.p.length)
    (hp : ∀ b ∈ g.p, b.re < 0) (hc : ConjClosed g.p) {band : Band} (hz : band = .highpass ∨ band = .bandstop → g.z = [])
    {e : Setup → List ℝ} {e0 : List ℝ} (he : Along Tends e e0) (hE : EdgesOk band e0) {g' : Zpk}
    (hg : Design.bandTransform band g e0 = .ok g') :
    ∃ f' : Setup → Zpk, (∀ i, bandTransform i.A band (f i) (e i) = .ok (f' i)) ∧ ZpkLim OnAxis Tends f' g' ∧
      (band = .lowpass ∨ band = .highpass → Along KeepsReal (fun i => (f' i).p) g'.p) := by
  rw [← bandTransform_exact 0] at hg
  match band, e0, hE with
  | .lowpass, [a], hE =>
    obtain ⟨w, rfl, hw⟩ := he.one
    obtain ⟨f', h1, h2⟩ := lp2lp_lim h hl hw hE hg
    exact ⟨f', h1, ⟨h2.z, h2.p.imp fun _ _ _ h => h.1, h2.k⟩, fun _ => h2.p⟩
  | .highpass, [a], hE =>
    obtain ⟨w, rfl, hw⟩ := he.one
    have ha : (0 : ℝ) < a := hE
    obtain ⟨f', h1, h2⟩ := lp2hp_lim h (hz (.inl rfl)) hp hw ha.ne' hg
    exact ⟨f', h1, ⟨h2.z, h2.p.imp fun _ _ _ h => h.1, h2.k⟩, fun _ => h2.p⟩
  | .bandpass, [a, b], hE =>
    obtain ⟨ha, hab⟩ : (0 : ℝ) < a ∧ a < b := hE
    obtain ⟨w, v, rfl, hw, hv⟩ := he.two
    obtain ⟨f', h1, h2⟩ := lp2bp_lim h hl hp (tendsto_sqrt (tendsto_mul hw hv))
      (Real.sqrt_pos.mpr (mul_pos ha (by linarith))) (tendsto_sub hv hw) (sub_pos.mpr hab) hg
    exact ⟨f', h1, h2, by simp⟩
  | .bandstop, [a, b], hE =>
    obtain ⟨ha, hab⟩ : (0 : ℝ) < a ∧ a < b := hE
    obtain ⟨w, v, rfl, hw, hv⟩ := he.two
    obtain ⟨f', h1, h2⟩ := lp2bs_lim h (hz (.inr rfl)) hp hc (tendsto_sqrt (tendsto_mul hw hv))
      (Real.sqrt_pos.mpr (mul_pos ha (by linarith))) (tendsto_sub hv hw) (sub_pos.mpr hab) hg
    exact ⟨f', h1, h2, by simp⟩

/-- A limit on the unit circle. -/
def OnCircle (a : Setup → ℂ) (b : ℂ) : Prop := KeepsReal a b ∧ ‖b‖ = 1

theorem cayley_real {b : ℂ} (hb : ((2 * 2 : ℝ) : ℂ) - b ≠ 0) (h1 : ((((2 * 2 : ℝ) : ℂ) + b) / (((2 * 2 : ℝ) : ℂ) - b)).im = 0) :
    b.im = 0 := by
  have hn : normSq (((2 * 2 : ℝ) : ℂ) - b) ≠ 0 := fun h => hb (normSq_eq_zero.mp h)
  rw [div_im, ← sub_div, div_eq_zero_iff] at h1
  have h2 := h1.resolve_right hn
  simp only [add_im, add_re, sub_im, sub_re, ofReal_re, ofReal_im] at h2
  linarith

theorem cayley_norm {b : ℂ} (hb : b.re = 0) (h : ((2 * 2 : ℝ) : ℂ) - b ≠ 0) :
    ‖(((2 * 2 : ℝ) : ℂ) + b) / (((2 * 2 : ℝ) : ℂ) - b)‖ = 1 := by
  have e : ((2 * 2 : ℝ) : ℂ) + b = (starRingEnd ℂ) (((2 * 2 : ℝ) : ℂ) - b) := by
    apply Complex.ext <;> simp [hb]
  rw [e, norm_div, norm_conj, div_self (norm_ne_zero_iff.mpr h)]

theorem bilinear_lim {f : Setup → Zpk} {g : Zpk} (h : ZpkLim OnAxis Tends f g) (hl : g.z.length ≤ g.p.length)
    (hp : ∀ b ∈ g.p, b.re < 0) {g' : Zpk} (hg : bilinear E g 2 = .ok g') :
    ∃ f' : Setup → Zpk, (∀ i, bilinear i.A (f i) 2 = .ok (f' i)) ∧ ZpkLim OnCircle Tends f' g' ∧
      (Along KeepsReal (fun i => (f i).p) g.p → Along KeepsReal (fun i => (f' i).p) g'.p) := by
  have h4 : Tendsto (fun i : Setup => ((i.A.mul 2 2 : ℝ) : ℂ)) fine (𝓝 ((2 * 2 : ℝ) : ℂ)) :=
    tendsto_ofReal (tendsto_mul tendsto_const_nhds tendsto_const_nhds)
  have hp0 : ∀ b ∈ g.p, ((2 * 2 : ℝ) : ℂ) - b ≠ 0 := by
    intro b hb h0
    have := congrArg Complex.re h0
    rw [sub_re, ofReal_re, zero_re] at this
    linarith [hp b hb]
  have hz0 : ∀ b : ℂ, b.re = 0 → ((2 * 2 : ℝ) : ℂ) - b ≠ 0 := by
    intro b hb h0
    have := congrArg Complex.re h0
    rw [sub_re, ofReal_re, zero_re, hb] at this
    linarith
  have key : ∀ (a : Setup → ℂ) (b : ℂ), ((2 * 2 : ℝ) : ℂ) - b ≠ 0 → KeepsReal a b →
      KeepsReal (fun i => i.A.cdiv (i.A.cadd ((i.A.mul 2 2 : ℝ) : ℂ) (a i)) (i.A.csub ((i.A.mul 2 2 : ℝ) : ℂ) (a i)))
        ((((2 * 2 : ℝ) : ℂ) + b) / (((2 * 2 : ℝ) : ℂ) - b)) := by
    intro a b hb hab
    refine ⟨tendsto_cdiv (tendsto_cadd h4 hab.1) (tendsto_csub h4 hab.1) hb, fun h0 i => ?_⟩
    have hbi := cayley_real hb h0
    exact flDiv_im i (flAdd_im i rfl (hab.2 hbi i)) (flSub_im i rfl (hab.2 hbi i))
  simp only [bilinear, relativeDegree_ok hl, ok_bind] at hg
  cases hg
  refine ⟨_, fun i => by simp only [bilinear, relDeg_const h hl, ok_bind]; rfl, ⟨?_, ?_, ?_⟩, ?_⟩
  · refine Along.append (h.z.map _ _ (fun a b hb hab => ⟨key a b (hz0 b hab.2) hab.1, cayley_norm hab.2 (hz0 b hab.2)⟩))
      (Along.replicate ⟨⟨tendsto_const_nhds, fun _ _ => by simp⟩, by simp⟩ _)
  · exact h.p.map _ _ (fun a b hb hab => tendsto_cdiv (tendsto_cadd h4 hab) (tendsto_csub h4 hab) (hp0 b hb))
  · refine tendsto_mul h.k (tendsto_re (tendsto_cdiv
      (tendsto_foldMul (h.z.map (Q := Tends) _ _ (fun a b _ hab => tendsto_csub h4 hab.1.1)))
      (tendsto_foldMul (h.p.map (Q := Tends) _ _ (fun a b _ hab => tendsto_csub h4 hab))) ?_))
    rw [foldMul_E]
    refine prod_ne_zero_of (fun x hx => ?_)
    obtain ⟨y, hy, rfl⟩ := List.mem_map.mp hx
    exact hp0 y hy
  · exact fun hP => hP.map _ _ (fun a b hb hab => key a b (hp0 b hb) hab)

/-! ### The whole design -/

theorem edges_lim {wn : List ℝ} {fs : Option ℝ} (h : ∀ w ∈ Spec.edges wn fs, 0 < w) :
    Along Tends (fun i => edges i.A wn fs) (Spec.edges wn fs) := by
  cases fs with
  | none =>
    change Along Tends (fun _ => wn) wn
    have := Along.of_map (R := Tends) wn (fun _ x => x) (fun x => x) (fun m _ => tendsto_const_nhds)
    simpa using this
  | some fs =>
    refine Along.of_map wn _ _ (fun w hw => ?_)
    have h0 : fs ≠ 0 := by
      rintro rfl
      have := h (2 * w / 0) (List.mem_map.mpr ⟨w, hw, rfl⟩)
      simp at this
    exact tendsto_div (tendsto_mul tendsto_const_nhds tendsto_const_nhds) tendsto_const_nhds h0

theorem eventually_valid {wn : List ℝ} {rp rs : Option ℝ} {band : Band} {ftype : FType} {fs : Option ℝ}
    (hv : ValidRequest wn rp rs band ftype false fs) : ∀ᶠ i in fine, Valid (Setup.A i) wn rp rs band ftype false fs := by
  have hE := edges_lim hv.positive
  have h1 : ∀ᶠ i in fine, ∀ x ∈ edges (Setup.A i) wn fs, 0 < x :=
    hE.eventually_forall (fun a b hb hab => Tendsto.eventually hab (lt_mem_nhds (hv.positive b hb)))
  have h2 : ∀ᶠ i in fine, ∀ x ∈ edges (Setup.A i) wn fs, x < 1 :=
    hE.eventually_forall (fun a b hb hab => Tendsto.eventually hab (gt_mem_nhds (hv.nyquist rfl b hb)))
  have h3 : ∀ᶠ i in fine, (edges (Setup.A i) wn fs).Pairwise (· < ·) := by
    have hlen : (Spec.edges wn fs).length ≤ 2 := by
      have : (Spec.edges wn fs).length = wn.length := by unfold Spec.edges; cases fs <;> simp
      rw [this, hv.count]
      split <;> omega
    have hpw := hv.increasing
    have hE' := hE
    match Spec.edges wn fs, hlen, hpw, hE' with
    | [], _, _, hE => 
      have := hE.nil_of
      refine Eventually.of_forall (fun i => ?_)
      rw [show edges (Setup.A i) wn fs = [] from congrFun this i]
      simp
    | [a], _, _, hE =>
      obtain ⟨w, hw, -⟩ := hE.one
      refine Eventually.of_forall (fun i => ?_)
      rw [show edges (Setup.A i) wn fs = [w i] from congrFun hw i]
      simp
    | [a, b], _, hpw, hE =>
      obtain ⟨w, v, hw, h1, h2⟩ := hE.two
      have hab : a < b := by simpa using hpw
      have : Tendsto (fun i => v i - w i) fine (𝓝 (b - a)) := Tendsto.sub h2 h1
      filter_upwards [this.eventually (lt_mem_nhds (sub_pos.mpr hab))] with i hi
      rw [show edges (Setup.A i) wn fs = [w i, v i] from congrFun hw i]
      simpa using hi
  filter_upwards [h1, h2, h3] with i h1 h2 h3
  exact ⟨⟨by rw [edges_length]; exact hv.count, h1, h3, fun _ => h2, by simp, hv.ripple, hv.attenuation, hv.family⟩,
    fun _ => rfl⟩

theorem warp_lim {e : Setup → List ℝ} {e0 : List ℝ} (he : Along Tends e e0) (h0 : ∀ x ∈ e0, 0 < x ∧ x < 1) :
    Along Tends (fun i => (e i).map (fun w => i.A.mul (i.A.mul 2 2) (i.A.tan (i.A.div (i.A.mul i.A.pi w) 2))))
      (e0.map (fun w => 4 * Real.tan (Real.pi * w / 2))) := by
  refine he.map _ _ (fun a b hb hab => ?_)
  obtain ⟨h1, h2⟩ := h0 b hb
  have ht := tendsto_tan (tendsto_div (tendsto_mul tendsto_pi hab) (b := fun _ => 2) (y := 2) tendsto_const_nhds (by norm_num))
    (x := Real.pi * b / 2) (by have := Real.pi_pos; positivity) (by nlinarith [Real.pi_pos])
  have h4 : Tendsto (fun i : Setup => i.A.mul 2 2) fine (𝓝 4) := by
    have := tendsto_mul (a := fun _ => 2) (b := fun _ => 2) (x := 2) (y := 2) tendsto_const_nhds tendsto_const_nhds
    norm_num at this
    exact this
  exact tendsto_mul h4 ht

theorem design_lim {n : ℕ} (hn : n ≠ 0) {wn : List ℝ} {rp rs : Option ℝ} {band : Band} {ftype : FType} {fs : Option ℝ}
    (hv : ValidRequest wn rp rs band ftype false fs) (hr : PositiveRipple ftype rp rs) (hk : KeepsPairs band ftype) :
    ∃ (g : Zpk) (d : Setup → Zpk), Design.design n wn rp rs band ftype false fs = .ok g ∧
      (∀ᶠ i in fine, design (Setup.A i) n wn rp rs band ftype false fs = .ok (d i)) ∧ ZpkLim OnCircle Tends d g ∧
      (∀ p ∈ g.p, ‖p‖ < 1) ∧ (band = .lowpass ∨ band = .highpass → Along KeepsReal (fun i => (d i).p) g.p) := by
  obtain ⟨f, hf⟩ := (Design.prototype_ok (order := n)).mpr hv.family
  obtain ⟨h1, h2, h3, h4, h5, h6, h7⟩ := Design.prototype_good hf hr
  have hny := hv.nyquist rfl
  have hin : ∀ x ∈ Spec.edges wn fs, 0 < x ∧ x < 1 := fun x hx => ⟨hv.positive x hx, hny x hx⟩
  have hEd := edgesOk_warped (edgesOk_of_valid hv) hny
  obtain ⟨g, hg, hleft, hlen, -⟩ := bandTransform_left h1 h5 hEd
  obtain ⟨d, hd, hst, -⟩ := design_stable (N := n) hv hr
  have hd' := hd
  unfold Design.design at hd'
  rw [validate_valid hv, ok_bind, hf, ok_bind, Design.warp_digital hin, ok_bind, hg, ok_bind] at hd'
  obtain ⟨pf, hpf, hpl⟩ := prototype_lim hn hr hf
  have hE := edges_lim hv.positive
  have hW := warp_lim hE hin
  obtain ⟨bf, hbf, hbl, hbr⟩ := bandTransform_lim hpl h1 h5 h3 (band := band) (fun hb => h7 (fun hII => by
    rcases hk hII with h | h <;> rw [h] at hb <;> simp at hb)) hW hEd hg
  obtain ⟨df, hdf, hdl, hdr⟩ := bilinear_lim hbl hlen hleft (g' := d) (by rw [bilinear_exact]; exact hd')
  refine ⟨d, df, hd, ?_, hdl, hst rfl, fun hb => hdr (hbr hb)⟩
  filter_upwards [eventually_valid hv] with i hi
  obtain ⟨hi, hfs⟩ := hi
  have hle : wn.length ≤ 2 := by
    rw [← edges_length (A := i.A) wn fs, hi.count]; split <;> omega
  unfold design
  rw [validate_eq_ok.mpr ⟨rfl, hle, hfs, hi.positive, hi.increasing, hi.ripple, hi.attenuation⟩, ok_bind, hpf i, ok_bind]
  have hwarp : warp i.A (edges i.A wn fs) false = .ok ((edges i.A wn fs).map
      (fun w => i.A.mul (i.A.mul 2 2) (i.A.tan (i.A.div (i.A.mul i.A.pi w) 2)))) := by
    unfold warp
    rw [if_pos rfl, check_true]
    · rfl
    · rintro ⟨x, hx, h1 | h1⟩
      · exact absurd (hi.positive x hx) (not_lt.mpr h1)
      · exact absurd (hi.nyquist rfl x hx) (not_lt.mpr h1)
  rw [hwarp, ok_bind, hbf i, ok_bind]
  exact hdf i

/-- Analog designs. -/
theorem design_lim_analog {n : ℕ} (hn : n ≠ 0) {wn : List ℝ} {rp rs : Option ℝ} {band : Band} {ftype : FType}
    {fs : Option ℝ} (hv : ValidRequest wn rp rs band ftype true fs) (hr : PositiveRipple ftype rp rs)
    (hk : KeepsPairs band ftype) :
    ∃ (g : Zpk) (d : Setup → Zpk), Design.design n wn rp rs band ftype true fs = .ok g ∧
      (∀ᶠ i in fine, design (Setup.A i) n wn rp rs band ftype true fs = .ok (d i)) ∧ ZpkLim OnAxis Tends d g := by
  obtain rfl : fs = none := by
    cases fs with
    | none => rfl
    | some x => exact absurd (hv.fs_digital rfl) (by simp)
  obtain ⟨f, hf⟩ := (Design.prototype_ok (order := n)).mpr hv.family
  obtain ⟨h1, h2, h3, h4, h5, h6, h7⟩ := Design.prototype_good hf hr
  have hEd := edgesOk_of_valid hv
  obtain ⟨g, hg, -, -, -⟩ := bandTransform_left h1 h5 hEd
  obtain ⟨pf, hpf, hpl⟩ := prototype_lim hn hr hf
  obtain ⟨bf, hbf, hbl, -⟩ := bandTransform_lim hpl h1 h5 h3 (band := band) (fun hb => h7 (fun hII => by
    rcases hk hII with h | h <;> rw [h] at hb <;> simp at hb)) (edges_lim hv.positive) hEd hg
  refine ⟨g, bf, ?_, Eventually.of_forall fun i => ?_, hbl⟩
  · unfold Design.design
    rw [validate_valid hv, ok_bind, hf, ok_bind]
    change (Design.bandTransform band f (Spec.edges wn none) >>= fun f => Design.discretise true f) = _
    rw [hg]
    rfl
  · have hle : wn.length ≤ 2 := by rw [hv.count]; split <;> omega
    unfold design
    have he : edges i.A wn none = Spec.edges wn none := rfl
    rw [validate_eq_ok.mpr ⟨rfl, hle, by simp, he ▸ hv.positive, he ▸ hv.increasing, hv.ripple, hv.attenuation⟩, ok_bind, hpf i, ok_bind]
    change (bandTransform i.A band (pf i) (edges i.A wn none) >>= fun f => discretise i.A true f) = _
    rw [hbf i]
    rfl

end SciRs.Rounded

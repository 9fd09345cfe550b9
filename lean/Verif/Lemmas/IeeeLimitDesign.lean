import Verif.Lemmas.IeeeLimit

/-! # Lemmas: zeros, poles and gain on IEEE numbers as precision and range grow -/

namespace SciRs.Rounded.Wide

open SciRs.Spec SciRs.Spec.Ieee SciRs.Design SciRs.IeeeDesign Filter Topology

/-! ### Prototypes -/

theorem buttap_ev {n : ℕ} (hn : n ≠ 0) :
    ∀ᶠ i in wide, ZpkIs (IeeeDesign.buttap (ISetup.L i) n) (Rounded.buttap i.S.A n) := by
  have h := ev_of_map (stepRange (-(n : ℤ) + 1) n)
    (fun i m => (i.L.cexp ⟨0, i.L.pi * i.L.ofInt m / i.L.ofInt (2 * n)⟩).neg)
    (fun s m => -s.A.cexp ⟨0, s.A.div (s.A.mul s.A.pi (s.A.ofInt m)) (s.A.ofInt (2 * n))⟩) (fun m hm => by
      have h2n : ((2 * (n : ℤ) : ℤ) : ℝ) ≠ 0 := by push_cast; positivity
      filter_upwards [ev_pi, ev_ofInt m, ev_ofInt (2 * (n : ℤ)), ev_mul tendsto_pi (tendsto_ofInt m),
        ev_div (tendsto_mul tendsto_pi (tendsto_ofInt m)) (tendsto_ofInt (2 * (n : ℤ))) h2n,
        ev_cexp (tendsto_angle hn m) (th_lt_four hn hm)] with i h1 h2 h3 h4 h5 h6
      exact CIs.neg (h6 _ _ is_zero (h5 _ _ (h4 _ _ h1 h2) h3)))
  filter_upwards [h] with i hi
  exact ⟨.nil, hi, is_one⟩

theorem tendsto_angle1 {n : ℕ} (hn : n ≠ 0) (m : ℤ) :
    Tendsto (fun i => i.A.mul i.A.pi (i.A.div (i.A.ofInt m) (i.A.ofInt (2 * (n : ℤ))))) fine (𝓝 (th n m)) := by
  have e : th n m = Real.pi * ((m : ℝ) / ((2 * (n : ℤ) : ℤ) : ℝ)) := by unfold th; push_cast; ring
  rw [e]
  refine tendsto_mul tendsto_pi (tendsto_div (tendsto_ofInt m) (tendsto_ofInt _) ?_)
  push_cast
  positivity

theorem cheb1Poles_ev {n : ℕ} (hn : n ≠ 0) {mu : Setup → ℝ} {mu0 : ℝ} (h : Tendsto mu fine (𝓝 mu0)) (h0 : 0 < mu0) :
    ∀ᶠ i in wide, ∀ u : Ieee (ISetup.f i), Is u (mu i.S) →
      List.Forall₂ CIs ((stepRange (-(n : ℤ) + 1) n).map (fun m : ℤ =>
        (csinh i.L ⟨u, i.L.pi * (i.L.ofInt m / i.L.ofInt (2 * n))⟩).neg)) (Rounded.cheb1Poles i.S.A n (mu i.S)) := by
  have key : ∀ ms : List ℤ, (∀ m ∈ ms, m ∈ stepRange (-(n : ℤ) + 1) n) →
      ∀ᶠ i in wide, ∀ u : Ieee (ISetup.f i), Is u (mu i.S) →
      List.Forall₂ CIs (ms.map (fun m : ℤ => (csinh i.L ⟨u, i.L.pi * (i.L.ofInt m / i.L.ofInt (2 * n))⟩).neg))
        (ms.map (fun m : ℤ => -i.S.A.csinh ⟨mu i.S, i.S.A.mul i.S.A.pi (i.S.A.div (i.S.A.ofInt m) (i.S.A.ofInt (2 * n)))⟩)) := by
    intro ms
    induction ms with
    | nil => exact fun _ => Eventually.of_forall fun i u _ => .nil
    | cons m ms ih =>
      intro hms
      have h2n : ((2 * (n : ℤ) : ℤ) : ℝ) ≠ 0 := by push_cast; positivity
      filter_upwards [ih fun x hx => hms x (by simp [hx]), ev_pi, ev_ofInt m, ev_ofInt (2 * (n : ℤ)),
        ev_div (tendsto_ofInt m) (tendsto_ofInt (2 * (n : ℤ))) h2n,
        ev_mul tendsto_pi (tendsto_div (tendsto_ofInt m) (tendsto_ofInt (2 * (n : ℤ))) h2n),
        ev_csinh h h0 (tendsto_angle1 hn m) (th_lt_four hn (hms m (by simp)))] with i h0 h1 h2 h3 h4 h5 h6 u hu
      exact .cons (CIs.neg (h6 _ _ hu (h5 _ _ h1 (h4 _ _ h2 h3)))) (h0 u hu)
  exact key _ fun _ h => h

theorem map_neg_is {f : Format} {X : List (Cx f)} {F : List ℂ} (h : List.Forall₂ CIs X F) :
    List.Forall₂ CIs (X.map Cx.neg) (F.map (fun z => -z)) := by
  induction h with
  | nil => exact .nil
  | cons h _ ih => exact .cons (CIs.neg h) ih

set_option maxHeartbeats 800000 in
theorem cheb1ap_ev {n : ℕ} (hn : n ≠ 0) {rp : ℝ} (hrp : 0 < rp) :
    ∀ᶠ i in wide, ZpkIs (IeeeDesign.cheb1ap (ISetup.L i) n (ofReal i.f rp)) (Rounded.cheb1ap i.S.A n rp) := by
  have hd : Tendsto (fun i : Setup => i.A.div rp 10) fine (𝓝 (rp / 10)) :=
    tendsto_div tendsto_const_nhds tendsto_const_nhds (by norm_num)
  have hten : Tendsto (fun i : Setup => i.A.powf 10 (i.A.div rp 10)) fine (𝓝 ((10 : ℝ) ^ (rp / 10))) :=
    tendsto_powf hd (by positivity)
  have h1 : (1 : ℝ) < (10 : ℝ) ^ (rp / 10) := Real.one_lt_rpow (by norm_num) (by positivity)
  have hs1 := tendsto_sub hten (b := fun _ => 1) (y := 1) tendsto_const_nhds
  have heps := tendsto_sqrt hs1
  have hpos : 0 < √((10 : ℝ) ^ (rp / 10) - 1) := Real.sqrt_pos.mpr (by linarith)
  have hinv := tendsto_div (a := fun _ => 1) (x := 1) tendsto_const_nhds heps hpos.ne'
  have hash := tendsto_asinh hinv (by positivity)
  have hmu := tendsto_div hash (tendsto_ofInt (n : ℤ)) (by push_cast; positivity)
  have hmu0 : 0 < Real.arsinh (1 / √((10 : ℝ) ^ (rp / 10) - 1)) / ((n : ℤ) : ℝ) := by
    have := Real.arsinh_pos_iff.mpr (show 0 < 1 / √((10 : ℝ) ^ (rp / 10) - 1) by positivity)
    push_cast
    positivity
  have hP := Rounded.cheb1Poles_lim hn hmu hmu0
  have hN := hP.map (Q := Tends) (fun _ z => -z) (fun z => -z) (fun a b _ h => h.tends.neg)
  have hk := tendsto_re (tendsto_foldMul hN)
  have hee := tendsto_mul heps heps
  have hse := tendsto_add (a := fun _ => 1) (x := 1) tendsto_const_nhds hee
  have hpe : 0 < 1 + √((10 : ℝ) ^ (rp / 10) - 1) * √((10 : ℝ) ^ (rp / 10) - 1) := add_pos one_pos (mul_pos hpos hpos)
  filter_upwards [ev_div (a := fun _ => rp) (b := fun _ => 10) tendsto_const_nhds tendsto_const_nhds (by norm_num),
    ev_powf hd (by positivity), ev_sub hten (b := fun _ => 1) (y := 1) tendsto_const_nhds, ev_sqrt hs1 (by linarith),
    ev_div (a := fun _ => 1) (x := 1) tendsto_const_nhds heps hpos.ne', ev_asinh hinv (by positivity),
    ev_div hash (tendsto_ofInt (n : ℤ)) (by push_cast; positivity), ev_ofInt (n : ℤ), cheb1Poles_ev hn hmu hmu0,
    ev_foldMul hN, ev_mul heps heps, ev_add (a := fun _ => 1) (x := 1) tendsto_const_nhds hee, ev_sqrt hse hpe,
    ev_div hk (tendsto_sqrt hse) (Real.sqrt_pos.mpr hpe).ne']
    with i e1 e2 e3 e4 e5 e6 e7 e8 e9 e10 e11 e12 e13 e14
  have q1 := e4 _ (e3 _ _ (e2 _ (e1 _ _ (is_lit rp) (is_lit 10))) is_one)
  have q2 := e9 _ (e7 _ _ (e6 _ (e5 _ _ is_one q1)) e8)
  have q3 := e10 _ (map_neg_is q2)
  unfold IeeeDesign.cheb1ap Rounded.cheb1ap
  rw [if_neg hn, if_neg hn]
  refine ⟨.nil, q2, ?_⟩
  dsimp only
  split
  · exact e14 _ _ q3.1 (e13 _ (e12 _ _ is_one (e11 _ _ q1 q1)))
  · exact q3.1

theorem cheb2Zeros_ev {n : ℕ} (hn : n ≠ 0) : ∀ᶠ i in wide, List.Forall₂ CIs ((cheb2Ms n).map (fun m : ℤ =>
      ((Cx.mk 0 1).div (Cx.ofRe ((ISetup.L i).sin (i.L.ofInt m * (i.L.pi / (lit i.f 2 * i.L.ofInt n)))))).conj.neg))
      (Rounded.cheb2Zeros i.S.A n) := by
  refine ev_of_map (cheb2Ms n)
    (fun i m => ((Cx.mk 0 1).div (Cx.ofRe (i.L.sin (i.L.ofInt m * (i.L.pi / (lit i.f 2 * i.L.ofInt n)))))).conj.neg)
    (fun s m => -(starRingEnd ℂ) (s.A.cdiv Complex.I
      (s.A.sin (s.A.mul (s.A.ofInt m) (s.A.div s.A.pi (s.A.mul 2 (s.A.ofInt n)))) : ℝ))) (fun m hm => ?_)
  have hs := Props.cheb2Ms_sin hm
  have hm' : m ∈ stepRange (-(n : ℤ) + 1) n := by
    rw [(Props.cheb2Ms_perm n).mem_iff]
    split
    · exact List.mem_cons_of_mem _ hm
    · exact hm
  have h2 := tendsto_mul (a := fun _ => 2) (x := 2) tendsto_const_nhds (tendsto_ofInt (n : ℤ))
  have h20 : (2 * ((n : ℤ) : ℝ)) ≠ 0 := by push_cast; positivity
  have h3 := tendsto_div tendsto_pi h2 h20
  have hang : Tendsto (fun i => i.A.mul (i.A.ofInt m) (i.A.div i.A.pi (i.A.mul 2 (i.A.ofInt (n : ℤ))))) fine (𝓝 (th n m)) := by
    have e : th n m = (m : ℝ) * (Real.pi / (2 * ((n : ℤ) : ℝ))) := by unfold th; push_cast; ring
    rw [e]
    exact tendsto_mul (tendsto_ofInt m) h3
  have hS := tendsto_ofReal (tendsto_sin hang (th_lt_four hn hm'))
  filter_upwards [ev_ofInt m, ev_pi, ev_ofInt (n : ℤ), ev_mul (a := fun _ => 2) (x := 2) tendsto_const_nhds (tendsto_ofInt (n : ℤ)),
    ev_div tendsto_pi h2 h20, ev_mul (tendsto_ofInt m) h3, ev_sin hang (th_lt_four hn hm'),
    ev_cdiv (a := fun _ => Complex.I) (x := Complex.I) tendsto_const_nhds hS (by exact_mod_cast hs)]
    with i e1 e2 e3 e4 e5 e6 e7 e8
  have q := e8 ⟨0, 1⟩ _ ⟨is_zero, is_one⟩ (cis_ofRe (e7 _ (e6 _ _ e1 (e5 _ _ e2 (e4 _ _ (is_lit 2) e3)))))
  exact CIs.neg ⟨q.1, Is.neg q.2⟩

theorem cheb2Poles_ev {n : ℕ} (hn : n ≠ 0) {mu : Setup → ℝ} {mu0 : ℝ} (h : Tendsto mu fine (𝓝 mu0)) (h0 : 0 < mu0) :
    ∀ᶠ i in wide, ∀ u : Ieee (ISetup.f i), Is u (mu i.S) →
      List.Forall₂ CIs ((stepRange (-(n : ℤ) + 1) n).map (fun m : ℤ =>
        let z := (i.L.cexp ⟨0, i.L.pi * i.L.ofInt m / (lit i.f 2 * i.L.ofInt n)⟩).neg
        (Cx.ofRe 1).div ⟨i.L.sinh u * z.re, i.L.cosh u * z.im⟩)) (Rounded.cheb2Poles i.S.A n (mu i.S)) := by
  have key : ∀ ms : List ℤ, (∀ m ∈ ms, m ∈ stepRange (-(n : ℤ) + 1) n) →
      ∀ᶠ i in wide, ∀ u : Ieee (ISetup.f i), Is u (mu i.S) →
      List.Forall₂ CIs (ms.map (fun m : ℤ =>
        let z := (i.L.cexp ⟨0, i.L.pi * i.L.ofInt m / (lit i.f 2 * i.L.ofInt n)⟩).neg
        (Cx.ofRe 1).div ⟨i.L.sinh u * z.re, i.L.cosh u * z.im⟩))
        (ms.map (fun m : ℤ =>
          let z := -i.S.A.cexp ⟨0, i.S.A.div (i.S.A.mul i.S.A.pi (i.S.A.ofInt m)) (i.S.A.mul 2 (i.S.A.ofInt n))⟩
          i.S.A.cdiv 1 ⟨i.S.A.mul (i.S.A.sinh (mu i.S)) z.re, i.S.A.mul (i.S.A.cosh (mu i.S)) z.im⟩)) := by
    intro ms
    induction ms with
    | nil => exact fun _ => Eventually.of_forall fun i u _ => .nil
    | cons m ms ih =>
      intro hms
      have hm := hms m (by simp)
      have h2 := tendsto_mul (a := fun _ => 2) (x := 2) tendsto_const_nhds (tendsto_ofInt (n : ℤ))
      have h20 : (2 * ((n : ℤ) : ℝ)) ≠ 0 := by push_cast; positivity
      have hang : Tendsto (fun i => i.A.div (i.A.mul i.A.pi (i.A.ofInt m)) (i.A.mul 2 (i.A.ofInt (n : ℤ)))) fine (𝓝 (th n m)) := by
        have e : th n m = Real.pi * (m : ℝ) / (2 * ((n : ℤ) : ℝ)) := by unfold th; push_cast; rfl
        rw [e]
        exact tendsto_div (tendsto_mul tendsto_pi (tendsto_ofInt m)) h2 h20
      have hz := (tendsto_cexp hang (th_lt_four hn hm)).neg
      have hcos := cos_th_pos hn hm
      have hb := tendsto_mk (tendsto_mul (tendsto_sinh h h0) (tendsto_re hz)) (tendsto_mul (tendsto_cosh h h0) (tendsto_im hz))
      have hne : (⟨Real.sinh mu0 * (-Complex.exp ⟨0, th n m⟩ : ℂ).re, Real.cosh mu0 * (-Complex.exp ⟨0, th n m⟩ : ℂ).im⟩ : ℂ) ≠ 0 := by
        intro h1
        have h2 := congrArg Complex.re h1
        rw [Rounded.cexp_th] at h2
        have h3 : Real.sinh mu0 * -Real.cos (th n m) = 0 := h2
        have := Real.sinh_pos_iff.mpr h0
        rcases mul_eq_zero.mp h3 with h4 | h4 <;> linarith
      filter_upwards [ih fun x hx => hms x (by simp [hx]), ev_pi, ev_ofInt m, ev_ofInt (n : ℤ),
        ev_mul (a := fun _ => 2) (x := 2) tendsto_const_nhds (tendsto_ofInt (n : ℤ)), ev_mul tendsto_pi (tendsto_ofInt m),
        ev_div (tendsto_mul tendsto_pi (tendsto_ofInt m)) h2 h20, ev_cexp hang (th_lt_four hn hm), ev_sinh h h0, ev_cosh h h0,
        ev_mul (tendsto_sinh h h0) (tendsto_re hz), ev_mul (tendsto_cosh h h0) (tendsto_im hz),
        ev_cdiv (a := fun _ => 1) (x := 1) tendsto_const_nhds hb hne] with i h0 e1 e2 e3 e4 e5 e6 e7 e8 e9 e10 e11 e12 u hu
      have q := CIs.neg (e7 _ _ is_zero (e6 _ _ (e5 _ _ e1 e2) (e4 _ _ (is_lit 2) e3)))
      exact .cons (e12 _ _ (cis_ofRe is_one) ⟨e10 _ _ (e8 _ hu) q.1, e11 _ _ (e9 _ hu) q.2⟩) (h0 u hu)
  exact key _ fun _ h => h

theorem cheb2_neg_ne (n : ℕ) : Rounded.foldMul E ((Rounded.cheb2Zeros E n).map (fun x => -x)) ≠ 0 := by
  rw [Rounded.foldMul_E]
  refine Rounded.prod_ne_zero_of (fun x hx => ?_)
  obtain ⟨y, hy, rfl⟩ := List.mem_map.mp hx
  have : y ∈ Design.cheb2Zeros n := by
    have : Rounded.cheb2Zeros E n = Design.cheb2Zeros n := by simp [Rounded.cheb2Zeros, Design.cheb2Zeros, Rounded.Arith.exact]
    rwa [← this]
  intro h0
  rw [Props.cheb2Zeros_eq] at this
  obtain ⟨m, hm, rfl⟩ := List.mem_map.mp this
  have hs := Props.cheb2Ms_sin hm
  rcases div_eq_zero_iff.mp (neg_eq_zero.mp h0) with h1 | h1
  · exact Complex.I_ne_zero h1
  · exact hs (by exact_mod_cast h1)

set_option maxHeartbeats 800000 in
theorem cheb2ap_ev {n : ℕ} (hn : n ≠ 0) {rs : ℝ} (hrs : 0 < rs) :
    ∀ᶠ i in wide, ZpkIs (IeeeDesign.cheb2ap (ISetup.L i) n (ofReal i.f rs)) (Rounded.cheb2ap i.S.A n rs) := by
  have ht := tendsto_div (a := fun _ => 1) (b := fun _ => 10) (x := 1) (y := 10) tendsto_const_nhds tendsto_const_nhds (by norm_num)
  have hd := tendsto_mul ht (b := fun _ => rs) (y := rs) tendsto_const_nhds
  have hten : Tendsto (fun i : Setup => i.A.powf 10 (i.A.mul (i.A.div 1 10) rs)) fine (𝓝 ((10 : ℝ) ^ (1 / 10 * rs))) :=
    tendsto_powf hd (by positivity)
  have h1 : (1 : ℝ) < (10 : ℝ) ^ (1 / 10 * rs) := Real.one_lt_rpow (by norm_num) (by positivity)
  have hs1 := tendsto_sub hten (b := fun _ => 1) (y := 1) tendsto_const_nhds
  have heps := tendsto_sqrt hs1
  have hpos : 0 < √((10 : ℝ) ^ (1 / 10 * rs) - 1) := Real.sqrt_pos.mpr (by linarith)
  have hde := tendsto_div (a := fun _ => 1) (x := 1) tendsto_const_nhds heps hpos.ne'
  have hde0 : 0 < 1 / √((10 : ℝ) ^ (1 / 10 * rs) - 1) := by positivity
  have hinv := tendsto_div (a := fun _ => 1) (x := 1) tendsto_const_nhds hde hde0.ne'
  have hash := tendsto_asinh hinv (by positivity)
  have hmu := tendsto_div hash (tendsto_ofInt (n : ℤ)) (by push_cast; positivity)
  have hmu0 : 0 < Real.arsinh (1 / (1 / √((10 : ℝ) ^ (1 / 10 * rs) - 1))) / ((n : ℤ) : ℝ) := by
    have := Real.arsinh_pos_iff.mpr (show 0 < 1 / (1 / √((10 : ℝ) ^ (1 / 10 * rs) - 1)) by positivity)
    push_cast
    positivity
  have hP := Rounded.cheb2Poles_lim hn hmu hmu0
  have hZ := Rounded.cheb2Zeros_lim hn
  have hNp := hP.map (Q := Tends) (fun _ z => -z) (fun z => -z) (fun a b _ h => h.tends.neg)
  have hNz := hZ.map (Q := Tends) (fun _ z => -z) (fun z => -z) (fun a b _ h => h.tends.neg)
  filter_upwards [ev_div (a := fun _ => 1) (b := fun _ => 10) (x := 1) (y := 10) tendsto_const_nhds tendsto_const_nhds (by norm_num),
    ev_mul ht (b := fun _ => rs) (y := rs) tendsto_const_nhds,
    ev_powf hd (by positivity), ev_sub hten (b := fun _ => 1) (y := 1) tendsto_const_nhds, ev_sqrt hs1 (by linarith),
    ev_div (a := fun _ => 1) (x := 1) tendsto_const_nhds heps hpos.ne',
    ev_div (a := fun _ => 1) (x := 1) tendsto_const_nhds hde hde0.ne', ev_asinh hinv (by positivity),
    ev_div hash (tendsto_ofInt (n : ℤ)) (by push_cast; positivity), ev_ofInt (n : ℤ), cheb2Poles_ev hn hmu hmu0,
    cheb2Zeros_ev hn, ev_foldMul hNp, ev_foldMul hNz, ev_cdiv (tendsto_foldMul hNp) (tendsto_foldMul hNz) (cheb2_neg_ne n)]
    with i e1 e2 e3 e4 e5 e6 e7 e8 e9 e10 e11 e12 e13 e14 e15
  have q1 := e6 _ _ is_one (e5 _ (e4 _ _ (e3 _ (e2 _ _ (e1 _ _ is_one (is_lit 10)) (is_lit rs))) is_one))
  have q2 := e11 _ (e9 _ _ (e8 _ (e7 _ _ is_one q1)) e10)
  unfold IeeeDesign.cheb2ap Rounded.cheb2ap
  rw [if_neg hn, if_neg hn]
  exact ⟨e12, q2, (e15 _ _ (e13 _ (map_neg_is q2)) (e14 _ (map_neg_is e12))).1⟩

/-- Both designs return, and the one on IEEE numbers is finite and has the values of the other. -/
def Follows {f : Format} (x : Res (ZpkI f)) (y : Res Zpk) : Prop := ∃ q g, x = .ok q ∧ y = .ok g ∧ ZpkIs q g

theorem prototype_ev {n : ℕ} (hn : n ≠ 0) {ftype : FType} {rp rs : Option ℝ} (hr : PositiveRipple ftype rp rs) {g : Zpk}
    (h : Design.prototype n ftype rp rs = .ok g) :
    ∀ᶠ i in wide, Follows (IeeeDesign.prototype (ISetup.L i) n ftype (rp.map (ofReal i.f)) (rs.map (ofReal i.f)))
      (Rounded.prototype i.S.A n ftype rp rs) := by
  cases ftype with
  | butterworth => filter_upwards [buttap_ev hn] with i hi using ⟨_, _, rfl, rfl, hi⟩
  | chebyshevI =>
    cases rp with
    | none => simp [Design.prototype] at h
    | some r => filter_upwards [cheb1ap_ev hn (hr.1 rfl r rfl)] with i hi using ⟨_, _, rfl, rfl, hi⟩
  | chebyshevII =>
    cases rp with
    | none => simp [Design.prototype] at h
    | some r =>
      cases rs with
      | none => simp [Design.prototype] at h
      | some q => filter_upwards [cheb2ap_ev hn (hr.2 rfl q rfl)] with i hi using ⟨_, _, rfl, rfl, hi⟩
  | cauerElliptic => simp [Design.prototype] at h
  | besselThomson => simp [Design.prototype] at h

end SciRs.Rounded.Wide

import Verif.Spec.IeeeLibDesign
import Verif.Lemmas.IeeeExact
import Verif.Lemmas.Rounded.LimitDesign

/-! # Lemmas: operations on IEEE numbers as precision and range grow -/

namespace SciRs.IeeeDesign

open SciRs.Spec SciRs.Spec.Ieee SciRs.Rounded SciRs.Design Filter Topology

/-- A format, a library, and their accuracy. -/
structure ISetup where
  f : Format
  m : Libm
  h : ℝ
  acc : AccurateTo f.r m h
  L : Lib f
  agr : Lib.AgreesDesign L m

/-- The arithmetic without overflow. -/
abbrev ISetup.S (i : ISetup) : Setup := ⟨i.f.r, i.m, i.h, i.acc⟩

/-- The accuracy goes to zero, and the largest finite number to infinity. -/
def wide : Filter ISetup := Filter.comap ISetup.S fine ⊓ Filter.comap (fun i => i.f.top) atTop

theorem ev_of_fine {P : Setup → Prop} (h : ∀ᶠ s in fine, P s) : ∀ᶠ i in wide, P (ISetup.S i) :=
  (tendsto_comap.mono_left inf_le_left : Tendsto ISetup.S wide fine).eventually h

theorem ev_top (c : ℝ) : ∀ᶠ i in wide, c ≤ (ISetup.f i).top :=
  (tendsto_comap.mono_left inf_le_right : Tendsto (fun i : ISetup => i.f.top) wide atTop).eventually (eventually_ge_atTop c)

/-- What holds eventually holds for all formats and libraries that are accurate enough and have enough range. -/
theorem exists_of_wide {P : ISetup → Prop} (h : ∀ᶠ i in wide, P i) :
    ∃ h0 T : ℝ, 0 < h0 ∧ ∀ i : ISetup, i.h ≤ h0 → T ≤ i.f.top → P i := by
  obtain ⟨s, hs, t, ht, e⟩ := Filter.mem_inf_iff_superset.mp h
  obtain ⟨s', hs', hs2⟩ := Filter.mem_comap.mp hs
  obtain ⟨t', ht', ht2⟩ := Filter.mem_comap.mp ht
  obtain ⟨h0, p0, H⟩ := exists_of_eventually (P := fun s => s ∈ s') hs'
  obtain ⟨T, hT⟩ := Filter.mem_atTop_sets.mp ht'
  exact ⟨h0, T, p0, fun i h1 h2 => e ⟨hs2 (H i.S h1), ht2 (hT _ h2)⟩⟩

theorem ev_bdd {a : Setup → ℝ} {x : ℝ} (h : Tendsto a fine (𝓝 x)) : ∀ᶠ i in wide, |a (ISetup.S i)| ≤ i.f.top := by
  have h1 : ∀ᶠ s in fine, |a s| < |x| + 1 := h.abs.eventually (gt_mem_nhds (by linarith))
  filter_upwards [ev_of_fine h1, ev_top (|x| + 1)] with i h1 h2
  linarith

section real

variable {a b : Setup → ℝ} {x y : ℝ}

theorem ev_add (ha : Tendsto a fine (𝓝 x)) (hb : Tendsto b fine (𝓝 y)) : ∀ᶠ i in wide, ∀ u v : Ieee (ISetup.f i),
    Is u (a i.S) → Is v (b i.S) → Is (u + v) (i.S.A.add (a i.S) (b i.S)) := by
  filter_upwards [ev_bdd (tendsto_add ha hb)] with i hi u v hu hv
  exact Is.add hu hv hi

theorem ev_sub (ha : Tendsto a fine (𝓝 x)) (hb : Tendsto b fine (𝓝 y)) : ∀ᶠ i in wide, ∀ u v : Ieee (ISetup.f i),
    Is u (a i.S) → Is v (b i.S) → Is (u - v) (i.S.A.sub (a i.S) (b i.S)) := by
  filter_upwards [ev_bdd (tendsto_sub ha hb)] with i hi u v hu hv
  exact Is.sub hu hv hi

theorem ev_mul (ha : Tendsto a fine (𝓝 x)) (hb : Tendsto b fine (𝓝 y)) : ∀ᶠ i in wide, ∀ u v : Ieee (ISetup.f i),
    Is u (a i.S) → Is v (b i.S) → Is (u * v) (i.S.A.mul (a i.S) (b i.S)) := by
  filter_upwards [ev_bdd (tendsto_mul ha hb)] with i hi u v hu hv
  exact Is.mul hu hv hi

theorem ev_div (ha : Tendsto a fine (𝓝 x)) (hb : Tendsto b fine (𝓝 y)) (hy : y ≠ 0) :
    ∀ᶠ i in wide, ∀ u v : Ieee (ISetup.f i), Is u (a i.S) → Is v (b i.S) → Is (u / v) (i.S.A.div (a i.S) (b i.S)) := by
  filter_upwards [ev_bdd (tendsto_div ha hb hy), ev_of_fine (hb.eventually_ne hy)] with i hi h0 u v hu hv
  exact Is.div hu hv h0 hi

theorem ev_sqrt (ha : Tendsto a fine (𝓝 x)) (hx : 0 < x) : ∀ᶠ i in wide, ∀ u : Ieee (ISetup.f i),
    Is u (a i.S) → Is u.sqrt (i.S.A.sqrt (a i.S)) := by
  filter_upwards [ev_bdd (tendsto_sqrt ha), ev_of_fine (ha.eventually (lt_mem_nhds hx))] with i hi h0 u hu
  obtain ⟨s, rfl⟩ := hu
  rw [Ieee.sqrt, if_neg (not_lt.mpr h0.le), if_neg h0.ne']
  exact is_pack hi

theorem ev_pi : ∀ᶠ i in wide, Is (ISetup.L i).pi i.S.A.pi := Eventually.of_forall fun i => i.agr.pi

theorem ev_ofInt (n : ℤ) : ∀ᶠ i in wide, Is ((ISetup.L i).ofInt n) (i.S.A.ofInt n) := by
  filter_upwards [ev_bdd (tendsto_ofInt n)] with i hi
  exact i.agr.ofInt n hi

theorem ev_sin (ha : Tendsto a fine (𝓝 x)) (hx : |x| < 4) : ∀ᶠ i in wide, ∀ u : Ieee (ISetup.f i),
    Is u (a i.S) → Is (i.L.sin u) (i.S.A.sin (a i.S)) := by
  filter_upwards [ev_bdd (tendsto_sin ha hx)] with i hi u hu
  obtain ⟨s, rfl⟩ := hu
  exact i.agr.sin _ _ hi

theorem ev_cos (ha : Tendsto a fine (𝓝 x)) (hx : |x| < 4) : ∀ᶠ i in wide, ∀ u : Ieee (ISetup.f i),
    Is u (a i.S) → Is (i.L.cos u) (i.m.cos (a i.S)) := by
  filter_upwards [ev_bdd (tendsto_cos ha hx)] with i hi u hu
  obtain ⟨s, rfl⟩ := hu
  exact i.agr.cos _ _ hi

theorem ev_tan (ha : Tendsto a fine (𝓝 x)) (hx : 0 < x) (hx' : x < Real.pi / 2) : ∀ᶠ i in wide, ∀ u : Ieee (ISetup.f i),
    Is u (a i.S) → Is (i.L.tan u) (i.S.A.tan (a i.S)) := by
  filter_upwards [ev_bdd (tendsto_tan ha hx hx')] with i hi u hu
  obtain ⟨s, rfl⟩ := hu
  exact i.agr.tan _ _ hi

theorem ev_powf (ha : Tendsto a fine (𝓝 x)) (hx : 0 < x) : ∀ᶠ i in wide, ∀ u : Ieee (ISetup.f i),
    Is u (a i.S) → Is (i.L.powf (lit i.f 10) u) (i.S.A.powf 10 (a i.S)) := by
  filter_upwards [ev_bdd (tendsto_powf ha hx)] with i hi u hu
  obtain ⟨s, rfl⟩ := hu
  exact i.agr.powf _ _ hi

theorem ev_asinh (ha : Tendsto a fine (𝓝 x)) (hx : 0 < x) : ∀ᶠ i in wide, ∀ u : Ieee (ISetup.f i),
    Is u (a i.S) → Is (i.L.asinh u) (i.S.A.asinh (a i.S)) := by
  filter_upwards [ev_bdd (tendsto_asinh ha hx)] with i hi u hu
  obtain ⟨s, rfl⟩ := hu
  exact i.agr.asinh _ _ hi

theorem ev_sinh (ha : Tendsto a fine (𝓝 x)) (hx : 0 < x) : ∀ᶠ i in wide, ∀ u : Ieee (ISetup.f i),
    Is u (a i.S) → Is (i.L.sinh u) (i.S.A.sinh (a i.S)) := by
  filter_upwards [ev_bdd (tendsto_sinh ha hx)] with i hi u hu
  obtain ⟨s, rfl⟩ := hu
  exact i.agr.sinh _ _ hi

theorem ev_cosh (ha : Tendsto a fine (𝓝 x)) (hx : 0 < x) : ∀ᶠ i in wide, ∀ u : Ieee (ISetup.f i),
    Is u (a i.S) → Is (i.L.cosh u) (i.S.A.cosh (a i.S)) := by
  filter_upwards [ev_bdd (tendsto_cosh ha hx)] with i hi u hu
  obtain ⟨s, rfl⟩ := hu
  exact i.agr.cosh _ _ hi

theorem ev_powi (n : ℕ) (ha : Tendsto a fine (𝓝 x)) (hx : 0 < x) : ∀ᶠ i in wide, ∀ u : Ieee (ISetup.f i),
    Is u (a i.S) → Is (i.L.powi u n) (i.S.A.powi (a i.S) n) := by
  filter_upwards [ev_bdd (tendsto_powi n ha hx)] with i hi u hu
  obtain ⟨s, rfl⟩ := hu
  exact i.agr.powi _ _ n hi

end real

section complex

variable {a b : Setup → ℂ} {x y : ℂ}

theorem ev_cadd (ha : Tendsto a fine (𝓝 x)) (hb : Tendsto b fine (𝓝 y)) : ∀ᶠ i in wide, ∀ u v : Cx (ISetup.f i),
    CIs u (a i.S) → CIs v (b i.S) → CIs (u.add v) (i.S.A.cadd (a i.S) (b i.S)) := by
  filter_upwards [ev_add (tendsto_re ha) (tendsto_re hb), ev_add (tendsto_im ha) (tendsto_im hb)] with i h1 h2 u v hu hv
  exact ⟨h1 _ _ hu.1 hv.1, h2 _ _ hu.2 hv.2⟩

theorem ev_csub (ha : Tendsto a fine (𝓝 x)) (hb : Tendsto b fine (𝓝 y)) : ∀ᶠ i in wide, ∀ u v : Cx (ISetup.f i),
    CIs u (a i.S) → CIs v (b i.S) → CIs (u.sub v) (i.S.A.csub (a i.S) (b i.S)) := by
  filter_upwards [ev_sub (tendsto_re ha) (tendsto_re hb), ev_sub (tendsto_im ha) (tendsto_im hb)] with i h1 h2 u v hu hv
  exact ⟨h1 _ _ hu.1 hv.1, h2 _ _ hu.2 hv.2⟩

theorem ev_cmul (ha : Tendsto a fine (𝓝 x)) (hb : Tendsto b fine (𝓝 y)) : ∀ᶠ i in wide, ∀ u v : Cx (ISetup.f i),
    CIs u (a i.S) → CIs v (b i.S) → CIs (u.mul v) (i.S.A.cmul (a i.S) (b i.S)) := by
  have ar := tendsto_re ha
  have ai := tendsto_im ha
  have br := tendsto_re hb
  have bi := tendsto_im hb
  filter_upwards [ev_mul ar br, ev_mul ai bi, ev_mul ar bi, ev_mul ai br, ev_sub (tendsto_mul ar br) (tendsto_mul ai bi),
    ev_add (tendsto_mul ar bi) (tendsto_mul ai br)] with i h1 h2 h3 h4 h5 h6 u v hu hv
  exact ⟨h5 _ _ (h1 _ _ hu.1 hv.1) (h2 _ _ hu.2 hv.2), h6 _ _ (h3 _ _ hu.1 hv.2) (h4 _ _ hu.2 hv.1)⟩

theorem ev_cdiv (ha : Tendsto a fine (𝓝 x)) (hb : Tendsto b fine (𝓝 y)) (hy : y ≠ 0) :
    ∀ᶠ i in wide, ∀ u v : Cx (ISetup.f i),
    CIs u (a i.S) → CIs v (b i.S) → CIs (u.div v) (i.S.A.cdiv (a i.S) (b i.S)) := by
  have hn : y.re * y.re + y.im * y.im ≠ 0 := by
    rw [← Complex.normSq_apply]; exact fun h => hy (Complex.normSq_eq_zero.mp h)
  have ar := tendsto_re ha
  have ai := tendsto_im ha
  have br := tendsto_re hb
  have bi := tendsto_im hb
  have n := tendsto_add (tendsto_mul br br) (tendsto_mul bi bi)
  filter_upwards [ev_mul br br, ev_mul bi bi, ev_add (tendsto_mul br br) (tendsto_mul bi bi),
    ev_mul ar br, ev_mul ai bi, ev_mul ai br, ev_mul ar bi, ev_add (tendsto_mul ar br) (tendsto_mul ai bi),
    ev_sub (tendsto_mul ai br) (tendsto_mul ar bi), ev_div (tendsto_add (tendsto_mul ar br) (tendsto_mul ai bi)) n hn,
    ev_div (tendsto_sub (tendsto_mul ai br) (tendsto_mul ar bi)) n hn] with i h1 h2 h3 h4 h5 h6 h7 h8 h9 h10 h11 u v hu hv
  have d := h3 _ _ (h1 _ _ hv.1 hv.1) (h2 _ _ hv.2 hv.2)
  exact ⟨h10 _ _ (h8 _ _ (h4 _ _ hu.1 hv.1) (h5 _ _ hu.2 hv.2)) d,
    h11 _ _ (h9 _ _ (h6 _ _ hu.2 hv.1) (h7 _ _ hu.1 hv.2)) d⟩

/-- The square root, up to the side of the branch cut. -/
theorem ev_csqrt (ha : Tendsto a fine (𝓝 x)) (hs : ∃ y, Tendsto (fun i => i.A.csqrt (a i)) fine (𝓝 y)) :
    ∀ᶠ i in wide, ∀ u : Cx (ISetup.f i), CIs u (a i.S) → CIs (i.L.csqrt u) (i.S.A.csqrt (a i.S)) ∨
      (a i.S).im = 0 ∧ (a i.S).re < 0 ∧ CIs (i.L.csqrt u) ((starRingEnd ℂ) (i.S.A.csqrt (a i.S))) := by
  obtain ⟨y, hy⟩ := hs
  have hh : ∀ᶠ s in fine, s.m.hypot (a s).re (a s).im ≤ 2 * (‖x‖ + 1) + 1 := by
    filter_upwards [ha.norm.eventually (gt_mem_nhds (show ‖x‖ < ‖x‖ + 1 by linarith)), eventually_small (c := 1) one_pos]
      with s h1 h2
    have h3 := (abs_le.mp (s.acc.polar.hypot (a s).re (a s).im)).2
    have h4 : √((a s).re ^ 2 + (a s).im ^ 2) = ‖a s‖ := by rw [Complex.norm_def, Complex.normSq_apply, sq, sq]
    rw [h4] at h3
    have h5 := s.acc.t_le
    have h6 := mul_le_mul_of_nonneg_right h2.le (norm_nonneg (a s))
    linarith
  filter_upwards [ev_of_fine hh, ev_top (2 * (‖x‖ + 1) + 1), ev_bdd (tendsto_re hy), ev_bdd (tendsto_im hy)]
    with i h1 h2 h3 h4 u hu
  exact i.agr.csqrt u _ hu (h1.trans h2) h3 h4

end complex

/-- The exponential of an imaginary number. -/
theorem ev_cexp {a : Setup → ℝ} {x : ℝ} (ha : Tendsto a fine (𝓝 x)) (hx : |x| < 4) : ∀ᶠ i in wide,
    ∀ u v : Ieee (ISetup.f i), Is u 0 → Is v (a i.S) → CIs (i.L.cexp ⟨u, v⟩) (i.S.A.cexp ⟨0, a i.S⟩) := by
  have h := tendsto_cexp ha hx
  filter_upwards [ev_bdd (tendsto_re h), ev_bdd (tendsto_im h)] with i h1 h2 u v hu hv
  exact i.agr.cexp ⟨u, v⟩ ⟨0, a i.S⟩ ⟨hu, hv⟩ h1 h2

theorem ev_csinh {a b : Setup → ℝ} {x y : ℝ} (ha : Tendsto a fine (𝓝 x)) (hx : 0 < x) (hb : Tendsto b fine (𝓝 y))
    (hy : |y| < 4) : ∀ᶠ i in wide, ∀ u v : Ieee (ISetup.f i), Is u (a i.S) → Is v (b i.S) →
      CIs (csinh i.L ⟨u, v⟩) (i.S.A.csinh ⟨a i.S, b i.S⟩) := by
  filter_upwards [ev_sinh ha hx, ev_cosh ha hx, ev_sin hb hy, ev_cos hb hy,
    ev_mul (tendsto_sinh ha hx) (tendsto_cos hb hy), ev_mul (tendsto_cosh ha hx) (tendsto_sin hb hy)]
    with i h1 h2 h3 h4 h5 h6 u v hu hv
  exact ⟨h5 _ _ (h1 _ hu) (h4 _ hv), h6 _ _ (h2 _ hu) (h3 _ hv)⟩

/-! ### Lists -/

section lists

variable {R : (Setup → ℂ) → ℂ → Prop} {F : Setup → List ℂ} {l : List ℂ}

/-- A function applied to every element. -/
theorem ev_map (h : Along R F l) (g : ∀ i : ISetup, Cx i.f → Cx i.f) (g0 : Setup → ℂ → ℂ)
    (hg : ∀ a b, b ∈ l → R a b → ∀ᶠ i in wide, ∀ u, CIs u (a i.S) → CIs (g i u) (g0 i.S (a i.S))) :
    ∀ᶠ i in wide, ∀ X : List (Cx (ISetup.f i)), List.Forall₂ CIs X (F i.S) →
      List.Forall₂ CIs (X.map (g i)) ((F i.S).map (g0 i.S)) := by
  induction h with
  | nil =>
    refine Eventually.of_forall fun i X hX => ?_
    cases hX
    exact .nil
  | cons h _ ih =>
    filter_upwards [hg _ _ (by simp) h, ih fun a b hb => hg a b (List.mem_cons_of_mem _ hb)] with i h1 h2 X hX
    cases hX with
    | cons h3 h4 => exact .cons (h1 _ h3) (h2 _ h4)

/-- The elements computed from a list of integers. -/
theorem ev_of_map (ms : List ℤ) (P : ∀ i : ISetup, ℤ → Cx i.f) (P0 : Setup → ℤ → ℂ)
    (h : ∀ m ∈ ms, ∀ᶠ i in wide, CIs (P i m) (P0 i.S m)) :
    ∀ᶠ i in wide, List.Forall₂ CIs (ms.map (P i)) (ms.map (P0 (ISetup.S i))) := by
  induction ms with
  | nil => simp
  | cons m ms ih =>
    filter_upwards [h m (by simp), ih fun x hx => h x (List.mem_cons_of_mem _ hx)] with i h1 h2
    exact .cons h1 h2

theorem ev_foldMul (h : Along Tends F l) : ∀ᶠ i in wide, ∀ X : List (Cx (ISetup.f i)), List.Forall₂ CIs X (F i.S) →
    CIs (IeeeDesign.foldMul X) (Rounded.foldMul i.S.A (F i.S)) := by
  unfold IeeeDesign.foldMul Rounded.foldMul
  have key : ∀ (a : Setup → ℂ) (b : ℂ), Tendsto a fine (𝓝 b) → ∀ᶠ i in wide, ∀ (u : Cx (ISetup.f i)) (X : List (Cx i.f)),
      CIs u (a i.S) → List.Forall₂ CIs X (F i.S) →
      CIs (X.foldl (fun acc x => acc.mul x) u) ((F i.S).foldl (fun acc x => i.S.A.cmul acc x) (a i.S)) := by
    induction h with
    | nil =>
      refine fun a b _ => Eventually.of_forall fun i u X hu hX => ?_
      cases hX
      exact hu
    | cons h _ ih =>
      intro a b hab
      filter_upwards [ih _ _ (tendsto_cmul hab h), ev_cmul hab h] with i h1 h2 u X hu hX
      cases hX with
      | cons h3 h4 => exact h1 (u.mul _) _ (h2 _ _ hu h3) h4
  filter_upwards [key (fun _ => 1) 1 tendsto_const_nhds] with i hi X hX
  exact hi _ X ⟨is_one, is_zero⟩ hX

end lists

theorem forall₂_replicate {f : Format} {a : Cx f} {z : ℂ} (h : CIs a z) (n : ℕ) :
    List.Forall₂ CIs (List.replicate n a) (List.replicate n z) := by
  induction n with
  | zero => exact .nil
  | succ n ih => exact .cons h ih

theorem relDeg_is {f : Format} {X Y : List (Cx f)} {Z W : List ℂ} (h1 : List.Forall₂ CIs X Z) (h2 : List.Forall₂ CIs Y W)
    {n : ℕ} (h : Design.relativeDegree Z W = .ok n) : IeeeDesign.relativeDegree X Y = .ok n := by
  unfold Design.relativeDegree at h
  unfold IeeeDesign.relativeDegree
  rw [h1.length_eq, h2.length_eq]
  exact h

end SciRs.IeeeDesign

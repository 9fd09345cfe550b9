import Verif.Lemmas.IeeeSort
import Verif.Model.Rounded.Zpk2sos
import Verif.Spec.LibmAccuracy

/-! # `cplxreal_dyn` on finite numbers does what it does without overflow -/

namespace SciRs.IeeeDesign

open SciRs.Spec SciRs.Spec.Ieee SciRs.Rounded SciRs.Design Classical

variable {f : Format}

/-! ### Lists related entry by entry -/

section Lists

variable {α β γ δ ε : Type} {R : α → β → Prop} {Q : γ → δ → Prop}

theorem rel_filter {l : List α} {v : List β} (h : List.Forall₂ R l v) {p : α → Bool} {q : β → Bool}
    (hpq : ∀ a b, R a b → p a = q b) : List.Forall₂ R (l.filter p) (v.filter q) := by
  induction h with
  | nil => exact .nil
  | cons hab _ ih =>
    rw [List.filter_cons, List.filter_cons, hpq _ _ hab]
    split
    · exact .cons hab ih
    · exact ih

theorem rel_zip {l : List α} {v : List β} (h : List.Forall₂ R l v) {l' : List γ} {v' : List δ}
    (h' : List.Forall₂ Q l' v') :
    List.Forall₂ (fun (a : α × γ) (b : β × δ) => R a.1 b.1 ∧ Q a.2 b.2) (l.zip l') (v.zip v') := by
  induction h generalizing l' v' with
  | nil => exact .nil
  | cons hab _ ih =>
    cases h' with
    | nil => exact .nil
    | cons hcd h' => exact .cons ⟨hab, hcd⟩ (ih h')

theorem map_eq_of_rel {l : List α} {v : List β} (h : List.Forall₂ R l v) {g : α → ε} {k : β → ε}
    (hgk : ∀ a b, R a b → g a = k b) : l.map g = v.map k := by
  induction h with
  | nil => rfl
  | cons hab _ ih => rw [List.map_cons, List.map_cons, hgk _ _ hab, ih]

theorem any_eq_of_rel {l : List α} {v : List β} (h : List.Forall₂ R l v) {g : α → Bool} {k : β → Bool}
    (hgk : ∀ a b, R a b → g a = k b) : l.any g = v.any k := by
  induction h with
  | nil => rfl
  | cons hab _ ih => rw [List.any_cons, List.any_cons, hgk _ _ hab, ih]

theorem rel_map {l : List α} {v : List β} (h : List.Forall₂ R l v) {g : α → γ} {k : β → δ}
    (hgk : ∀ a b, R a b → Q (g a) (k b)) : List.Forall₂ Q (l.map g) (v.map k) := by
  rw [List.forall₂_map_left_iff, List.forall₂_map_right_iff]
  exact h.imp hgk

theorem rel_nil_iff {l : List α} {v : List β} (h : List.Forall₂ R l v) : l = [] ↔ v = [] := by
  cases h <;> simp

end Lists

/-- A finite complex number of size at most `B`. -/
def CB (B : ℝ) (a : Cx f) (z : ℂ) : Prop := CIs a z ∧ ‖z‖ ≤ B

theorem CB.mono {B B' : ℝ} {a : Cx f} {z : ℂ} (h : CB B a z) (hB : B ≤ B') : CB B' a z := ⟨h.1, h.2.trans hB⟩

theorem CB.conj {B : ℝ} {a : Cx f} {z : ℂ} (h : CB B a z) : CB B a.conj ((starRingEnd ℂ) z) :=
  ⟨⟨h.1.1, by rw [Complex.conj_im]; exact Is.neg h.1.2⟩, by rw [Complex.norm_conj]; exact h.2⟩

theorem CB.zero {B : ℝ} (hB : 0 ≤ B) : CB B (Cx.ofRe 0 : Cx f) 0 :=
  ⟨by simpa using cis_ofRe (f := f) is_zero, by simpa using hB⟩

theorem forall_CB {B : ℝ} {l : List (Cx f)} {v : List ℂ} :
    List.Forall₂ (CB B) l v ↔ List.Forall₂ CIs l v ∧ ∀ z ∈ v, ‖z‖ ≤ B := by
  constructor
  · intro h
    refine ⟨h.imp fun _ _ h => h.1, ?_⟩
    induction h with
    | nil => simp
    | cons hab _ ih => rintro z (_ | ⟨_, hz⟩); exacts [hab.2, ih z hz]
  · rintro ⟨h, hB⟩
    induction h with
    | nil => exact .nil
    | cons hab _ ih =>
      exact .cons ⟨hab, hB _ List.mem_cons_self⟩ (ih fun z hz => hB z (List.mem_cons_of_mem _ hz))

/-- Enough range, and a library, for roots of size at most `B`. -/
structure Roomy (L : Lib f) (m : Libm) (B : ℝ) : Prop where
  u : f.r.u ≤ 1
  t : f.r.t ≤ 1
  eps : m.eps ≤ 1 / 100
  hypot : ∀ x y, m.hypot x y ≤ 2 * √(x ^ 2 + y ^ 2) + 1
  sqrt : ∀ z, |(flSqrt f.r m z).re| ≤ 16 * ‖z‖ + 21
  lib : Lib.AgreesSos L m
  one : 1 ≤ B
  top : 10000 * B ^ 2 ≤ f.top

/-- The library of a floating-point type has these properties. -/
theorem Roomy.of_accurate {L : Lib f} {m : Libm} {h B : ℝ} (hm : m.Accurate f.r h) (hh : h ≤ 1 / 1024) (ht : f.r.t ≤ 1)
    (hL : Lib.AgreesSos L m) (h1 : 1 ≤ B) (hT : 10000 * B ^ 2 ≤ f.top) : Roomy L m B := by
  have hu : f.r.u ≤ 1 / 1024 := hm.u_le.trans hh
  have hu1 : f.r.u ≤ 1 := hu.trans (by norm_num)
  have hh0 : 0 ≤ h := f.r.u_nonneg.trans hm.u_le
  have hhy : ∀ x y, m.hypot x y ≤ 2 * √(x ^ 2 + y ^ 2) + 1 := fun x y => by linarith [hm.hypot x y]
  have hsq : ∀ x : ℝ, 0 ≤ x → √x ≤ x + 1 := fun x hx => by
    rw [Real.sqrt_le_left (by linarith)]
    nlinarith
  refine ⟨hu1, ht, by linarith [hm.eps], hhy, ?_, hL, h1, hT⟩
  intro z
  have n0 := norm_nonneg z
  have hre := Complex.abs_re_le_norm z
  have him := Complex.abs_im_le_norm z
  have im2 : |f.r.rnd (√(f.r.rnd (|z.im| / 2)))| ≤ 16 * ‖z‖ + 21 := by
    have g1 := rnd_size hu1 ht (show |(|z.im| / 2)| ≤ ‖z‖ by rw [abs_of_nonneg (by positivity)]; linarith [abs_nonneg z.im])
    have g2 : |√(f.r.rnd (|z.im| / 2))| ≤ 2 * ‖z‖ + 2 := by
      rw [abs_of_nonneg (Real.sqrt_nonneg _)]
      rcases le_total 0 (f.r.rnd (|z.im| / 2)) with h0 | h0
      · have := hsq _ h0
        rw [abs_of_nonneg h0] at g1
        linarith
      · rw [Real.sqrt_eq_zero_of_nonpos h0]; linarith
    have := rnd_size hu1 ht g2
    linarith
  unfold flSqrt
  split_ifs with c1 c2 c3 c4
  · have g : |√z.re| ≤ ‖z‖ + 1 := by
      rw [abs_of_nonneg (Real.sqrt_nonneg _)]
      have := hsq _ c2
      linarith [le_abs_self z.re]
    have := rnd_size hu1 ht g
    change |f.r.rnd (√z.re)| ≤ _
    linarith
  · change |(0 : ℝ)| ≤ _
    rw [abs_zero]; linarith
  · exact im2
  · exact im2
  · have g1 : m.hypot z.re z.im ≤ 2 * ‖z‖ + 1 := by
      have : √(z.re ^ 2 + z.im ^ 2) = ‖z‖ := by
        rw [Complex.norm_def, Complex.normSq_apply]
        congr 1; ring
      rw [← this]
      exact hhy _ _
    have g2 : |√(m.hypot z.re z.im)| ≤ 2 * ‖z‖ + 2 := by
      rw [abs_of_nonneg (Real.sqrt_nonneg _)]
      have := hsq _ (m.hypot_nonneg z.re z.im)
      linarith
    have g3 := rnd_size hu1 ht g2
    have g5 : |m.atan2 z.im z.re / 2| ≤ 2 := by
      rw [abs_div, abs_of_pos (by norm_num : (0 : ℝ) < 2)]
      linarith [hm.atan2 z.re z.im]
    have g6 : |f.r.rnd (m.atan2 z.im z.re / 2)| ≤ 4 := by
      have e := f.r.err (m.atan2 z.im z.re / 2)
      have e' := abs_sub_abs_le_abs_sub (f.r.rnd (m.atan2 z.im z.re / 2)) (m.atan2 z.im z.re / 2)
      have e2 := mul_le_mul hu g5 (abs_nonneg _) (by norm_num)
      linarith
    obtain ⟨t, ht'⟩ : ∃ t, t = f.r.rnd (m.atan2 z.im z.re / 2) := ⟨_, rfl⟩
    rw [← ht'] at g6
    have g7 := hm.cos t g6
    have g8 : |m.cos t| ≤ 1.01 := by
      have a := abs_add_le (m.cos t - Real.cos t) (Real.cos t)
      rw [sub_add_cancel] at a
      linarith [Real.abs_cos_le_one t]
    have g9 : |f.r.rnd (√(m.hypot z.re z.im)) * m.cos t| ≤ (2 * (2 * ‖z‖ + 2) + 1) * 1.01 := by
      rw [abs_mul]
      exact mul_le_mul g3 g8 (abs_nonneg _) (by linarith)
    have := rnd_size hu1 ht g9
    change |f.r.rnd (f.r.rnd (√(m.hypot z.re z.im)) * m.cos (f.r.rnd (m.atan2 z.im z.re / 2)))| ≤ _
    rw [← ht']
    linarith

variable {L : Lib f} {m : Libm} {B : ℝ}

theorem norm_eq_sqrt (z : ℂ) : √(z.re ^ 2 + z.im ^ 2) = ‖z‖ := by
  rw [Complex.norm_def, Complex.normSq_apply]
  congr 1; ring

theorem Roomy.hypot_le (h : Roomy L m B) (z : ℂ) : |m.hypot z.re z.im| ≤ 2 * ‖z‖ + 1 := by
  rw [abs_of_nonneg (m.hypot_nonneg _ _), ← norm_eq_sqrt]
  exact h.hypot _ _

theorem Roomy.sq (h : Roomy L m B) : B ≤ B ^ 2 := by nlinarith [h.one]

theorem Roomy.top' (h : Roomy L m B) : 10000 * B ≤ f.top := by linarith [h.top, h.sq]

/-- The absolute value of a number of moderate size. -/
theorem Roomy.cabs (h : Roomy L m B) {a : Cx f} {z : ℂ} (ha : CB (1000 * B ^ 2) a z) :
    Is (L.cabs a) (m.hypot z.re z.im) := by
  refine h.lib.cabs a z ha.1 ?_
  have h1 := (abs_le.mp (h.hypot_le z)).2
  have h2 := ha.2
  have := h.top
  have := h.sq
  have := h.one
  linarith

theorem norm_le_of_parts {z : ℂ} {C : ℝ} (h1 : |z.re| ≤ C) (h2 : |z.im| ≤ C) : ‖z‖ ≤ 2 * C := by
  linarith [Complex.norm_le_abs_re_add_abs_im z]

/-- Differences. -/
theorem Roomy.csub (h : Roomy L m B) {a b : Cx f} {x y : ℂ} (ha : CB B a x) (hb : CB B b y) :
    CB (10 * B) (a.sub b) ((Arith.ofRounding f.r m).csub x y) := by
  have h1 := h.one
  have hT := h.top'
  refine ⟨CIs.sub h.u h.t ha.1 hb.1 (B := 2 * B) (by linarith [ha.2, hb.2]) (by linarith), ?_⟩
  have e1 : |x.re - y.re| ≤ 2 * B := (abs_sub _ _).trans (by
    linarith [Complex.abs_re_le_norm x, Complex.abs_re_le_norm y, ha.2, hb.2])
  have e2 : |x.im - y.im| ≤ 2 * B := (abs_sub _ _).trans (by
    linarith [Complex.abs_im_le_norm x, Complex.abs_im_le_norm y, ha.2, hb.2])
  refine (norm_le_of_parts (rnd_size h.u h.t e1) (rnd_size h.u h.t e2)).trans ?_
  linarith

/-- Means of two numbers. -/
theorem Roomy.mean (h : Roomy L m B) {a b : Cx f} {x y : ℂ} (ha : CB B a x) (hb : CB B b y) :
    CB (12 * B) (⟨(a.add b).re / lit f 2, (a.add b).im / lit f 2⟩ : Cx f)
      ((Arith.ofRounding f.r m).cdivReal ((Arith.ofRounding f.r m).cadd x y) 2) := by
  have h1 := h.one
  have hT := h.top'
  have hs := CIs.add h.u h.t ha.1 hb.1 (B := 2 * B) (by linarith [ha.2, hb.2]) (by linarith)
  have e1 : |x.re + y.re| ≤ 2 * B := (abs_add_le _ _).trans (by
    linarith [Complex.abs_re_le_norm x, Complex.abs_re_le_norm y, ha.2, hb.2])
  have e2 : |x.im + y.im| ≤ 2 * B := (abs_add_le _ _).trans (by
    linarith [Complex.abs_im_le_norm x, Complex.abs_im_le_norm y, ha.2, hb.2])
  have g : ∀ t, |t| ≤ 2 * B → |f.r.rnd (f.r.rnd t / 2)| ≤ 6 * B := fun t ht => by
    have k1 := rnd_size h.u h.t ht
    have k2 : |f.r.rnd t / 2| ≤ 2 * B + 1 / 2 := by rw [abs_div, abs_of_pos (by norm_num : (0 : ℝ) < 2)]; linarith
    have := rnd_size h.u h.t k2
    linarith
  have g1 := g _ e1
  have g2 := g _ e2
  refine ⟨⟨Is.div hs.1 (is_lit 2) (by norm_num) (g1.trans (by linarith)),
    Is.div hs.2 (is_lit 2) (by norm_num) (g2.trans (by linarith))⟩, ?_⟩
  refine (norm_le_of_parts g1 g2).trans ?_
  linarith

/-- The tolerance. -/
theorem Roomy.tol (h : Roomy L m B) : Is (defaultTol L) (Rounded.defaultTol (Arith.ofRounding f.r m)) ∧
    |Rounded.defaultTol (Arith.ofRounding f.r m)| ≤ 3 := by
  have e : |m.eps * 100| ≤ 1 := by
    rw [abs_of_nonneg (mul_nonneg m.eps_nonneg (by norm_num))]
    linarith [h.eps]
  have h2 := rnd_size h.u h.t e
  have hT := h.top'
  have h1 := h.one
  refine ⟨Is.mul h.lib.eps (is_lit 100) (h2.trans (by linarith)), ?_⟩
  change |f.r.rnd (m.eps * 100)| ≤ 3
  linarith

/-- The tolerance times a size. -/
theorem Roomy.tolMul (h : Roomy L m B) {a : Ieee f} {x : ℝ} (ha : Is a x) (hx : |x| ≤ 1000 * B ^ 2) :
    Is (defaultTol L * a) ((Arith.ofRounding f.r m).mul (Rounded.defaultTol (Arith.ofRounding f.r m)) x) := by
  refine Is.mul h.tol.1 ha ?_
  have : |Rounded.defaultTol (Arith.ofRounding f.r m) * x| ≤ 3 * (1000 * B ^ 2) := by
    rw [abs_mul]
    exact mul_le_mul h.tol.2 hx (abs_nonneg _) (by norm_num)
  have := rnd_size h.u h.t this
  nlinarith [h.top, h.one]

theorem Roomy.isReal_eq (h : Roomy L m B) {a : Cx f} {z : ℂ} (ha : CB B a z) :
    isReal L (defaultTol L) a = Rounded.isReal (Arith.ofRounding f.r m) (Rounded.defaultTol (Arith.ofRounding f.r m)) z := by
  have h1 := h.one
  have hT := h.top
  have hsq := h.sq
  have n2 : ‖z‖ * ‖z‖ ≤ B ^ 2 := by
    rw [_root_.sq]; exact mul_le_mul ha.2 ha.2 (norm_nonneg _) (by linarith)
  have hm := CIs.mul h.u h.t ha.1 ha.1 n2 (by linarith)
  have p : ∀ s t : ℝ, |s| ≤ ‖z‖ → |t| ≤ ‖z‖ → |s * t| ≤ B ^ 2 := fun s t h1 h2 => by
    rw [abs_mul]; exact (mul_le_mul h1 h2 (abs_nonneg _) (norm_nonneg _)).trans n2
  have zr := Complex.abs_re_le_norm z
  have zi := Complex.abs_im_le_norm z
  have q1 := rnd_size h.u h.t (p _ _ zr zr)
  have q2 := rnd_size h.u h.t (p _ _ zi zi)
  have q3 := rnd_size h.u h.t (p _ _ zr zi)
  have q4 := rnd_size h.u h.t (p _ _ zi zr)
  have nm : ‖flMul f.r z z‖ ≤ 26 * B ^ 2 := by
    refine (norm_le_of_parts (rnd_size h.u h.t ((abs_sub _ _).trans (add_le_add q1 q2)))
      (rnd_size h.u h.t ((abs_add_le _ _).trans (add_le_add q3 q4)))).trans ?_
    linarith
  have hhy := (abs_le.mp (h.hypot_le (flMul f.r z z))).2
  have hs := h.sqrt (flMul f.r z z)
  have hcs := h.lib.csqrt _ _ hm (by linarith) (by linarith)
  have ht := h.tolMul hcs (by linarith)
  unfold isReal Rounded.isReal
  exact decide_eq_decide.mpr (is_le (is_abs ha.1.2) ht)

theorem Roomy.sameReal_eq (h : Roomy L m B) {l : List (Cx f)} {v : List ℂ} (hl : List.Forall₂ (CB B) l v) :
    sameReal L (defaultTol L) l =
      Rounded.sameReal (Arith.ofRounding f.r m) (Rounded.defaultTol (Arith.ofRounding f.r m)) v := by
  unfold sameReal Rounded.sameReal
  have h1 := h.one
  have hsq := h.sq
  have hT := h.top'
  congr 2
  refine map_eq_of_rel (rel_zip hl (List.forall₂_drop 1 hl)) fun a b hab => ?_
  have e1 : |b.2.re - b.1.re| ≤ 2 * B := (abs_sub _ _).trans (by
    linarith [Complex.abs_re_le_norm b.1, Complex.abs_re_le_norm b.2, hab.1.2, hab.2.2])
  have e2 := rnd_size h.u h.t e1
  have e3 : |(Arith.ofRounding f.r m).cabs b.1| ≤ 2 * ‖b.1‖ + 1 := h.hypot_le b.1
  refine decide_eq_decide.mpr (is_le (Is.sub hab.2.1.1 hab.1.1.1 (by linarith)) (h.tolMul (h.cabs (hab.1.mono (by linarith)))
    (by linarith [hab.1.2])))

/-! ### Sorting -/

/-- The sorts of the IEEE numbers, and of their values. -/
structure Sorted (S : CxSorts f) (s : Sorts) : Prop where
  correct : s.Correct
  byKey : ∀ l v, List.Forall₂ CIs l v → ∃ l', S.byKey l = .ok l' ∧ List.Forall₂ CIs l' (s.byKey v)
  byPair : ∀ l v, List.Forall₂ (fun (a : Cx f × Cx f) (b : ℂ × ℂ) => CIs a.1 b.1 ∧ CIs a.2 b.2) l v →
      ∃ l', S.byPair l = .ok l' ∧
        List.Forall₂ (fun (a : Cx f × Cx f) (b : ℂ × ℂ) => CIs a.1 b.1 ∧ CIs a.2 b.2) l' (s.byPair v)

variable {S : CxSorts f} {s : Sorts}

theorem Sorted.key (h : Sorted S s) {l : List (Cx f)} {v : List ℂ} (hl : List.Forall₂ (CB B) l v) :
    ∃ l', S.byKey l = .ok l' ∧ List.Forall₂ (CB B) l' (s.byKey v) := by
  obtain ⟨h1, h2⟩ := forall_CB.mp hl
  obtain ⟨l', e, h3⟩ := h.byKey l v h1
  exact ⟨l', e, forall_CB.mpr ⟨h3, fun z hz => h2 z ((h.correct.key_perm v).mem_iff.mp hz)⟩⟩

theorem Sorted.run (h : Sorted S s) {a b : List (Cx f)} {x y : List ℂ} (ha : List.Forall₂ (CB B) a x)
    (hb : List.Forall₂ (CB B) b y) (start stop : ℕ) :
    RR (fun p q => List.Forall₂ (CB B) p.1 q.1 ∧ List.Forall₂ (CB B) p.2 q.2) (sortRun S (a, b) start stop)
      (Design.sortRun s (x, y) start stop) := by
  unfold sortRun Design.sortRun
  refine RR.bind (RR.check (by simp only [ha.length_eq])) fun _ _ _ => ?_
  refine RR.bind (RR.check (by simp only [hb.length_eq])) fun _ _ _ => ?_
  have hz := rel_zip (List.forall₂_drop start (List.forall₂_take stop ha)) (List.forall₂_drop start (List.forall₂_take stop hb))
  obtain ⟨l', e, h'⟩ := h.byPair _ _ (hz.imp fun _ _ k => ⟨k.1.1, k.2.1⟩)
  dsimp only
  rw [e]
  obtain ⟨w, hw⟩ : ∃ w, w = ((x.take stop).drop start).zip ((y.take stop).drop start) := ⟨_, rfl⟩
  rw [← hw] at h' ⊢
  have hwB : ∀ q ∈ s.byPair w, ‖q.1‖ ≤ B ∧ ‖q.2‖ ≤ B := by
    intro q hq
    have hq := (h.correct.pair_perm w).mem_iff.mp hq
    rw [hw] at hq
    have m1 := List.mem_of_mem_take (List.mem_of_mem_drop (List.of_mem_zip hq).1)
    have m2 := List.mem_of_mem_take (List.mem_of_mem_drop (List.of_mem_zip hq).2)
    exact ⟨(forall_CB.mp ha).2 _ m1, (forall_CB.mp hb).2 _ m2⟩
  refine RR.ok ⟨?_, ?_⟩
  · refine List.rel_append (List.rel_append (List.forall₂_take start ha) ?_) (List.forall₂_drop stop ha)
    refine forall_CB.mpr ⟨rel_map h' fun _ _ k => k.1, fun z hz => ?_⟩
    obtain ⟨q, hq, rfl⟩ := List.mem_map.mp hz
    exact (hwB q hq).1
  · refine List.rel_append (List.rel_append (List.forall₂_take start hb) ?_) (List.forall₂_drop stop hb)
    refine forall_CB.mpr ⟨rel_map h' fun _ _ k => k.2, fun z hz => ?_⟩
    obtain ⟨q, hq, rfl⟩ := List.mem_map.mp hz
    exact (hwB q hq).2

/-- `cplxreal_dyn`. -/
theorem Roomy.split (h : Roomy L m B) (hS : Sorted S s) {l : List (Cx f)} {v : List ℂ}
    (hl : List.Forall₂ (CB B) l v) :
    RR (fun p q => List.Forall₂ (CB (12 * B)) p.1 q.1 ∧ List.Forall₂ (CB (12 * B)) p.2 q.2) (cplxreal L S l none)
      (Rounded.cplxreal (Arith.ofRounding f.r m) s v none) := by
  have h1 := h.one
  have hsq := h.sq
  unfold IeeeDesign.cplxreal Rounded.cplxreal
  refine RR.ite (rel_nil_iff hl) (fun _ _ => RR.ok ⟨.nil, .nil⟩) fun _ _ => ?_
  obtain ⟨l', e, hl'⟩ := hS.key hl
  rw [e]
  simp only [Option.getD_none, ok_bind]
  have hr := rel_filter hl' fun a b hab => h.isReal_eq hab
  have hc := rel_filter hl' (p := fun zi => !isReal L (defaultTol L) zi)
    (q := fun zi => !Rounded.isReal (Arith.ofRounding f.r m) (Rounded.defaultTol (Arith.ofRounding f.r m)) zi)
    fun a b hab => by simp only [h.isReal_eq hab]
  refine RR.ite (by rw [hr.length_eq, hl'.length_eq]) (fun _ _ => RR.ok ⟨.nil, hr.imp fun _ _ k => k.mono (by linarith)⟩)
    fun _ _ => ?_
  have hp := rel_filter hc (p := fun zi => decide (0 < zi.im)) (q := fun zi => decide (zi.im > 0))
    fun a b hab => decide_eq_decide.mpr (is_lt is_zero hab.1.2)
  have hn := rel_filter hc (p := fun zi => decide (zi.im < 0)) (q := fun zi => decide (zi.im < 0))
    fun a b hab => decide_eq_decide.mpr (is_lt hab.1.2 is_zero)
  refine RR.ite (by rw [hp.length_eq, hn.length_eq]) (fun _ _ => RR.err _) fun _ _ => ?_
  have hsr := h.sameReal_eq hp
  refine RR.bind (RR.check (by rw [hsr])) fun _ _ _ => ?_
  rw [hsr]
  refine RR.bind (RR.foldlM (R := fun p q => List.Forall₂ (CB B) p.1 q.1 ∧ List.Forall₂ (CB B) p.2 q.2) _
    (fun a b c _ hab => hS.run hab.1 hab.2 _ _) ⟨hp, hn⟩) fun a b hab => ?_
  have hz := rel_zip hab.1 hab.2
  have hany := any_eq_of_rel hz (g := fun q => decide (defaultTol L * L.cabs q.2 < L.cabs (q.1.sub q.2.conj)))
    (k := fun q => decide ((Arith.ofRounding f.r m).cabs ((Arith.ofRounding f.r m).csub q.1 ((starRingEnd ℂ) q.2)) >
      (Arith.ofRounding f.r m).mul (Rounded.defaultTol (Arith.ofRounding f.r m)) ((Arith.ofRounding f.r m).cabs q.2)))
    fun p q hpq => by
      have k1 := h.csub hpq.1 hpq.2.conj
      have k2 : |(Arith.ofRounding f.r m).cabs q.2| ≤ 2 * ‖q.2‖ + 1 := h.hypot_le q.2
      exact decide_eq_decide.mpr (is_lt (h.tolMul (h.cabs (hpq.2.mono (by linarith))) (by linarith [hpq.2.2]))
        (h.cabs (k1.mono (by linarith))))
  refine RR.ite (by rw [hany]) (fun _ _ => RR.err _) fun _ _ => ?_
  exact RR.ok ⟨rel_map hz fun p q hpq => h.mean hpq.1 hpq.2.conj, hr.imp fun _ _ k => k.mono (by linarith)⟩

end SciRs.IeeeDesign

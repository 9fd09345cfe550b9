import Verif.Lemmas.Ieee
import Verif.Spec.Cascade
import Verif.Lemmas.RoundedSos
import Mathlib.Data.List.GetD

/-! Helper lemmas: second-order sections on IEEE numbers. -/

namespace SciRs.Spec.Ieee

open SciRs SciRs.Spec

variable {f : Format}

theorem tdf2_length {F : Type} [Add F] [Sub F] [Mul F] (b0 b1 b2 a1 a2 z0 z1 : F) (x : List F) :
    (tdf2 b0 b1 b2 a1 a2 z0 z1 x).1.length = x.length := by
  induction x generalizing z0 z1 with
  | nil => rfl
  | cons v x ih => simp [tdf2, ih]

theorem tdf2_getElem_succ {F : Type} [Add F] [Sub F] [Mul F] (b0 b1 b2 a1 a2 z0 z1 v : F) (x : List F) (j : ℕ)
    (h : j + 1 < (tdf2 b0 b1 b2 a1 a2 z0 z1 (v :: x)).1.length)
    (h' : j < (tdf2 b0 b1 b2 a1 a2 (b1 * v - a1 * (b0 * v + z0) + z1) (b2 * v - a2 * (b0 * v + z0)) x).1.length) :
    (tdf2 b0 b1 b2 a1 a2 z0 z1 (v :: x)).1[j + 1] =
      (tdf2 b0 b1 b2 a1 a2 (b1 * v - a1 * (b0 * v + z0) + z1) (b2 * v - a2 * (b0 * v + z0)) x).1[j] := rfl

/-- A finite output needs a finite state and finite inputs up to that time. -/
theorem tdf2_finite (b0 b1 b2 a1 a2 z0 z1 : Ieee f) (x : List (Ieee f)) (j : ℕ) (hj : j < x.length)
    (h : ((tdf2 b0 b1 b2 a1 a2 z0 z1 x).1[j]'(by rw [tdf2_length]; exact hj)).Finite) :
    z0.Finite ∧ ∀ i (hi : i ≤ j), (x[i]'(by omega)).Finite := by
  induction x generalizing z0 z1 j with
  | nil => simp at hj
  | cons v x ih =>
    rcases j with _ | j
    · have h0 : (b0 * v + z0).Finite := h
      have := finite_add h0
      refine ⟨this.2, fun i hi => ?_⟩
      obtain rfl : i = 0 := by omega
      exact (finite_mul this.1).2
    · have hj' : j < x.length := by simpa using hj
      have h1 := ih (b1 * v - a1 * (b0 * v + z0) + z1) (b2 * v - a2 * (b0 * v + z0)) j hj' h
      have hy : (b0 * v + z0).Finite := (finite_mul (finite_sub (finite_add h1.1).1).2).2
      refine ⟨(finite_add hy).2, fun i hi => ?_⟩
      rcases i with _ | i
      · exact (finite_mul (finite_add hy).1).2
      · exact h1.2 i (by omega)

theorem cascade_length {F : Type} [Add F] [Sub F] [Mul F] (sos : List (Sos F)) (x : List F) :
    (cascade sos x).1.length = x.length := by
  induction sos generalizing x with
  | nil => rfl
  | cons s ss ih => simp [cascade, ih, tdf2_length]

/-- A finite output of a cascade needs finite inputs up to that time. -/
theorem cascade_finite (sos : List (Sos (Ieee f))) (hne : sos ≠ []) (x : List (Ieee f)) (j : ℕ) (hj : j < x.length)
    (h : ((cascade sos x).1[j]'(by rw [cascade_length]; exact hj)).Finite) :
    ∀ i (hi : i ≤ j), (x[i]'(by omega)).Finite := by
  induction sos generalizing x with
  | nil => exact absurd rfl hne
  | cons s ss ih =>
    have h1 : ((tdf2 s.b0 s.b1 s.b2 s.a1 s.a2 s.zi0 s.zi1 x).1[j]'(by rw [tdf2_length]; exact hj)).Finite := by
      by_cases hs : ss = []
      · subst hs
        exact h
      · exact ih hs _ (by rw [tdf2_length]; exact hj) h j le_rfl
    exact (tdf2_finite _ _ _ _ _ _ _ x j hj h1).2

theorem tdf2_agrees (b0 b1 b2 a1 a2 z0 z1 : Ieee f) (b0' b1' b2' a1' a2' z0' z1' : Fl f.r)
    (h0 : Agrees b0 b0') (h1 : Agrees b1 b1') (h2 : Agrees b2 b2') (k1 : Agrees a1 a1') (k2 : Agrees a2 a2')
    (hz0 : Agrees z0 z0') (hz1 : Agrees z1 z1') (x : List (Ieee f)) (x' : List (Fl f.r))
    (hx : List.Forall₂ Agrees x x') :
    List.Forall₂ Agrees (tdf2 b0 b1 b2 a1 a2 z0 z1 x).1 (tdf2 b0' b1' b2' a1' a2' z0' z1' x').1 := by
  induction hx generalizing z0 z1 z0' z1' with
  | nil => exact List.Forall₂.nil
  | cons hv _ ih =>
    have hy := (h0.mul hv).add hz0
    refine List.Forall₂.cons hy (ih _ _ _ _ ?_ ?_)
    · exact ((h1.mul hv).sub (k1.mul hy)).add hz1
    · exact (h2.mul hv).sub (k2.mul hy)

/-- The fields of two sections agree. -/
def SosAgrees (s : Sos (Ieee f)) (s' : Sos (Fl f.r)) : Prop :=
  Agrees s.b0 s'.b0 ∧ Agrees s.b1 s'.b1 ∧ Agrees s.b2 s'.b2 ∧ Agrees s.a1 s'.a1 ∧ Agrees s.a2 s'.a2 ∧
    Agrees s.zi0 s'.zi0 ∧ Agrees s.zi1 s'.zi1

theorem cascade_agrees (sos : List (Sos (Ieee f))) (sos' : List (Sos (Fl f.r)))
    (hs : List.Forall₂ SosAgrees sos sos') (x : List (Ieee f)) (x' : List (Fl f.r))
    (hx : List.Forall₂ Agrees x x') : List.Forall₂ Agrees (cascade sos x).1 (cascade sos' x').1 := by
  induction hs generalizing x x' with
  | nil => exact hx
  | cons h _ ih =>
    obtain ⟨a, b, c, d, e, g, i⟩ := h
    exact ih _ _ (tdf2_agrees _ _ _ _ _ _ _ _ _ _ _ _ _ _ a b c d e g i x x' hx)

/-! ### No overflow -/

/-- `a` is finite and has the value of `b`. -/
def Exact (a : Ieee f) (b : Fl f.r) : Prop := ∃ s, a = fin b.val s

theorem exact_pack {x : ℝ} {s : Bool} {b : Fl f.r} (hb : b.val = f.r.rnd x) (h : |f.r.rnd x| ≤ f.top) :
    Exact (pack f x s) b := by
  unfold pack
  rw [if_neg (not_lt.mpr h), ← hb]
  exact ⟨_, rfl⟩

theorem Exact.add {a c : Ieee f} {b d : Fl f.r} (h : Exact a b) (k : Exact c d) (ho : |(b + d).val| ≤ f.top) :
    Exact (a + c) (b + d) := by
  obtain ⟨s, rfl⟩ := h
  obtain ⟨t, rfl⟩ := k
  exact exact_pack rfl ho

theorem Exact.sub {a c : Ieee f} {b d : Fl f.r} (h : Exact a b) (k : Exact c d) (ho : |(b - d).val| ≤ f.top) :
    Exact (a - c) (b - d) := by
  obtain ⟨s, rfl⟩ := h
  obtain ⟨t, rfl⟩ := k
  exact exact_pack rfl ho

theorem Exact.mul {a c : Ieee f} {b d : Fl f.r} (h : Exact a b) (k : Exact c d) (ho : |(b * d).val| ≤ f.top) :
    Exact (a * c) (b * d) := by
  obtain ⟨s, rfl⟩ := h
  obtain ⟨t, rfl⟩ := k
  exact exact_pack rfl ho

theorem abs_rnd_le (r : Rounding) (hu : r.u ≤ 1) (v : ℝ) : |r.rnd v| ≤ 2 * |v| + r.t := by
  have h := r.err v
  have h1 := abs_sub_abs_le_abs_sub (r.rnd v) v
  have h2 := mul_le_mul_of_nonneg_right hu (abs_nonneg v)
  linarith

/-- One section whose computed outputs are bounded does not overflow. -/
theorem tdf2_exact (b0 b1 b2 a1 a2 : ℝ) (hu : f.r.u ≤ 1) (m B : ℝ) (hm : 1 ≤ m) (hb0 : |b0| ≤ m) (hb1 : |b1| ≤ m)
    (hb2 : |b2| ≤ m) (ha1 : |a1| ≤ m) (ha2 : |a2| ≤ m) (hB : 0 ≤ B) (htop : 113 * m * (B + f.r.t) ≤ f.top)
    (c0 c1 c2 d1 d2 z0 z1 : Ieee f) (h0 : Exact c0 ⟨b0⟩) (h1 : Exact c1 ⟨b1⟩) (h2 : Exact c2 ⟨b2⟩)
    (k1 : Exact d1 ⟨a1⟩) (k2 : Exact d2 ⟨a2⟩) (w0 w1 : Fl f.r) (hz0 : Exact z0 w0) (hz1 : Exact z1 w1)
    (hw0 : |w0.val| ≤ 53 * m * (B + f.r.t)) (hw1 : |w1.val| ≤ 13 * m * (B + f.r.t))
    (x : List (Ieee f)) (x' : List (Fl f.r)) (hx : List.Forall₂ Exact x x') (hxB : ∀ v ∈ x', |v.val| ≤ B)
    (hy : ∀ v ∈ (tdf2 (F := Fl f.r) ⟨b0⟩ ⟨b1⟩ ⟨b2⟩ ⟨a1⟩ ⟨a2⟩ w0 w1 x').1, |v.val| ≤ B) :
    List.Forall₂ Exact (tdf2 c0 c1 c2 d1 d2 z0 z1 x).1
      (tdf2 (F := Fl f.r) ⟨b0⟩ ⟨b1⟩ ⟨b2⟩ ⟨a1⟩ ⟨a2⟩ w0 w1 x').1 := by
  have ht := f.r.t_nonneg
  have hD0 : 0 ≤ B + f.r.t := by linarith
  have hmD : B + f.r.t ≤ m * (B + f.r.t) := le_mul_of_one_le_left hD0 hm
  -- a product with a coefficient
  have prod : ∀ c w : ℝ, |c| ≤ m → |w| ≤ B → |f.r.rnd (c * w)| ≤ 3 * (m * (B + f.r.t)) := by
    intro c w hc hw
    refine (abs_rnd_le _ hu _).trans ?_
    rw [abs_mul]
    have := mul_le_mul hc hw (abs_nonneg _) (by linarith)
    nlinarith
  induction hx generalizing z0 z1 w0 w1 with
  | nil => exact List.Forall₂.nil
  | @cons v v' l l' hv _ ih =>
    have hxv : |v'.val| ≤ B := hxB v' (by simp)
    obtain ⟨y', hy'⟩ : ∃ y' : Fl f.r, y' = ⟨b0⟩ * v' + w0 := ⟨_, rfl⟩
    have hyv : |y'.val| ≤ B := by
      rw [hy']
      exact hy _ (List.mem_cons_self)
    have p0 := prod b0 _ hb0 hxv
    have p1 := prod b1 _ hb1 hxv
    have p2 := prod b2 _ hb2 hxv
    have q1 := prod a1 _ ha1 hyv
    have q2 := prod a2 _ ha2 hyv
    have diff : ∀ p q : ℝ, |p| ≤ 3 * (m * (B + f.r.t)) → |q| ≤ 3 * (m * (B + f.r.t)) →
        |f.r.rnd (p - q)| ≤ 13 * (m * (B + f.r.t)) := by
      intro p q hp hq
      refine (abs_rnd_le _ hu _).trans ?_
      have := abs_sub p q
      linarith
    have e1 : Exact (c0 * v) (⟨b0⟩ * v') := h0.mul hv (by
      refine (show |f.r.rnd (b0 * v'.val)| ≤ _ from p0).trans ?_
      linarith)
    have e2 : Exact (c0 * v + z0) y' := by
      rw [hy']
      refine e1.add hz0 ?_
      rw [← hy']
      linarith
    have e3 : Exact (c1 * v) (⟨b1⟩ * v') := h1.mul hv ((show |f.r.rnd (b1 * v'.val)| ≤ _ from p1).trans (by linarith))
    have e4 : Exact (c2 * v) (⟨b2⟩ * v') := h2.mul hv ((show |f.r.rnd (b2 * v'.val)| ≤ _ from p2).trans (by linarith))
    have e5 : Exact (d1 * (c0 * v + z0)) (⟨a1⟩ * y') :=
      k1.mul e2 ((show |f.r.rnd (a1 * y'.val)| ≤ _ from q1).trans (by linarith))
    have e6 : Exact (d2 * (c0 * v + z0)) (⟨a2⟩ * y') :=
      k2.mul e2 ((show |f.r.rnd (a2 * y'.val)| ≤ _ from q2).trans (by linarith))
    have s1 : |((⟨b1⟩ : Fl f.r) * v' - ⟨a1⟩ * y').val| ≤ 13 * (m * (B + f.r.t)) := diff _ _ p1 q1
    have s2 : |((⟨b2⟩ : Fl f.r) * v' - ⟨a2⟩ * y').val| ≤ 13 * (m * (B + f.r.t)) := diff _ _ p2 q2
    have e7 := e3.sub e5 (s1.trans (by linarith))
    have e8 := e4.sub e6 (s2.trans (by linarith))
    have s3 : |((⟨b1⟩ : Fl f.r) * v' - ⟨a1⟩ * y' + w1).val| ≤ 53 * (m * (B + f.r.t)) := by
      refine (abs_rnd_le _ hu _).trans ?_
      have := abs_add_le ((⟨b1⟩ : Fl f.r) * v' - ⟨a1⟩ * y').val w1.val
      linarith
    have e9 := e7.add hz1 (s3.trans (by linarith))
    have hcons : (tdf2 (F := Fl f.r) ⟨b0⟩ ⟨b1⟩ ⟨b2⟩ ⟨a1⟩ ⟨a2⟩ w0 w1 (v' :: l')).1 =
        y' :: (tdf2 (F := Fl f.r) ⟨b0⟩ ⟨b1⟩ ⟨b2⟩ ⟨a1⟩ ⟨a2⟩ (⟨b1⟩ * v' - ⟨a1⟩ * y' + w1) (⟨b2⟩ * v' - ⟨a2⟩ * y') l').1 := by
      rw [hy']; rfl
    rw [hcons] at hy ⊢
    refine List.Forall₂.cons e2 (ih _ _ _ _ e9 e8 (by linarith) (by linarith) (fun u hu => hxB u (by simp [hu]))
      (fun u hu => hy u (by simp [hu])))

theorem getD_of_mem_bound {l : List (Fl f.r)} {B : ℝ} (h : ∀ i, |(l.getD i 0).val| ≤ B) : ∀ v ∈ l, |v.val| ≤ B := by
  intro v hv
  obtain ⟨i, hi, rfl⟩ := List.mem_iff_getElem.mp hv
  have := h i
  rwa [List.getD_eq_getElem _ _ hi] at this

theorem exact_ofReal (v : ℝ) : Exact (ofReal f v) ⟨v⟩ := ⟨_, rfl⟩

/-- A section with the same numbers. -/
noncomputable def toIeee (f : Format) (s : Sos ℝ) : Sos (Ieee f) :=
  ⟨ofReal f s.b0, ofReal f s.b1, ofReal f s.b2, ofReal f s.a0, ofReal f s.a1, ofReal f s.a2, ofReal f s.zi0,
    ofReal f s.zi1⟩

/-- A cascade of stable sections does not overflow as long as the level of the input is far enough below the largest
finite number. -/
theorem cascade_exact (sos : List (Sos ℝ)) (hs : ∀ s ∈ sos, RootsBelow 1 s) :
    ∃ K u0, 1 ≤ K ∧ 0 < u0 ∧ ∀ (f : Format), f.r.u ≤ u0 → ∀ (L E : ℝ), 0 ≤ L → 0 ≤ E →
      (∀ s ∈ sos, |s.zi0| ≤ L ∧ |s.zi1| ≤ L) → K * (L + E + f.r.t) ≤ f.top →
      ∀ (x : List ℝ) (x' : List (Fl f.r)) (x'' : List (Ieee f)), x'.length = x.length →
      (∀ i, |x.getD i 0| ≤ L) → (∀ i, |(x'.getD i 0).val - x.getD i 0| ≤ E) → List.Forall₂ Exact x'' x' →
      List.Forall₂ Exact (cascade (sos.map (toIeee f)) x'').1 (cascade (sos.map (Rounded.Sos.toFl f.r)) x').1 := by
  induction sos with
  | nil =>
    refine ⟨1, 1, le_rfl, one_pos, ?_⟩
    intro f _ L E _ _ _ _ x x' x'' _ _ _ hx
    exact hx
  | cons s ss ih =>
    obtain ⟨K1, u1, hK1, hu1, H1⟩ := Rounded.section_err s (hs s (by simp))
    obtain ⟨K2, u2, hK2, hu2, H2⟩ := ih (fun t ht => hs t (by simp [ht]))
    obtain ⟨m, hm⟩ : ∃ m, m = |s.b0| + |s.b1| + |s.b2| + |s.a1| + |s.a2| + 1 := ⟨_, rfl⟩
    have n0 := abs_nonneg s.b0
    have n1 := abs_nonneg s.b1
    have n2 := abs_nonneg s.b2
    have n3 := abs_nonneg s.a1
    have n4 := abs_nonneg s.a2
    have hm1 : 1 ≤ m := by linarith
    refine ⟨3 * K1 * K2 + 565 * m * K1, min 1 (min u1 u2), by nlinarith [mul_le_mul hK1 hK2 zero_le_one (by linarith)],
      lt_min one_pos (lt_min hu1 hu2), ?_⟩
    intro f hf L E hL hE hz htop x x' x'' hlen hx hx' hxx
    have ht := f.r.t_nonneg
    have hu := f.r.u_nonneg
    have hf1 : f.r.u ≤ 1 := hf.trans (min_le_left _ _)
    obtain ⟨ho, he⟩ := H1 f.r (hf.trans ((min_le_right _ _).trans (min_le_left _ _))) L E hE (hz s (by simp)).1
      (hz s (by simp)).2 x x' hlen hx hx'
    have huL : f.r.u * L ≤ L := mul_le_of_le_one_left hL hf1
    have huL0 : 0 ≤ f.r.u * L := by positivity
    have hLK : L ≤ K1 * L := le_mul_of_one_le_left hL hK1
    have hK10 : 0 ≤ K1 := by linarith
    have hK20 : 0 ≤ K2 := by linarith
    obtain ⟨S, hS⟩ : ∃ S, S = L + E + f.r.t := ⟨_, rfl⟩
    have hS0 : 0 ≤ S := by linarith
    rw [← hS] at htop
    have hSK : S ≤ K1 * S := le_mul_of_one_le_left hS0 hK1
    have hKL : K1 * L ≤ K1 * S := mul_le_mul_of_nonneg_left (by linarith) hK10
    have hKE : K1 * (E + f.r.u * L + f.r.t) ≤ K1 * S := mul_le_mul_of_nonneg_left (by linarith) hK10
    have hKK : 0 ≤ K1 * K2 * S := by positivity
    have hmKS : 0 ≤ m * K1 * S := by positivity
    -- the computed outputs of the section
    have hB : 0 ≤ 4 * K1 * S := by positivity
    have hyb : ∀ i, |((tdf2 (F := Fl f.r) ⟨s.b0⟩ ⟨s.b1⟩ ⟨s.b2⟩ ⟨s.a1⟩ ⟨s.a2⟩ ⟨s.zi0⟩ ⟨s.zi1⟩ x').1.getD i 0).val| ≤
        4 * K1 * S := by
      intro i
      have a1 := he i
      have a2 := ho i
      have a3 := abs_sub_abs_le_abs_sub
        ((tdf2 (F := Fl f.r) ⟨s.b0⟩ ⟨s.b1⟩ ⟨s.b2⟩ ⟨s.a1⟩ ⟨s.a2⟩ ⟨s.zi0⟩ ⟨s.zi1⟩ x').1.getD i 0).val
        ((tdf2 s.b0 s.b1 s.b2 s.a1 s.a2 s.zi0 s.zi1 x).1.getD i 0)
      linarith
    have hxb : ∀ i, |(x'.getD i 0).val| ≤ 4 * K1 * S := by
      intro i
      have a1 := hx i
      have a2 := hx' i
      have a3 := abs_sub_abs_le_abs_sub (x'.getD i 0).val (x.getD i 0)
      linarith
    have hsec := tdf2_exact s.b0 s.b1 s.b2 s.a1 s.a2 hf1 m (4 * K1 * S) hm1 (by linarith) (by linarith) (by linarith)
      (by linarith) (by linarith) hB (by
        have e1 : f.r.t ≤ K1 * S := by linarith
        have e2 : m * f.r.t ≤ m * (K1 * S) := mul_le_mul_of_nonneg_left e1 (by linarith)
        nlinarith) _ _ _ _ _ _ _ (exact_ofReal s.b0) (exact_ofReal s.b1) (exact_ofReal s.b2)
      (exact_ofReal s.a1) (exact_ofReal s.a2) ⟨s.zi0⟩ ⟨s.zi1⟩ (exact_ofReal s.zi0) (exact_ofReal s.zi1)
      (by
        have := (hz s (by simp)).1
        change |s.zi0| ≤ _
        have e2 : 1 * (4 * K1 * S + f.r.t) ≤ m * (4 * K1 * S + f.r.t) := mul_le_mul_of_nonneg_right hm1 (by linarith)
        linarith)
      (by
        have := (hz s (by simp)).2
        change |s.zi1| ≤ _
        have e2 : 1 * (4 * K1 * S + f.r.t) ≤ m * (4 * K1 * S + f.r.t) := mul_le_mul_of_nonneg_right hm1 (by linarith)
        linarith)
      x'' x' hxx (getD_of_mem_bound hxb) (getD_of_mem_bound hyb)
    exact H2 f (hf.trans ((min_le_right _ _).trans (min_le_right _ _))) (K1 * L) (K1 * (E + f.r.u * L + f.r.t))
      (by positivity) (by positivity)
      (fun t ht => ⟨((hz t (by simp [ht])).1).trans hLK, ((hz t (by simp [ht])).2).trans hLK⟩)
      (by
        have : K2 * (K1 * L + K1 * (E + f.r.u * L + f.r.t) + f.r.t) ≤ K2 * (3 * (K1 * S)) :=
          mul_le_mul_of_nonneg_left (by linarith) hK20
        nlinarith)
      (tdf2 s.b0 s.b1 s.b2 s.a1 s.a2 s.zi0 s.zi1 x).1
      (tdf2 (F := Fl f.r) ⟨s.b0⟩ ⟨s.b1⟩ ⟨s.b2⟩ ⟨s.a1⟩ ⟨s.a2⟩ ⟨s.zi0⟩ ⟨s.zi1⟩ x').1 _
      (by rw [tdf2_length, tdf2_length]; exact hlen) ho he hsec

end SciRs.Spec.Ieee

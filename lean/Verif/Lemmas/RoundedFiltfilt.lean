import Verif.Lemmas.RoundedZi
import Verif.Props.Sosfiltfilt

/-! Helper lemmas: `sosfiltfilt_dyn` in rounded arithmetic. -/

namespace SciRs.Rounded

open SciRs SciRs.Spec SciRs.Props

variable {r : Rounding}

/-- A product of a fixed computed quantity and a sample. -/
theorem prod_err (r : Rounding) (hu : r.u ≤ 1) (L C Z D M p p' q q' : ℝ) (hL : 0 ≤ L) (hC : 0 ≤ C)
    (hZ : 0 ≤ Z) (hD : 0 ≤ D) (hM : 0 ≤ M) (hp : |p| ≤ Z) (hp' : |p' - p| ≤ C * r.u)
    (hq : |q| ≤ M * L) (hq' : |q' - q| ≤ D * (r.u * L + r.t)) :
    |r.rnd (p' * q') - p * q| ≤ ((Z + C) * D + M * C + (Z + C) * (M + D) + 1) * (r.u * L + r.t) := by
  have hu0 := r.u_nonneg
  have ht := r.t_nonneg
  obtain ⟨ε, hε⟩ : ∃ ε, ε = r.u * L + r.t := ⟨_, rfl⟩
  have hLu : 0 ≤ r.u * L := by positivity
  have hε0 : 0 ≤ ε := by rw [hε]; positivity
  have hLε : r.u * L ≤ ε := by rw [hε]; linarith
  have htε : r.t ≤ ε := by rw [hε]; linarith
  rw [← hε] at hq' ⊢
  have tri : ∀ a b : ℝ, |a| ≤ |a - b| + |b| := fun a b => by
    have := abs_add_le (a - b) b
    rwa [sub_add_cancel] at this
  have hpa : |p'| ≤ Z + C := by
    have := tri p' p
    have : C * r.u ≤ C * 1 := mul_le_mul_of_nonneg_left hu hC
    linarith
  have hqa : |q'| ≤ M * L + D * ε := by
    have := tri q' q
    linarith
  have e1 : |p' * q' - p * q| ≤ ((Z + C) * D + M * C) * ε := by
    have e : p' * q' - p * q = p' * (q' - q) + (p' - p) * q := by ring
    rw [e]
    have s := abs_add_le (p' * (q' - q)) ((p' - p) * q)
    rw [abs_mul, abs_mul] at s
    have m1 := mul_le_mul hpa hq' (abs_nonneg _) (by positivity)
    have m2 := mul_le_mul hp' hq (abs_nonneg _) (by positivity)
    have m3 : C * r.u * (M * L) ≤ M * C * ε := by
      have : C * r.u * (M * L) = M * C * (r.u * L) := by ring
      rw [this]
      exact mul_le_mul_of_nonneg_left hLε (by positivity)
    linarith
  have e2 : |p' * q'| ≤ (Z + C) * (M * L + D * ε) := by
    rw [abs_mul]
    exact mul_le_mul hpa hqa (abs_nonneg _) (by positivity)
  have e3 : r.u * ((Z + C) * (M * L + D * ε)) ≤ (Z + C) * (M + D) * ε := by
    have a1 : r.u * ((Z + C) * (M * L + D * ε)) = (Z + C) * (M * (r.u * L) + D * (r.u * ε)) := by ring
    have a2 : M * (r.u * L) ≤ M * ε := mul_le_mul_of_nonneg_left hLε hM
    have a3 : r.u * ε ≤ 1 * ε := mul_le_mul_of_nonneg_right hu hε0
    have a4 : D * (r.u * ε) ≤ D * (1 * ε) := mul_le_mul_of_nonneg_left a3 hD
    have a5 := mul_le_mul_of_nonneg_left (add_le_add a2 a4) (show 0 ≤ Z + C by positivity)
    linarith
  have e4 := r.err (p' * q')
  have e5 := mul_le_mul_of_nonneg_left e2 hu0
  have e6 := abs_sub_le (r.rnd (p' * q')) (p' * q') (p * q)
  linarith

/-- The odd extension in rounded arithmetic. -/
theorem ext_err (r : Rounding) (hu : r.u ≤ 1) (htu : r.t ≤ r.u) (L : ℝ) (y : List ℝ) (n : ℕ)
    (hL : 0 ≤ L) (hy : ∀ i, |y.getD i 0| ≤ L) (i : ℕ) :
    |(extList y n).getD i 0| ≤ 3 * L ∧
    |((extList (y.map (Fl.mk (r := r))) n).getD i 0).val - (extList y n).getD i 0|
      ≤ 19 * (r.u * L + r.t) := by
  have hu0 := r.u_nonneg
  have ht := r.t_nonneg
  have hLu : 0 ≤ r.u * L := by positivity
  have hg : ∀ k, ((y.map (Fl.mk (r := r))).getD k 0) = ⟨y.getD k 0⟩ := by
    intro k
    by_cases hk : k < y.length
    · simp [List.getD_eq_getElem?_getD, List.getElem?_eq_getElem hk]
    · simp only [List.getD_eq_getElem?_getD, List.getElem?_map,
        List.getElem?_eq_none (show y.length ≤ k by omega)]
      rfl
  -- twice a sample minus a sample
  have key : ∀ a b : ℝ, |a| ≤ L → |b| ≤ L →
      |(1 + 1) * a - b| ≤ 3 * L ∧
      |(((1 + 1) * (⟨a⟩ : Fl r) - ⟨b⟩ : Fl r)).val - ((1 + 1) * a - b)| ≤ 19 * (r.u * L + r.t) := by
    intro a b ha hb
    have hab : |(1 + 1) * a - b| ≤ 3 * L := by
      have := abs_sub ((1 + 1) * a) b
      rw [abs_mul, abs_of_pos (show (0 : ℝ) < 1 + 1 by norm_num)] at this
      linarith
    refine ⟨hab, ?_⟩
    simp only [Fl.val_sub, Fl.val_mul, Fl.val_add, Fl.val_one]
    have c1 := r.err (1 + 1)
    rw [abs_of_pos (show (0 : ℝ) < 1 + 1 by norm_num)] at c1
    obtain ⟨w, hw⟩ : ∃ w, w = r.rnd (1 + 1) := ⟨_, rfl⟩
    rw [← hw] at c1 ⊢
    have c2 : |w * a - (1 + 1) * a| ≤ 3 * (r.u * L) := by
      rw [← sub_mul, abs_mul]
      have := mul_le_mul (show |w - (1 + 1)| ≤ 3 * r.u by linarith) ha (abs_nonneg _) (by positivity)
      linarith
    have c3 : |w * a| ≤ 5 * L := by
      have h1 := abs_add_le (w * a - (1 + 1) * a) ((1 + 1) * a)
      rw [sub_add_cancel, abs_mul (1 + 1), abs_of_pos (show (0 : ℝ) < 1 + 1 by norm_num)] at h1
      have : r.u * L ≤ 1 * L := mul_le_mul_of_nonneg_right hu hL
      linarith
    have c4 := r.err (w * a)
    have c5 := mul_le_mul_of_nonneg_left c3 hu0
    obtain ⟨m, hm⟩ : ∃ m, m = r.rnd (w * a) := ⟨_, rfl⟩
    rw [← hm] at c4 ⊢
    have c6 : |m - b - ((1 + 1) * a - b)| ≤ 8 * (r.u * L) + r.t := by
      have e : m - b - ((1 + 1) * a - b) = (m - w * a) + (w * a - (1 + 1) * a) := by ring
      rw [e]
      have := abs_add_le (m - w * a) (w * a - (1 + 1) * a)
      linarith
    have c7 : |m - b| ≤ 8 * (r.u * L) + r.t + 3 * L := by
      have := abs_add_le (m - b - ((1 + 1) * a - b)) ((1 + 1) * a - b)
      rw [sub_add_cancel] at this
      linarith
    have c8 := r.err (m - b)
    have c9 : r.u * |m - b| ≤ 8 * (r.u * L) + r.t + 3 * (r.u * L) := by
      have a1 := mul_le_mul_of_nonneg_left c7 hu0
      have a2 : r.u * (8 * (r.u * L) + r.t) ≤ 1 * (8 * (r.u * L) + r.t) :=
        mul_le_mul_of_nonneg_right hu (by positivity)
      linarith
    have c10 := abs_sub_le (r.rnd (m - b)) (m - b) ((1 + 1) * a - b)
    linarith
  have z19 : 0 ≤ 19 * (r.u * L + r.t) := by positivity
  by_cases hi : i < y.length + 2 * n
  · have e1 : (extList y n).getD i 0 = oddExt y.length n (fun k => y.getD k 0) i := by
      simp only [extList, List.getD_eq_getElem?_getD, List.getElem?_map]
      rw [List.getElem?_range hi]; rfl
    have e2 : (extList (y.map (Fl.mk (r := r))) n).getD i 0
        = oddExt y.length n (fun k => (⟨y.getD k 0⟩ : Fl r)) i := by
      simp only [extList, hg, List.length_map]
      rw [List.getD_eq_getElem?_getD, List.getElem?_map, List.getElem?_range hi]; rfl
    rw [e1, e2]
    unfold oddExt
    split
    · exact key _ _ (hy _) (hy _)
    · split
      · exact ⟨(hy _).trans (by linarith), by simpa using z19⟩
      · exact key _ _ (hy _) (hy _)
  · have e1 : (extList y n).getD i 0 = 0 := by
      rw [List.getD_eq_getElem?_getD, List.getElem?_eq_none (by simp [extList]; omega)]; rfl
    have e2 : (extList (y.map (Fl.mk (r := r))) n).getD i 0 = 0 := by
      rw [List.getD_eq_getElem?_getD, List.getElem?_eq_none (by simp [extList]; omega)]; rfl
    rw [e1, e2]
    simp only [Fl.val_zero, sub_zero, abs_zero]
    exact ⟨by positivity, z19⟩

/-- Common constants for the computed initial states. -/
theorem states_uniform (R : List (Sos ℝ)) (R' : List ((r : Rounding) → Sos (Fl r)))
    (h : List.Forall₂ (fun f s => SLim f s) R' R) :
    ∃ C Z u0 : ℝ, 0 ≤ C ∧ 0 ≤ Z ∧ 0 < u0 ∧ ∀ r : Rounding, r.u ≤ u0 → r.t ≤ r.u →
      List.Forall₂ (NearSec r Z (C * r.u)) (R'.map fun f => f r) R := by
  induction h with
  | nil => exact ⟨0, 0, 1, le_rfl, le_rfl, one_pos, fun r _ _ => List.Forall₂.nil⟩
  | @cons f s fs ss hfs _ ih =>
    obtain ⟨C, Z, u0, hC, hZ, hu0, H⟩ := ih
    obtain ⟨C0, v0, hC0, hv0, H0⟩ := hfs.z0
    obtain ⟨C1, v1, hC1, hv1, H1⟩ := hfs.z1
    refine ⟨C + C0 + C1, Z + |s.zi0| + |s.zi1|, min u0 (min v0 v1), by positivity, by positivity,
      lt_min hu0 (lt_min hv0 hv1), fun r hu ht => ?_⟩
    have hr := r.u_nonneg
    have a := H r (hu.trans (min_le_left _ _)) ht
    have b := H0 r (hu.trans ((min_le_right _ _).trans (min_le_left _ _))) ht
    have c := H1 r (hu.trans ((min_le_right _ _).trans (min_le_right _ _))) ht
    have p : 0 ≤ C * r.u := by positivity
    have p0 : 0 ≤ C0 * r.u := by positivity
    have p1 : 0 ≤ C1 * r.u := by positivity
    have q0 := abs_nonneg s.zi0
    have q1 := abs_nonneg s.zi1
    refine List.Forall₂.cons ⟨hfs.b0 r, hfs.b1 r, hfs.b2 r, hfs.a1 r, hfs.a2 r, by linarith,
      by linarith, ?_, ?_⟩ (a.imp fun _ _ h => h.mono (by linarith) (by linarith))
    · linarith
    · linarith

/-- The initial states scaled by a computed sample. -/
theorem scale_near (r : Rounding) (hu : r.u ≤ 1) (L C Z D M q : ℝ) (q' : Fl r) (hL : 0 ≤ L)
    (hC : 0 ≤ C) (hZ : 0 ≤ Z) (hD : 0 ≤ D) (hM : 0 ≤ M) (hq : |q| ≤ M * L)
    (hq' : |q'.val - q| ≤ D * (r.u * L + r.t)) (S : List (Sos ℝ)) (S' : List (Sos (Fl r)))
    (h : List.Forall₂ (NearSec r Z (C * r.u)) S' S) :
    List.Forall₂ (NearSec r (Z * (M * L))
      (((Z + C) * D + M * C + (Z + C) * (M + D) + 1) * (r.u * L + r.t)))
      (scaleStates q' S') (scaleStates q S) := by
  unfold scaleStates
  rw [List.forall₂_map_left_iff, List.forall₂_map_right_iff]
  refine h.imp fun s' s hs => ⟨hs.b0, hs.b1, hs.b2, hs.a1, hs.a2, ?_, ?_, ?_, ?_⟩
  · rw [abs_mul]; exact mul_le_mul hs.l0 hq (abs_nonneg _) hZ
  · rw [abs_mul]; exact mul_le_mul hs.l1 hq (abs_nonneg _) hZ
  · exact prod_err r hu L C Z D M s.zi0 s'.zi0.val q q'.val hL hC hZ hD hM hs.l0 hs.e0 hq hq'
  · exact prod_err r hu L C Z D M s.zi1 s'.zi1.val q q'.val hL hC hZ hD hM hs.l1 hs.e1 hq hq'

/-- One pass of the cascade over samples of level `M L` known up to `D ε`, from the initial states
scaled by the first sample. -/
theorem pass_err (sos : List (Sos ℝ)) (hs : ∀ s ∈ sos, RootsBelow 1 s) (C Z D M : ℝ) (hC : 0 ≤ C)
    (hZ : 0 ≤ Z) (hD : 0 ≤ D) (hM : 0 ≤ M) :
    ∃ D2 M2 u0 : ℝ, 0 ≤ D2 ∧ 0 ≤ M2 ∧ 0 < u0 ∧ ∀ r : Rounding, r.u ≤ u0 →
      ∀ (S : List (Sos ℝ)) (S' : List (Sos (Fl r))), S.map filterCoeffs = sos.map filterCoeffs →
      List.Forall₂ (NearSec r Z (C * r.u)) S' S →
      ∀ (L : ℝ), 0 ≤ L → ∀ (x : List ℝ) (x' : List (Fl r)), x'.length = x.length →
      (∀ i, |x.getD i 0| ≤ M * L) → (∀ i, |(x'.getD i 0).val - x.getD i 0| ≤ D * (r.u * L + r.t)) →
      (∀ i, |(cascade (scaleStates (x.getD 0 0) S) x).1.getD i 0| ≤ M2 * L) ∧
      (∀ i, |((cascade (scaleStates (x'.getD 0 0) S') x').1.getD i 0).val
        - (cascade (scaleStates (x.getD 0 0) S) x).1.getD i 0| ≤ D2 * (r.u * L + r.t)) := by
  obtain ⟨K, u0, hK, hu0, H⟩ := cascade_err_state sos hs
  obtain ⟨Q, hQ⟩ : ∃ Q, Q = (Z + C) * D + M * C + (Z + C) * (M + D) + 1 := ⟨_, rfl⟩
  have hQ0 : 0 ≤ Q := by rw [hQ]; positivity
  have hK0 : 0 ≤ K := by linarith
  refine ⟨K * (Q + D + (Z * M + M) + 1), K * (Z * M + M), min u0 1, by positivity, by positivity,
    lt_min hu0 one_pos, ?_⟩
  intro r hr S S' hS hSS L hL x x' hlen hx hx'
  have hu1 : r.u ≤ 1 := hr.trans (min_le_right _ _)
  have hu := r.u_nonneg
  have ht := r.t_nonneg
  have hLu : 0 ≤ r.u * L := by positivity
  have n := scale_near r hu1 L C Z D M (x.getD 0 0) (x'.getD 0 0) hL hC hZ hD hM (hx 0) (hx' 0) S S' hSS
  rw [← hQ] at n
  obtain ⟨ε, hε⟩ : ∃ ε, ε = r.u * L + r.t := ⟨_, rfl⟩
  rw [← hε] at n hx' ⊢
  have hε0 : 0 ≤ ε := by rw [hε]; positivity
  have hcoef : (scaleStates (x.getD 0 0) S).map filterCoeffs = sos.map filterCoeffs := by
    rw [← hS]; simp [scaleStates, filterCoeffs]
  have p1 : 0 ≤ Z * (M * L) := by positivity
  have p2 : 0 ≤ M * L := by positivity
  have p3 : 0 ≤ Q * ε := by positivity
  have p4 : 0 ≤ D * ε := by positivity
  have := H r (hr.trans (min_le_left _ _)) ((Z * M + M) * L) ((Q + D) * ε) (by positivity)
    (by positivity) _ _ hcoef (n.imp fun _ _ h => h.mono (by linarith) (by linarith)) x x' hlen
    (fun i => (hx i).trans (by linarith)) (fun i => (hx' i).trans (by linarith))
  refine ⟨fun i => (this.1 i).trans (by linarith), fun i => (this.2 i).trans ?_⟩
  have e : K * (Q + D + (Z * M + M) + 1) * ε = K * ((Q + D) * ε + (Z * M + M) * ε + ε) := by ring
  rw [e]
  refine mul_le_mul_of_nonneg_left ?_ hK0
  have a1 : r.u * ((Z * M + M) * L) ≤ (Z * M + M) * ε := by
    have : r.u * ((Z * M + M) * L) = (Z * M + M) * (r.u * L) := by ring
    rw [this]
    exact mul_le_mul_of_nonneg_left (by rw [hε]; linarith) (by positivity)
  have a2 : r.t ≤ ε := by rw [hε]; linarith
  linarith

theorem getD_reverse_lt {T : Type} (l : List T) (i : ℕ) (d : T) (hi : i < l.length) :
    l.reverse.getD i d = l.getD (l.length - 1 - i) d := by
  rw [List.getD_eq_getElem?_getD, List.getD_eq_getElem?_getD, List.getElem?_reverse hi]

theorem reverse_near {r : Rounding} (x : List ℝ) (x' : List (Fl r)) (hl : x'.length = x.length)
    (A B : ℝ) (hx : ∀ i, |x.getD i 0| ≤ A) (hx' : ∀ i, |(x'.getD i 0).val - x.getD i 0| ≤ B) (i : ℕ) :
    |x.reverse.getD i 0| ≤ A ∧ |(x'.reverse.getD i 0).val - x.reverse.getD i 0| ≤ B := by
  by_cases hi : i < x.length
  · rw [getD_reverse_lt _ _ _ hi, getD_reverse_lt _ _ _ (by omega), hl]
    exact ⟨hx _, hx' _⟩
  · have h1 := hx i
    have h2 := hx' i
    have e1 : x.getD i 0 = 0 := by
      rw [List.getD_eq_getElem?_getD, List.getElem?_eq_none (by omega)]; rfl
    have e2 : x'.getD i 0 = 0 := by
      rw [List.getD_eq_getElem?_getD, List.getElem?_eq_none (by omega)]; rfl
    have e3 : x.reverse.getD i 0 = 0 := by
      rw [List.getD_eq_getElem?_getD, List.getElem?_eq_none (by simp; omega)]; rfl
    have e4 : x'.reverse.getD i 0 = 0 := by
      rw [List.getD_eq_getElem?_getD, List.getElem?_eq_none (by simp; omega)]; rfl
    rw [e1] at h1 h2
    rw [e2] at h2
    rw [e3, e4]
    exact ⟨h1, h2⟩

end SciRs.Rounded

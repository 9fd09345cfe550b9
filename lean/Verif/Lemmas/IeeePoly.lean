import Verif.Lemmas.IeeeCplx

/-! # `poly_dyn` and `zpk2tf_dyn` on finite numbers do what they do without overflow -/

namespace SciRs.IeeeDesign

open SciRs.Spec SciRs.Spec.Ieee SciRs.Rounded SciRs.Design Classical

variable {f : Format}

theorem RR.mapM {α β γ : Type} {R : α → β → Prop} {g : γ → Res α} {h : γ → Res β} (l : List γ)
    (hgh : ∀ c ∈ l, RR R (g c) (h c)) : RR (List.Forall₂ R) (l.mapM g) (l.mapM h) := by
  induction l with
  | nil => exact RR.ok .nil
  | cons c l ih =>
    rw [List.mapM_cons, List.mapM_cons]
    refine RR.bind (hgh c List.mem_cons_self) fun a b hab => ?_
    refine RR.bind (ih fun d hd => hgh d (List.mem_cons_of_mem _ hd)) fun as bs hs => ?_
    exact RR.ok (.cons hab hs)

theorem RR.idx {α β : Type} {R : α → β → Prop} {l : List α} {v : List β} (h : List.Forall₂ R l v) (i : ℕ) :
    RR R (Design.idx l i) (Design.idx v i) := by
  unfold Design.idx
  induction h generalizing i with
  | nil => exact RR.err _
  | cons hab _ ih =>
    cases i with
    | zero => exact RR.ok hab
    | succ i => simpa using ih i

section Poly

variable (m : Libm) (hu : f.r.u ≤ 1) (ht : f.r.t ≤ 1)

include hu ht

/-- One product added. -/
theorem mulAdd_is {P C : ℝ} (hP : 1 ≤ P) (hC : 0 ≤ C) (hT : 4 * C + 106 * P ≤ f.top) {c a b : Cx f} {w x y : ℂ}
    (hc : CB C c w) (ha : CIs a x) (hb : CIs b y) (hxy : ‖x‖ * ‖y‖ ≤ P) :
    CB (4 * C + 106 * P) (c.add (a.mul b))
      ((Arith.ofRounding f.r m).cadd w ((Arith.ofRounding f.r m).cmul x y)) := by
  have p : ∀ s t : ℝ, |s| ≤ ‖x‖ → |t| ≤ ‖y‖ → |s * t| ≤ P := fun s t h1 h2 => by
    rw [abs_mul]; exact (mul_le_mul h1 h2 (abs_nonneg _) (norm_nonneg _)).trans hxy
  have xr := Complex.abs_re_le_norm x
  have xi := Complex.abs_im_le_norm x
  have yr := Complex.abs_re_le_norm y
  have yi := Complex.abs_im_le_norm y
  have q1 := rnd_size hu ht (p _ _ xr yr)
  have q2 := rnd_size hu ht (p _ _ xi yi)
  have q3 := rnd_size hu ht (p _ _ xr yi)
  have q4 := rnd_size hu ht (p _ _ xi yr)
  have n1 := rnd_size hu ht ((abs_sub _ _).trans (add_le_add q1 q2))
  have n2 := rnd_size hu ht ((abs_add_le _ _).trans (add_le_add q3 q4))
  have nm : ‖flMul f.r x y‖ ≤ 26 * P := (norm_le_of_parts n1 n2).trans (by linarith)
  have hm := CIs.mul hu ht ha hb hxy (by linarith)
  refine ⟨CIs.add hu ht hc.1 hm (add_le_add hc.2 nm) (by linarith), ?_⟩
  have e1 : |w.re + (flMul f.r x y).re| ≤ C + 26 * P := (abs_add_le _ _).trans (add_le_add
    ((Complex.abs_re_le_norm _).trans hc.2) ((Complex.abs_re_le_norm _).trans nm))
  have e2 : |w.im + (flMul f.r x y).im| ≤ C + 26 * P := (abs_add_le _ _).trans (add_le_add
    ((Complex.abs_im_le_norm _).trans hc.2) ((Complex.abs_im_le_norm _).trans nm))
  exact (norm_le_of_parts (rnd_size hu ht e1) (rnd_size hu ht e2)).trans (by linarith)

variable {B M : ℝ} (hB : 1 ≤ B) (hM : 1 ≤ M) (hT : 1000 * B * M ≤ f.top)

include hB hM hT

theorem polyEntry_is {a : List (Cx f)} {av : List ℂ} (ha : List.Forall₂ (CB M) a av) {z : Cx f} {zv : ℂ}
    (hz : CB B z zv) (i : ℕ) :
    RR (CB (1000 * B * M)) (polyEntry a [Cx.ofRe 1, z.neg] i)
      (Rounded.polyEntry (Arith.ofRounding f.r m) av [1, -zv] i) := by
  have hP : 1 ≤ M * B := one_le_mul_of_one_le_of_one_le hM hB
  have hk : List.Forall₂ (CB B) [Cx.ofRe 1, z.neg] [(1 : ℂ), -zv] := by
    refine .cons ⟨by simpa using cis_ofRe (f := f) is_one, by simpa using hB⟩
      (.cons ⟨CIs.neg hz.1, by rw [norm_neg]; exact hz.2⟩ .nil)
  have hxy : ∀ {x y : ℂ}, ‖x‖ ≤ M → ‖y‖ ≤ B → ‖x‖ * ‖y‖ ≤ M * B := fun h1 h2 =>
    mul_le_mul h1 h2 (norm_nonneg _) (by linarith)
  have hT' : 1000 * (M * B) ≤ f.top := by linarith
  unfold polyEntry Rounded.polyEntry
  simp only [ha.length_eq]
  refine RR.ite Iff.rfl (fun _ _ => ?_) fun _ _ => ?_
  · refine RR.bind (RR.idx ha _) fun x xv hx => RR.bind (RR.idx hk _) fun y yv hy => RR.ok ?_
    refine (mulAdd_is m hu ht hP le_rfl (by linarith) (CB.zero le_rfl) hx.1 hy.1 (hxy hx.2 hy.2)).mono (by linarith)
  · obtain ⟨ui, hui⟩ : ∃ ui, ui = (if i > av.length then i - 2 else 0) := ⟨_, rfl⟩
    rw [← hui]
    obtain ⟨l, hl⟩ : ∃ l, l = List.range' ui (min i (av.length - 1) + 1 - ui) := ⟨_, rfl⟩
    have hcount : (l.countP (fun u => decide (i - u < 2))) ≤ 2 := by
      rw [List.countP_eq_length_filter]
      have nd : (l.filter (fun u => decide (i - u < 2))).Nodup := by rw [hl]; exact (List.nodup_range').filter _
      have sub : l.filter (fun u => decide (i - u < 2)) ⊆ [i - 1, i] := by
        intro u hu'
        rw [List.mem_filter, hl, List.mem_range'_1, decide_eq_true_eq] at hu'
        simp only [List.mem_cons, List.not_mem_nil, or_false]
        omega
      exact (nd.subperm sub).length_le
    rw [← hl]
    obtain ⟨c, hc⟩ : ∃ c : ℕ → ℝ, c = fun n => if n = 0 then 0 else if n = 1 then 106 else 530 := ⟨_, rfl⟩
    have c0 : c 0 = 0 := by rw [hc]; simp
    have c1 : c 1 = 106 := by rw [hc]; simp
    have c2 : c 2 = 530 := by rw [hc]; simp
    have key : ∀ (l : List ℕ) (n : ℕ) (acc : Cx f) (w : ℂ), n + l.countP (fun u => decide (i - u < 2)) ≤ 2 →
        CB (c n * (M * B)) acc w →
        RR (CB (1000 * B * M)) (l.foldlM (fun acc u =>
          if i - u < 2 then do
            let x ← Design.idx a u
            let y ← Design.idx [Cx.ofRe 1, z.neg] (i - u)
            return acc.add (x.mul y)
          else return acc) acc)
        (l.foldlM (fun acc u =>
          if i - u < 2 then do
            let x ← Design.idx av u
            let y ← Design.idx [(1 : ℂ), -zv] (i - u)
            return (Arith.ofRounding f.r m).cadd acc ((Arith.ofRounding f.r m).cmul x y)
          else return acc) w) := by
      intro l
      induction l with
      | nil =>
        intro n acc w hn hacc
        refine RR.ok (hacc.mono ?_)
        have hn : n ≤ 2 := by simpa using hn
        interval_cases n
        · rw [c0]; linarith
        · rw [c1]; linarith
        · rw [c2]; linarith
      | cons u l ih =>
        intro n acc w hn hacc
        rw [List.foldlM_cons, List.foldlM_cons]
        by_cases hu' : i - u < 2
        · rw [if_pos hu', if_pos hu']
          rw [List.countP_cons_of_pos (by simpa using hu')] at hn
          simp only [bind_assoc]
          refine RR.bind (RR.idx ha _) fun x xv hx => RR.bind (RR.idx hk _) fun y yv hy => ?_
          simp only [pure_bind]
          have hn1 : n ≤ 1 := by omega
          have step : 0 ≤ c n ∧ 4 * c n + 106 ≤ c (n + 1) ∧ c n ≤ 106 := by
            interval_cases n
            · rw [c0, c1]; norm_num
            · rw [c1, c2]; norm_num
          obtain ⟨s1, s2, s3⟩ := step
          have t1 := mul_nonneg s1 (zero_le_one.trans hP)
          have t2 := mul_le_mul_of_nonneg_right s2 (zero_le_one.trans hP)
          have t3 := mul_le_mul_of_nonneg_right s3 (zero_le_one.trans hP)
          exact ih (n + 1) _ _ (by omega) ((mulAdd_is m hu ht hP t1 (by linarith) hacc hx.1 hy.1
            (hxy hx.2 hy.2)).mono (by linarith))
        · rw [if_neg hu', if_neg hu', pure_bind, pure_bind]
          rw [List.countP_cons_of_neg (by simpa using hu')] at hn
          exact ih n _ _ hn hacc
    exact key l 0 _ _ (by omega) (CB.zero (by rw [c0, zero_mul]))

theorem polyStep_is {a : List (Cx f)} {av : List ℂ} (ha : List.Forall₂ (CB M) a av) {z : Cx f} {zv : ℂ}
    (hz : CB B z zv) :
    RR (List.Forall₂ (CB (1000 * B * M))) (polyStep a z) (Rounded.polyStep (Arith.ofRounding f.r m) av zv) := by
  unfold polyStep Rounded.polyStep
  rw [ha.length_eq]
  exact RR.mapM _ fun i _ => polyEntry_is m hu ht hB hM hT ha hz i

end Poly

section

variable (m : Libm) (hu : f.r.u ≤ 1) (ht : f.r.t ≤ 1) {B : ℝ} (hB : 1 ≤ B)

include hu ht hB

theorem polyFold_is {z : List (Cx f)} {zv : List ℂ} (hz : List.Forall₂ (CB B) z zv) {M : ℝ} (hM : 1 ≤ M)
    (hT : (1000 * B) ^ zv.length * M ≤ f.top) {a : List (Cx f)} {av : List ℂ} (ha : List.Forall₂ (CB M) a av) :
    RR (List.Forall₂ (CB ((1000 * B) ^ zv.length * M))) (z.foldlM polyStep a)
      (zv.foldlM (Rounded.polyStep (Arith.ofRounding f.r m)) av) := by
  induction hz generalizing M a av with
  | nil => simpa using RR.pure (R := List.Forall₂ (CB M)) ha
  | @cons x xv z zv hx hz ih =>
    rw [List.foldlM_cons, List.foldlM_cons]
    have e : (1000 * B) ^ (xv :: zv).length * M = (1000 * B) ^ zv.length * (1000 * B * M) := by
      rw [List.length_cons, pow_succ]; ring
    rw [e] at hT ⊢
    have g1 : 1 ≤ 1000 * B := by linarith
    have g2 : 1 ≤ (1000 * B) ^ zv.length := one_le_pow₀ g1
    have g3 : 1 ≤ 1000 * B * M := one_le_mul_of_one_le_of_one_le g1 hM
    have g4 : 1000 * B * M ≤ f.top := by
      refine le_trans ?_ hT
      exact le_mul_of_one_le_left (by linarith) g2
    exact RR.bind (polyStep_is m hu ht hB hM g4 ha hx) fun b bv hb => ih g3 hT hb

/-- Both parts are finite and of size at most `M`; the real part is that of `z`. -/
def RIs (M : ℝ) (a : Cx f) (z : ℂ) : Prop := (Is a.re z.re ∧ |z.re| ≤ M) ∧ ∃ y, Is a.im y ∧ |y| ≤ M

omit hu ht hB in
theorem CB.ris {M : ℝ} {a : Cx f} {z : ℂ} (h : CB M a z) : RIs M a z :=
  ⟨⟨h.1.1, (Complex.abs_re_le_norm z).trans h.2⟩, z.im, h.1.2, (Complex.abs_im_le_norm z).trans h.2⟩

omit hu ht hB in
theorem RIs.dropIm {M : ℝ} (hM : 0 ≤ M) {a : Cx f} {z : ℂ} (h : RIs M a z) : RIs M (dropIm a) z :=
  ⟨h.1, 0, is_zero, by simpa using hM⟩

omit hu ht hB in
theorem RIs.real {M : ℝ} {a : Cx f} {z : ℂ} (h : RIs M a z) : RIs M a ((z.re : ℝ) : ℂ) := by
  refine ⟨?_, h.2⟩
  rw [Complex.ofReal_re]
  exact h.1

omit hu ht hB in
/-- Whatever is done to the imaginary parts. -/
theorem ris_drop {M : ℝ} (hM : 0 ≤ M) {l : List (Cx f)} {v : List ℂ} (h : List.Forall₂ (RIs M) l v) (p q : Prop)
    [Decidable p] [Decidable q] :
    List.Forall₂ (RIs M) (if p then l.map dropIm else l) (if q then v.map (fun x => ((x.re : ℝ) : ℂ)) else v) := by
  split_ifs
  · exact rel_map h fun _ _ k => (k.dropIm hM).real
  · rw [List.forall₂_map_left_iff]; exact h.imp fun _ _ k => k.dropIm hM
  · rw [List.forall₂_map_right_iff]; exact h.imp fun _ _ k => k.real
  · exact h

theorem poly_is {S : CxSorts f} (hS : S.Correct) {z : List (Cx f)} {zv : List ℂ} (hz : List.Forall₂ (CB B) z zv)
    (hT : (1000 * B) ^ zv.length ≤ f.top) :
    RR (List.Forall₂ (RIs ((1000 * B) ^ zv.length))) (poly S z) (Rounded.poly (Arith.ofRounding f.r m) zv) := by
  unfold poly Rounded.poly
  have h0 : List.Forall₂ (CB 1) [(Cx.ofRe 1 : Cx f)] [(1 : ℂ)] :=
    .cons ⟨by simpa using cis_ofRe (f := f) is_one, by simp⟩ .nil
  have hf := polyFold_is m hu ht hB hz le_rfl (by rwa [mul_one]) h0
  rw [mul_one] at hf
  have hM0 : (0 : ℝ) ≤ (1000 * B) ^ zv.length := by positivity
  refine RR.bind hf fun a av ha => ?_
  obtain ⟨l1, e1⟩ := byCplx_ok hS (hz.imp fun _ _ k => k.1)
  obtain ⟨l2, e2⟩ := byCplx_ok hS (rel_map (Q := CIs) hz (g := Cx.conj) (k := starRingEnd ℂ) fun _ _ k => k.conj.1)
  rw [e1, e2]
  simp only [ok_bind]
  have hr : List.Forall₂ (RIs ((1000 * B) ^ zv.length)) a av := ha.imp fun _ _ k => k.ris
  have key := ris_drop hM0 hr ((l1.zip l2).all (fun q => decide (ceq q.1 q.2)) = true)
    (((sortCplx zv).zip (sortCplx (zv.map (starRingEnd ℂ)))).all (fun q => decide (q.1 = q.2)) = true)
  split_ifs at key ⊢ <;> exact RR.ok key

omit hu ht hB in
theorem poly2ba_is {S : CxSorts f} (hS : S.Correct) {B' M : ℝ} (hM : 0 ≤ M) {y : List (Cx f)} {yv : List ℂ}
    (hy : List.Forall₂ (CB B') y yv) {x : List (Cx f)} {xv : List ℂ} (hx : List.Forall₂ (RIs M) x xv) :
    ∃ x', poly2ba S x y = .ok x' ∧ List.Forall₂ (RIs M) x' (Design.poly2ba xv yv) := by
  have key : ∀ (p : Prop) [Decidable p], List.Forall₂ (RIs M) (if p then x.map dropIm else x) (Design.poly2ba xv yv) := by
    intro p _
    obtain ⟨x', hx'⟩ : ∃ x', x' = (if p then x.map dropIm else x) := ⟨_, rfl⟩
    have h1 := ris_drop hM hx p True
    have h2 := ris_drop hM hx p False
    rw [if_pos trivial] at h1
    rw [if_neg not_false] at h2
    rw [← hx'] at h1 h2 ⊢
    unfold Design.poly2ba
    dsimp only
    split
    · split
      · exact h1
      · exact h2
    · exact h2
  have hp := rel_filter hy (p := fun i => decide (0 < i.im)) (q := fun i => decide (0 < i.im))
    fun a b k => decide_eq_decide.mpr (is_lt is_zero k.1.2)
  have hn := rel_map (Q := CIs) (rel_filter hy (p := fun i => decide (i.im < 0)) (q := fun i => decide (i.im < 0))
    fun a b k => decide_eq_decide.mpr (is_lt k.1.2 is_zero)) (g := Cx.conj) (k := starRingEnd ℂ) fun _ _ k => k.conj.1
  obtain ⟨l1, e1⟩ := byCplx_ok hS (hp.imp fun _ _ k => k.1)
  obtain ⟨l2, e2⟩ := byCplx_ok hS hn
  unfold poly2ba
  dsimp only
  rw [e1, e2]
  split
  · simp only [ok_bind]
    have := key ((l1.zip l2).all (fun q => decide (ceq q.1 q.2)) = true)
    split at this <;> rename_i h <;> simp only [h] <;> exact ⟨_, rfl, this⟩
  · exact ⟨_, rfl, by simpa using key False⟩

omit hu ht hB in
theorem fillReal_is {M : ℝ} (hM : 0 ≤ M) (n : ℕ) {x : List (Cx f)} {xv : List ℂ} (hx : List.Forall₂ (RIs M) x xv) :
    List.Forall₂ (fun a b => Is a b ∧ |b| ≤ M) (fillReal n x) (Design.fillReal n xv) := by
  unfold fillReal Design.fillReal
  rw [hx.length_eq]
  refine List.rel_append (rel_map (List.forall₂_take _ hx) fun _ _ k => k.1) ?_
  exact List.forall₂_iff_get.mpr ⟨by simp, fun i h1 h2 => by simpa using ⟨is_zero, hM⟩⟩

/-- `BaIs`, and the numerator is of size at most `M`. -/
def BaB (M : ℝ) (x : BaI f) (y : Ba) : Prop :=
  List.Forall₂ (fun a b => Is a b ∧ |b| ≤ M) x.b y.b ∧ List.Forall₂ Is x.a y.a

/-- `zpk2tf_dyn`. -/
theorem zpk2tf_is {S : CxSorts f} (hS : S.Correct) (n : ℕ) {z p : List (Cx f)} {zv pv : List ℂ} {k : Ieee f} {kv K : ℝ}
    (hz : List.Forall₂ (CB B) z zv) (hp : List.Forall₂ (CB B) p pv) (hk : Is k kv) (hK : |kv| ≤ K) (hK1 : 1 ≤ K)
    (hT : 100 * K * (1000 * B) ^ zv.length ≤ f.top) (hT' : (1000 * B) ^ pv.length ≤ f.top) :
    RR (BaB (6 * (K * (1000 * B) ^ zv.length) + 10)) (zpk2tf S n z p k) (Rounded.zpk2tf (Arith.ofRounding f.r m) n zv pv kv) := by
  unfold zpk2tf Rounded.zpk2tf
  obtain ⟨M, hM⟩ : ∃ M, M = (1000 * B) ^ zv.length := ⟨_, rfl⟩
  have hM1 : 1 ≤ M := by rw [hM]; exact one_le_pow₀ (by linarith)
  have hKM : 1 ≤ K * M := one_le_mul_of_one_le_of_one_le hK1 hM1
  have hMK : M ≤ K * M := le_mul_of_one_le_left (by linarith) hK1
  rw [mul_assoc, ← hM] at hT
  refine RR.bind (poly_is m hu ht hB hS hz (by rw [← hM]; linarith)) fun b bv hb => ?_
  rw [← hM] at hb
  refine RR.bind (poly_is m hu ht hB hS hp hT') fun a av ha => ?_
  have hb' : List.Forall₂ (RIs (6 * (K * M) + 10)) (b.map (fun bi => (Cx.ofRe k).mul bi))
      (bv.map (fun bi => (Arith.ofRounding f.r m).cmul (kv : ℂ) bi)) := by
    refine rel_map hb fun x xv hx => ?_
    obtain ⟨⟨x1, x2⟩, y, y1, y2⟩ := hx
    have z0 : |(0 : ℝ)| ≤ 0 := by simp
    have r0 : f.r.rnd 0 = 0 := f.r.zero
    have p1 : |kv * xv.re| ≤ K * M := by rw [abs_mul]; exact mul_le_mul hK x2 (abs_nonneg _) (by linarith)
    have p2 : |kv * y| ≤ K * M := by rw [abs_mul]; exact mul_le_mul hK y2 (abs_nonneg _) (by linarith)
    have q1 := rnd_size hu ht p1
    have q2 := rnd_size hu ht p2
    have e : ((Arith.ofRounding f.r m).cmul (kv : ℂ) xv).re = f.r.rnd (f.r.rnd (kv * xv.re) - f.r.rnd (0 * y)) := by
      change f.r.rnd (f.r.rnd (_ * xv.re) - f.r.rnd (_ * xv.im)) = _
      rw [Complex.ofReal_re, Complex.ofReal_im, zero_mul, zero_mul]
    have s1 : |f.r.rnd (f.r.rnd (kv * xv.re) - f.r.rnd (0 * y))| ≤ 6 * (K * M) + 10 := by
      rw [zero_mul, r0, sub_zero]
      exact (rnd_size hu ht q1).trans (by linarith)
    have s2 : |f.r.rnd (f.r.rnd (kv * y) + f.r.rnd (0 * xv.re))| ≤ 6 * (K * M) + 10 := by
      rw [zero_mul, r0, add_zero]
      exact (rnd_size hu ht q2).trans (by linarith)
    refine ⟨⟨?_, ?_⟩, _, ?_, s2⟩
    · rw [e]
      exact Is.sub (Is.mul hk x1 (by linarith)) (Is.mul is_zero y1 (by rw [zero_mul, r0, abs_zero]; linarith))
        (s1.trans (by linarith))
    · rw [e]; exact s1
    · exact Is.add (Is.mul hk y1 (by linarith)) (Is.mul is_zero x1 (by rw [zero_mul, r0, abs_zero]; linarith))
        (s2.trans (by linarith))
  obtain ⟨b', e1, h1⟩ := poly2ba_is hS (by linarith) hz hb'
  obtain ⟨a', e2, h2⟩ := poly2ba_is hS (by positivity) hp ha
  rw [e1, e2]
  rw [← hM]
  exact RR.ok ⟨fillReal_is (by linarith) n h1, (fillReal_is (by positivity) n h2).imp fun _ _ k => k.1⟩

end

end SciRs.IeeeDesign

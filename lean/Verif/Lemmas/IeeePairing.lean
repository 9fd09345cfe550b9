import Verif.Lemmas.IeeePoly

/-! # `zpk2sos_dyn` on finite numbers does what it does without overflow -/

namespace SciRs.IeeeDesign

open SciRs.Spec SciRs.Spec.Ieee SciRs.Rounded SciRs.Design Classical

variable {f : Format}

theorem rel_zipIdx {α β : Type} {R : α → β → Prop} {l : List α} {v : List β} (h : List.Forall₂ R l v) (n : ℕ) :
    List.Forall₂ (fun (a : α × ℕ) (b : β × ℕ) => R a.1 b.1 ∧ a.2 = b.2) (l.zipIdx n) (v.zipIdx n) := by
  induction h generalizing n with
  | nil => exact .nil
  | cons hab _ ih =>
    rw [List.zipIdx_cons, List.zipIdx_cons]
    exact .cons ⟨hab, rfl⟩ (ih _)

theorem minBy_eq {l : List (ℕ × Ieee f)} {v : List (ℕ × ℝ)}
    (h : List.Forall₂ (fun (a : ℕ × Ieee f) (b : ℕ × ℝ) => a.1 = b.1 ∧ Is a.2 b.2) l v) : minBy l = Design.minBy v := by
  cases h with
  | nil => rfl
  | @cons a b l v hab h =>
    unfold minBy Design.minBy
    dsimp only
    congr 1
    suffices (fun (a : ℕ × Ieee f) (b : ℕ × ℝ) => a.1 = b.1 ∧ Is a.2 b.2)
        (l.foldl (fun m q => if q.2 < m.2 then q else m) a) (v.foldl (fun m q => if q.2 < m.2 then q else m) b) from this.1
    induction h generalizing a b with
    | nil => exact hab
    | @cons c d _ _ hcd _ ih =>
      rw [List.foldl_cons, List.foldl_cons]
      apply ih
      by_cases hlt : c.2 < a.2
      · rw [if_pos hlt, if_pos ((is_lt hcd.2 hab.2).mp hlt)]; exact hcd
      · rw [if_neg hlt, if_neg (fun h => hlt ((is_lt hcd.2 hab.2).mpr h))]; exact hab

variable {L : Lib f} {m : Libm} {C : ℝ} {S : CxSorts f}

theorem Roomy.idxWorst_eq (h : Roomy L m C) (analog : Bool) {p : List (Cx f)} {pv : List ℂ}
    (hp : List.Forall₂ (CB C) p pv) :
    idxWorst L analog p = Rounded.idxWorst (Arith.ofRounding f.r m) analog pv := by
  have h1 := h.one
  have hsq := h.sq
  have hT := h.top'
  unfold IeeeDesign.idxWorst Rounded.idxWorst
  congr 1
  refine minBy_eq (rel_map (rel_zipIdx hp 0) fun a b hab => ⟨hab.2, ?_⟩)
  cases analog with
  | true => exact is_abs hab.1.1.1
  | false =>
    have e := h.hypot_le b.1
    have e2 : |1 - m.hypot b.1.re b.1.im| ≤ 2 * C + 2 := (abs_sub _ _).trans (by rw [abs_one]; linarith [hab.1.2])
    have e3 := rnd_size h.u h.t e2
    exact is_abs (Is.sub is_one (h.cabs (hab.1.mono (by linarith))) (e3.trans (by linarith)))

theorem isZero_eq {a : Cx f} {z : ℂ} (h : CB C a z) : isZero a.im ↔ z.im = 0 := is_isZero h.1.2

theorem Roomy.nearestIdx_eq (h : Roomy L m C) {l : List (Cx f)} {v : List ℂ} (hl : List.Forall₂ (CB C) l v)
    {a : Cx f} {z : ℂ} (ha : CB C a z) (which : Which) :
    nearestIdx L l a which = Rounded.nearestIdx (Arith.ofRounding f.r m) v z which := by
  have h1 := h.one
  have hsq := h.sq
  have key : ∀ {c : List (Cx f × ℕ)} {cv : List (ℂ × ℕ)},
      List.Forall₂ (fun (a : Cx f × ℕ) (b : ℂ × ℕ) => CB C a.1 b.1 ∧ a.2 = b.2) c cv →
      expect (minBy (c.map (fun q => (q.2, L.cabs (q.1.sub a))))) =
        expect (Design.minBy (cv.map (fun q => (q.2, (Arith.ofRounding f.r m).cabs ((Arith.ofRounding f.r m).csub q.1 z))))) := by
    intro c cv hc
    congr 1
    exact minBy_eq (rel_map hc fun x y hxy => ⟨hxy.2, h.cabs ((h.csub hxy.1 ha).mono (by linarith))⟩)
  have hz := rel_zipIdx hl 0
  unfold IeeeDesign.nearestIdx Rounded.nearestIdx
  cases which with
  | real => exact key (rel_filter hz fun x y k => decide_eq_decide.mpr (isZero_eq k.1))
  | complex => exact key (rel_filter hz fun x y k => by rw [decide_eq_decide.mpr (isZero_eq k.1)])
  | any => exact key hz

theorem rel_getElem? {α β : Type} {R : α → β → Prop} {l : List α} {v : List β} (h : List.Forall₂ R l v) (i : ℕ) :
    (l[i]? = none ∧ v[i]? = none) ∨ ∃ a b, l[i]? = some a ∧ v[i]? = some b ∧ R a b := by
  induction h generalizing i with
  | nil => exact .inl ⟨rfl, rfl⟩
  | cons hab _ ih =>
    cases i with
    | zero => exact .inr ⟨_, _, rfl, rfl, hab⟩
    | succ i => simpa using ih i

theorem rel_eraseIdx {α β : Type} {R : α → β → Prop} {l : List α} {v : List β} (h : List.Forall₂ R l v) (i : ℕ) :
    List.Forall₂ R (l.eraseIdx i) (v.eraseIdx i) := by
  induction h generalizing i with
  | nil => exact .nil
  | cons hab h ih =>
    cases i with
    | zero => exact h
    | succ i => exact .cons hab (ih i)

theorem removeAt_is {l : List (Cx f)} {v : List ℂ} (hl : List.Forall₂ (CB C) l v) (i : ℕ) :
    RR (fun a b => CB C a.1 b.1 ∧ List.Forall₂ (CB C) a.2 b.2) (removeAt l i) (Design.removeAt v i) := by
  unfold removeAt Design.removeAt
  rcases rel_getElem? hl i with ⟨e1, e2⟩ | ⟨a, b, e1, e2, hab⟩
  · rw [e1, e2]; exact RR.err _
  · rw [e1, e2]; exact RR.ok ⟨hab, rel_eraseIdx hl i⟩

theorem realCount_eq {l : List (Cx f)} {v : List ℂ} (hl : List.Forall₂ (CB C) l v) :
    realCount l = Design.realCount v :=
  (rel_filter hl fun _ _ k => decide_eq_decide.mpr (isZero_eq k)).length_eq

/-- `SosIs`, and the numerator is of size at most `M`. -/
def SosB (M : ℝ) (x : Sos (Ieee f)) (y : Sos ℝ) : Prop := SosIs x y ∧ |y.b0| ≤ M ∧ |y.b1| ≤ M ∧ |y.b2| ≤ M

theorem sos_new_is {b0 b1 b2 a0 a1 a2 : Ieee f} {b0' b1' b2' a0' a1' a2' : ℝ} (h0 : Is b0 b0') (h1 : Is b1 b1')
    (h2 : Is b2 b2') (h3 : Is a0 a0') (h4 : Is a1 a1') (h5 : Is a2 a2') :
    SosIs (Sos.new b0 b1 b2 a0 a1 a2) (Sos.new b0' b1' b2' a0' a1' a2') := ⟨h0, h1, h2, h3, h4, h5, is_zero, is_zero⟩

theorem forall₂_three {α β : Type} {R : α → β → Prop} {l : List α} {v : List β} (h : List.Forall₂ R l v) :
    (∃ a b c a' b' c', l = [a, b, c] ∧ v = [a', b', c'] ∧ R a a' ∧ R b b' ∧ R c c') ∨
    ((∀ a b c, l ≠ [a, b, c]) ∧ ∀ a b c, v ≠ [a, b, c]) := by
  rcases h with _ | ⟨h0, _ | ⟨h1, _ | ⟨h2, _ | ⟨h3, h⟩⟩⟩⟩
  · right; simp
  · right; simp
  · right; simp
  · exact .inl ⟨_, _, _, _, _, _, rfl, rfl, h0, h1, h2⟩
  · right; simp

theorem Roomy.single_is (h : Roomy L m C) (hS : S.Correct) (hT : 100 * (1000 * C) ^ 2 ≤ f.top) {z p : List (Cx f)}
    {zv pv : List ℂ} (hz : List.Forall₂ (CB C) z zv) (hp : List.Forall₂ (CB C) p pv) (lz : zv.length ≤ 2)
    (lp : pv.length ≤ 2) :
    RR (SosB (10 * (1000 * C) ^ 2)) (single S z p 1) (Rounded.single (Arith.ofRounding f.r m) zv pv 1) := by
  have h1 := h.one
  have g : ∀ n : ℕ, n ≤ 2 → (1000 * C) ^ n ≤ (1000 * C) ^ 2 := fun n hn => pow_le_pow_right₀ (by linarith) hn
  have g1 := g _ lz
  have g2 := g _ lp
  have g3 : (0 : ℝ) ≤ (1000 * C) ^ 2 := by positivity
  have hN : 6 * (1 * (1000 * C) ^ zv.length) + 10 ≤ 10 * (1000 * C) ^ 2 := by nlinarith
  unfold IeeeDesign.single Rounded.single
  refine RR.bind (zpk2tf_is m h.u h.t h1 hS 2 hz hp is_one (K := 1) (by simp) le_rfl (by linarith) (by linarith))
    fun ba ba' hba => ?_
  obtain ⟨b, a⟩ := ba
  obtain ⟨b', a'⟩ := ba'
  obtain ⟨hb, ha⟩ := hba
  dsimp only at hb ha ⊢
  rcases forall₂_three hb with ⟨_, _, _, _, _, _, rfl, rfl, h0, h1, h2⟩ | ⟨n1, n2⟩
  · rcases forall₂_three ha with ⟨_, _, _, _, _, _, rfl, rfl, h3, h4, h5⟩ | ⟨n1, n2⟩
    · exact RR.ok ⟨sos_new_is h0.1 h1.1 h2.1 h3 h4 h5, h0.2.trans hN, h1.2.trans hN, h2.2.trans hN⟩
    · split
      · exact (n1 _ _ _ rfl).elim
      · split
        · exact (n2 _ _ _ rfl).elim
        · exact RR.err _
  · split
    · exact (n1 _ _ _ rfl).elim
    · split
      · exact (n2 _ _ _ rfl).elim
      · exact RR.err _

/-- The two states of the pairing loop. -/
def PS (C : ℝ) (st : PairStateI f) (sv : PairState) : Prop :=
  List.Forall₂ (CB C) st.z sv.z ∧ List.Forall₂ (CB C) st.p sv.p ∧ List.Forall₂ (SosB (10 * (1000 * C) ^ 2)) st.sos sv.sos

theorem ps_push {st : PairStateI f} {sv : PairState} (h : PS C st sv) {z : List (Cx f)} {zv : List ℂ}
    (hz : List.Forall₂ (CB C) z zv) {x : Sos (Ieee f)} {y : Sos ℝ} (hxy : SosB (10 * (1000 * C) ^ 2) x y) :
    PS C { st with z := z, sos := st.sos ++ [x] } { sv with z := zv, sos := sv.sos ++ [y] } :=
  ⟨hz, h.2.1, List.rel_append h.2.2 (.cons hxy .nil)⟩

variable (h : Roomy L m C) (hS : S.Correct) (hT : 100 * (1000 * C) ^ 2 ≤ f.top)

include h hS hT

theorem stepLastReal_is (pairing : Pairing) {st : PairStateI f} {sv : PairState} (hst : PS C st sv) {p : Cx f} {pv : ℂ}
    (hp : CB C p pv) :
    RR (PS C) (stepLastReal L S pairing st p) (Rounded.stepLastReal (Arith.ofRounding f.r m) pairing sv pv) := by
  have z0 : CB C (Cx.ofRe 0 : Cx f) 0 := CB.zero (by linarith [h.one])
  unfold stepLastReal Rounded.stepLastReal
  refine RR.ite Iff.rfl (fun _ _ => ?_) fun _ _ => RR.ite (not_congr (rel_nil_iff hst.1)) (fun _ _ => ?_) fun _ _ => ?_
  · rw [h.nearestIdx_eq hst.1 hp]
    cases Rounded.nearestIdx (Arith.ofRounding f.r m) sv.z pv .real with
    | error e => exact RR.err e
    | ok i =>
      simp only [ok_bind]
      refine RR.bind (removeAt_is hst.1 i) fun q q' hq => ?_
      refine RR.bind (h.single_is hS hT (.cons hq.1 (.cons z0 .nil)) (.cons hp (.cons z0 .nil)) le_rfl le_rfl)
        fun x y hxy => RR.ok (ps_push hst hq.2 hxy)
  · rw [h.nearestIdx_eq hst.1 hp]
    cases Rounded.nearestIdx (Arith.ofRounding f.r m) sv.z pv .real with
    | error e => exact RR.err e
    | ok i =>
      simp only [ok_bind]
      refine RR.bind (removeAt_is hst.1 i) fun q q' hq => ?_
      refine RR.bind (h.single_is hS hT (.cons hq.1 .nil) (.cons hp .nil) (by simp) (by simp))
        fun x y hxy => RR.ok (ps_push hst hq.2 hxy)
  · refine RR.bind (h.single_is hS hT .nil (.cons hp .nil) (by simp) (by simp)) fun x y hxy => RR.ok (ps_push hst hst.1 hxy)

theorem stepComplex_is {st : PairStateI f} {sv : PairState} (hst : PS C st sv) {p : Cx f} {pv : ℂ} (hp : CB C p pv) :
    RR (PS C) (stepComplex L S st p) (Rounded.stepComplex (Arith.ofRounding f.r m) sv pv) := by
  unfold stepComplex Rounded.stepComplex
  rw [h.nearestIdx_eq hst.1 hp]
  cases Rounded.nearestIdx (Arith.ofRounding f.r m) sv.z pv .complex with
  | error e => exact RR.err e
  | ok i =>
    simp only [ok_bind]
    refine RR.bind (removeAt_is hst.1 i) fun q q' hq => ?_
    refine RR.bind (h.single_is hS hT (.cons hq.1 (.cons hq.1.conj .nil)) (.cons hp (.cons hp.conj .nil)) le_rfl le_rfl)
      fun x y hxy => RR.ok (ps_push hst hq.2 hxy)

omit hS hT in
theorem secondPole_is (analog : Bool) {p : List (Cx f)} {pv : List ℂ} (hp : List.Forall₂ (CB C) p pv) {a : Cx f}
    {z : ℂ} (ha : CB C a z) :
    RR (fun x y => CB C x.1 y.1 ∧ List.Forall₂ (CB C) x.2 y.2) (secondPole L analog p a)
      (Rounded.secondPole (Arith.ofRounding f.r m) analog pv z) := by
  unfold secondPole Rounded.secondPole
  refine RR.ite (isZero_eq ha) (fun _ _ => ?_) fun _ _ => RR.ok ⟨ha.conj, hp⟩
  have hr := rel_filter (rel_zipIdx hp 0) (p := fun q => decide (isZero q.1.im)) (q := fun q => decide (q.1.im = 0))
    fun _ _ k => decide_eq_decide.mpr (isZero_eq k.1)
  dsimp only
  rw [h.idxWorst_eq analog (rel_map hr (g := fun q => q.1) (k := fun q => q.1) fun _ _ k => k.1)]
  cases Rounded.idxWorst (Arith.ofRounding f.r m) analog
    ((pv.zipIdx.filter (fun q => decide (q.1.im = 0))).map (fun q => q.1)) with
  | error e => exact RR.err e
  | ok j =>
    simp only [ok_bind]
    refine RR.bind (RR.idx hr j) fun x y hxy => ?_
    rw [hxy.2]
    exact removeAt_is hp _

theorem stepZeros_is {st : PairStateI f} {sv : PairState} (hst : PS C st sv) {p p' : Cx f} {pv pv' : ℂ}
    (hp : CB C p pv) (hp' : CB C p' pv') :
    RR (PS C) (stepZeros L S st p p') (Rounded.stepZeros (Arith.ofRounding f.r m) sv pv pv') := by
  unfold stepZeros Rounded.stepZeros
  refine RR.ite (not_congr (rel_nil_iff hst.1)) (fun _ _ => ?_) fun _ _ => ?_
  · rw [h.nearestIdx_eq hst.1 hp]
    cases Rounded.nearestIdx (Arith.ofRounding f.r m) sv.z pv .any with
    | error e => exact RR.err e
    | ok i =>
      simp only [ok_bind]
      refine RR.bind (removeAt_is hst.1 i) fun q q' hq => ?_
      refine RR.ite (not_congr (isZero_eq hq.1)) (fun _ _ => ?_) fun _ _ =>
        RR.ite (not_congr (rel_nil_iff hq.2)) (fun _ _ => ?_) fun _ _ => ?_
      · refine RR.bind (h.single_is hS hT (.cons hq.1 (.cons hq.1.conj .nil)) (.cons hp (.cons hp' .nil)) le_rfl le_rfl)
          fun x y hxy => RR.ok (ps_push hst hq.2 hxy)
      · rw [h.nearestIdx_eq hq.2 hp]
        cases Rounded.nearestIdx (Arith.ofRounding f.r m) q'.2 pv .real with
        | error e => exact RR.err e
        | ok j =>
          simp only [ok_bind]
          refine RR.bind (removeAt_is hq.2 j) fun t t' ht => ?_
          refine RR.bind (RR.check (isZero_eq ht.1)) fun _ _ _ => ?_
          refine RR.bind (h.single_is hS hT (.cons hq.1 (.cons ht.1 .nil)) (.cons hp (.cons hp' .nil)) le_rfl le_rfl)
            fun x y hxy => RR.ok (ps_push hst ht.2 hxy)
      · refine RR.bind (h.single_is hS hT (.cons hq.1 .nil) (.cons hp (.cons hp' .nil)) (by simp) le_rfl)
          fun x y hxy => RR.ok (ps_push hst hq.2 hxy)
  · refine RR.bind (h.single_is hS hT .nil (.cons hp (.cons hp' .nil)) (by simp) le_rfl)
      fun x y hxy => RR.ok (ps_push hst hst.1 hxy)

theorem pairStep_is (pairing : Pairing) (analog : Bool) {st : PairStateI f} {sv : PairState} (hst : PS C st sv) :
    RR (PS C) (pairStep L S pairing analog st) (Rounded.pairStep (Arith.ofRounding f.r m) pairing analog sv) := by
  unfold pairStep Rounded.pairStep
  rw [h.idxWorst_eq analog hst.2.1]
  cases Rounded.idxWorst (Arith.ofRounding f.r m) analog sv.p with
  | error e => exact RR.err e
  | ok i =>
    simp only [ok_bind]
    refine RR.bind (removeAt_is hst.2.1 i) fun q q' hq => ?_
    have hst' : PS C { st with p := q.2 } { sv with p := q'.2 } := ⟨hst.1, hq.2, hst.2.2⟩
    refine RR.ite ?_ (fun _ _ => stepLastReal_is h hS hT pairing hst' hq.1) fun _ _ =>
      RR.ite ?_ (fun _ _ => stepComplex_is h hS hT hst' hq.1) fun _ _ => ?_
    · rw [isZero_eq hq.1, realCount_eq hq.2]
    · rw [isZero_eq hq.1, realCount_eq hq.2, realCount_eq hst.1, hq.2.length_eq, hst.1.length_eq]
    · refine RR.bind (secondPole_is h analog hq.2 hq.1) fun t t' ht => ?_
      have hst2 : PS C { st with p := t.2 } { sv with p := t'.2 } := ⟨hst.1, ht.2, hst.2.2⟩
      exact stepZeros_is h hS hT hst2 hq.1 ht.1

omit h hT in
/-- Both answers of `zpk2sos_dyn` before the gain is put in. -/
theorem pairAll_is {B : ℝ} (h0 : Roomy L m B) (h : Roomy L m (12 * B)) (hT : 100 * (1000 * (12 * B)) ^ 2 ≤ f.top)
    {s : Sorts} (hs : Sorted S s) (pairing : Pairing) (analog : Bool) {z p : List (Cx f)} {zv pv : List ℂ}
    (hz : List.Forall₂ (CB B) z zv) (hp : List.Forall₂ (CB B) p pv) (n : ℕ) :
    RR (List.Forall₂ (SosB (10 * (1000 * (12 * B)) ^ 2))) (pairAll L S pairing analog z p n) (do
      let cz ← Rounded.cplxreal (Arith.ofRounding f.r m) s zv none
      let cp ← Rounded.cplxreal (Arith.ofRounding f.r m) s pv none
      let st ← (List.range n).foldlM (fun st _ => Rounded.pairStep (Arith.ofRounding f.r m) pairing analog st)
        { z := cz.1 ++ cz.2, p := cp.1 ++ cp.2, sos := [] }
      SciRs.check (st.p.length = st.z.length)
      SciRs.check (st.p = [])
      return st.sos.reverse) := by
  unfold pairAll
  refine RR.bind (h0.split hs hz) fun cz cz' hcz => RR.bind (h0.split hs hp) fun cp cp' hcp => ?_
  refine RR.bind (RR.foldlM (R := PS (12 * B)) _ (fun a b c _ hab => pairStep_is h hS hT pairing analog hab)
    ⟨List.rel_append hcz.1 hcz.2, List.rel_append hcp.1 hcp.2, .nil⟩) fun st sv hst => ?_
  refine RR.bind (RR.check (by rw [hst.1.length_eq, hst.2.1.length_eq])) fun _ _ _ => ?_
  refine RR.bind (RR.check (rel_nil_iff hst.2.1)) fun _ _ _ => ?_
  exact RR.ok (List.rel_reverse hst.2.2)

/-- A section with the gain in its numerator. -/
def gained (A : Arith) (k : ℝ) (x : Sos ℝ) : Sos ℝ := { x with b0 := A.mul x.b0 k, b1 := A.mul x.b1 k, b2 := A.mul x.b2 k }

/-- The same for the first of a list of sections. -/
def gainFirst (A : Arith) (k : ℝ) : List (Sos ℝ) → Res (List (Sos ℝ))
  | [] => .error Err.index
  | s0 :: rest => .ok (gained A k s0 :: rest)

omit h hS hT in
theorem putGain_is {M : ℝ} (hu : f.r.u ≤ 1) (ht : f.r.t ≤ 1) {l : List (Sos (Ieee f))} {v : List (Sos ℝ)}
    (hl : List.Forall₂ (SosB M) l v) {k : Ieee f} {kv K : ℝ} (hk : Is k kv) (hK : |kv| ≤ K) (hT : 2 * (M * K) + 1 ≤ f.top) :
    RR (List.Forall₂ SosIs) (putGain k l) (gainFirst (Arith.ofRounding f.r m) kv v) := by
  cases hl with
  | nil => exact RR.err _
  | @cons x y l v hxy hl =>
    have g : ∀ {a : Ieee f} {t : ℝ}, Is a t → |t| ≤ M → Is (a * k) ((Arith.ofRounding f.r m).mul t kv) := by
      intro a t ha hB
      refine Is.mul ha hk ((rnd_size hu ht (B := M * K) ?_).trans hT)
      rw [abs_mul]
      exact mul_le_mul hB hK (abs_nonneg _) ((abs_nonneg _).trans hB)
    obtain ⟨hi, b0, b1, b2⟩ := hxy
    exact RR.ok (.cons ⟨g hi.b0 b0, g hi.b1 b1, g hi.b2 b2, hi.a0, hi.a1, hi.a2, hi.zi0, hi.zi1⟩
      (hl.imp fun _ _ k => k.1))

omit h hT in
theorem pairUp_is {B : ℝ} (h0 : Roomy L m B) (h : Roomy L m (12 * B)) {k : Ieee f} {kv K : ℝ} (hk : Is k kv)
    (hK : |kv| ≤ K) (hK1 : 1 ≤ K) (hT : 100 * (1000 * (12 * B)) ^ 2 * K ≤ f.top)
    {s : Sorts} (hs : Sorted S s) (pairing : Pairing) (analog : Bool) {z p : List (Cx f)} {zv pv : List ℂ}
    (hz : List.Forall₂ (CB B) z zv) (hp : List.Forall₂ (CB B) p pv) (n : ℕ) :
    RR (List.Forall₂ SosIs) (pairUp L S pairing analog z p k n)
      (Rounded.pairUp (Arith.ofRounding f.r m) s pairing analog zv pv kv n) := by
  obtain ⟨N, hN⟩ : ∃ N, N = (1000 * (12 * B)) ^ 2 := ⟨_, rfl⟩
  have h1 := h0.one
  have hN1 : 1 ≤ N := by rw [hN]; exact one_le_pow₀ (by linarith)
  have hNK : N ≤ N * K := le_mul_of_one_le_right (by linarith) hK1
  have hpa := pairAll_is hS h0 h (by rw [← hN] at hT ⊢; linarith) hs pairing analog hz hp n
  rw [← hN] at hpa
  have e : Rounded.pairUp (Arith.ofRounding f.r m) s pairing analog zv pv kv n = ((do
      let cz ← Rounded.cplxreal (Arith.ofRounding f.r m) s zv none
      let cp ← Rounded.cplxreal (Arith.ofRounding f.r m) s pv none
      let st ← (List.range n).foldlM (fun st _ => Rounded.pairStep (Arith.ofRounding f.r m) pairing analog st)
        { z := cz.1 ++ cz.2, p := cp.1 ++ cp.2, sos := [] }
      SciRs.check (st.p.length = st.z.length)
      SciRs.check (st.p = [])
      return st.sos.reverse) >>= gainFirst (Arith.ofRounding f.r m) kv) := by
    unfold Rounded.pairUp
    simp only [bind_assoc, pure_bind]
    rfl
  rw [e]
  unfold pairUp
  refine RR.bind hpa fun l v hl => putGain_is (m := m) h0.u h0.t hl hk hK ?_
  rw [← hN] at hT
  nlinarith

omit h hT in
/-- `zpk2sos_dyn`. -/
theorem zpk2sos_is {B : ℝ} (h0 : Roomy L m B) (h : Roomy L m (12 * B)) {q : ZpkI f} {g : Zpk}
    (hz : List.Forall₂ (CB B) q.z g.z) (hp : List.Forall₂ (CB B) q.p g.p) {K : ℝ} (hk : Is q.k g.k)
    (hK : |g.k| ≤ K) (hK1 : 1 ≤ K) (hT : 100 * (1000 * (12 * B)) ^ 2 * K ≤ f.top)
    {s : Sorts} (hs : Sorted S s) (order : ℕ) (pairing : Option Pairing) (analog : Option Bool) :
    RR (List.Forall₂ SosIs) (zpk2sos L S order q pairing analog)
      (Rounded.zpk2sos (Arith.ofRounding f.r m) s order g pairing analog) := by
  have z0 : CB B (Cx.ofRe 0 : Cx f) 0 := CB.zero (by linarith [h0.one])
  have rep : ∀ n, List.Forall₂ (CB B) (List.replicate n (Cx.ofRe 0 : Cx f)) (List.replicate n (0 : ℂ)) := fun n =>
    List.forall₂_iff_get.mpr ⟨by simp, fun i h1 h2 => by simpa using z0⟩
  unfold zpk2sos Rounded.zpk2sos
  dsimp only
  generalize pairing.getD (if analog.getD false = true then Pairing.minimal else Pairing.nearest) = pr
  refine RR.ite Iff.rfl (fun _ _ => RR.err _) fun _ _ => ?_
  refine RR.ite (by rw [rel_nil_iff hz, rel_nil_iff hp]) (fun _ _ => ?_) fun _ _ => ?_
  · refine RR.ite Iff.rfl (fun _ _ => ?_) fun _ _ => ?_
    · exact RR.ok (.cons (sos_new_is hk is_zero is_zero is_one is_zero is_zero) .nil)
    · exact RR.ok (.cons (sos_new_is is_zero is_zero hk is_zero is_zero is_one) .nil)
  · refine RR.ite Iff.rfl (fun _ _ => ?_) fun _ _ => ?_
    · rw [hz.length_eq, hp.length_eq]
      have hp' : List.Forall₂ (CB B) (q.p ++ List.replicate (g.z.length - g.p.length) (Cx.ofRe 0))
        (g.p ++ List.replicate (g.z.length - g.p.length) 0) := List.rel_append hp (rep _)
      generalize q.p ++ List.replicate (g.z.length - g.p.length) (Cx.ofRe 0) = p' at hp' ⊢
      generalize g.p ++ List.replicate (g.z.length - g.p.length) (0 : ℂ) = pv' at hp' ⊢
      rw [hp'.length_eq]
      have hz' : List.Forall₂ (CB B) (q.z ++ List.replicate (pv'.length - g.z.length) (Cx.ofRe 0))
        (g.z ++ List.replicate (pv'.length - g.z.length) 0) := List.rel_append hz (rep _)
      generalize q.z ++ List.replicate (pv'.length - g.z.length) (Cx.ofRe 0) = z' at hz' ⊢
      generalize g.z ++ List.replicate (pv'.length - g.z.length) (0 : ℂ) = zv' at hz' ⊢
      rw [hz'.length_eq]
      by_cases hc : pv'.length % 2 = 1 ∧ pr = .nearest
      · simp only [if_pos hc]
        have hz2 : List.Forall₂ (CB B) (z' ++ [Cx.ofRe 0]) (zv' ++ [0]) := List.rel_append hz' (.cons z0 .nil)
        have hp2 : List.Forall₂ (CB B) (p' ++ [Cx.ofRe 0]) (pv' ++ [0]) := List.rel_append hp' (.cons z0 .nil)
        refine RR.bind (RR.check (by rw [hz2.length_eq, hp2.length_eq])) fun _ _ _ => ?_
        exact pairUp_is hS h0 h hk hK hK1 hT hs _ _ hz2 hp2 _
      · simp only [if_neg hc]
        refine RR.bind (RR.check (by rw [hz'.length_eq, hp'.length_eq])) fun _ _ _ => ?_
        exact pairUp_is hS h0 h hk hK hK1 hT hs _ _ hz' hp' _
    · refine RR.ite (by rw [hz.length_eq, hp.length_eq]) (fun _ _ => RR.err _) fun _ _ => ?_
      rw [hp.length_eq]
      exact pairUp_is hS h0 h hk hK hK1 hT hs _ _ hz hp _

end SciRs.IeeeDesign

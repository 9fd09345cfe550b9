import Verif.Spec.RoundedDesign
import Verif.Lemmas.Rounded.Conj
import Verif.Lemmas.Rounded.Zpk2sos
import Verif.Model.Rounded.Iirfilter
import Verif.Props.Design.Iirfilter

/-! # Lemmas about `iirfilter_dyn` in any arithmetic -/

namespace SciRs.Rounded

open Complex SciRs.Design SciRs.Spec

variable {A : Arith}

/-- Everything in `iirfilter_dyn` before the conversion. -/
noncomputable def design (A : Arith) (order : ℕ) (wn : List ℝ) (rp rs : Option ℝ) (btype : Band) (ftype : FType)
    (analog : Bool) (fs : Option ℝ) : Res Zpk := do
  let wn ← validate A wn rp rs analog fs
  let f ← prototype A order ftype rp rs
  let warped ← warp A wn analog
  let f ← bandTransform A btype f warped
  discretise A analog f

theorem iirfilter_eq (s : Sorts) (order : ℕ) (wn : List ℝ) (rp rs : Option ℝ)
    (btype : Option Band) (ftype : Option FType) (analog : Option Bool) (output : Option Output)
    (fs : Option ℝ) :
    iirfilter A s order wn rp rs btype ftype analog output fs =
      design A order wn rp rs (btype.getD .bandpass) (ftype.getD .butterworth) (analog.getD false) fs >>=
        convert A s order (analog.getD false) (output.getD .ba) := by
  unfold iirfilter design
  simp only [bind_assoc]

theorem edges_length (wn : List ℝ) (fs : Option ℝ) : (edges A wn fs).length = wn.length := by
  unfold edges; split <;> simp

theorem validate_eq_ok {wn : List ℝ} {rp rs : Option ℝ} {analog : Bool} {fs : Option ℝ} {w : List ℝ} :
    validate A wn rp rs analog fs = .ok w ↔
      w = edges A wn fs ∧ wn.length ≤ 2 ∧ (fs.isSome → analog = false) ∧ (∀ w ∈ edges A wn fs, 0 < w) ∧
      (edges A wn fs).Pairwise (· < ·) ∧ (∀ r, rp = some r → 0 ≤ r) ∧ (∀ r, rs = some r → 0 ≤ r) := by
  unfold validate
  have hpw : ∀ l : List ℝ, l.length ≤ 2 →
      (¬ (l.length > 1 ∧ l.getD 0 0 ≥ l.getD 1 0) ↔ l.Pairwise (· < ·)) := by
    intro l hl
    match l, hl with
    | [], _ => simp
    | [a], _ => simp
    | [a, b], _ => simp
  have hlen : (edges A wn fs).length = wn.length := edges_length _ _
  have hfs : ∀ w1, scaleEdges A wn analog fs = .ok w1 ↔
      w1 = edges A wn fs ∧ (fs.isSome → analog = false) := by
    intro w1
    unfold scaleEdges
    cases fs with
    | none => simp [edges, eq_comm]
    | some fs =>
      cases analog <;> simp [edges, eq_comm]
  simp only [bind_eq_ok, check_eq_ok, hfs]
  constructor
  · rintro ⟨-, h1, w1, ⟨rfl, h2⟩, -, h3, -, h4, -, h5, -, h6, h7⟩
    have hw : w = edges A wn fs := by cases h7; rfl
    refine ⟨hw, by omega, h2, fun x hx => ?_, (hpw _ (by rw [hlen]; omega)).mp h4, fun r hr => ?_,
      fun r hr => ?_⟩
    · by_contra h; exact h3 ⟨x, hx, not_lt.mp h⟩
    · by_contra h; exact h5 ⟨r, hr, not_le.mp h⟩
    · by_contra h; exact h6 ⟨r, hr, not_le.mp h⟩
  · rintro ⟨rfl, h1, h2, h3, h4, h5, h6⟩
    refine ⟨(), by omega, _, ⟨rfl, h2⟩, (), ?_, (), (hpw _ (by rw [hlen]; omega)).mpr h4, (), ?_, (), ?_, rfl⟩
    · rintro ⟨x, hx, h⟩; exact absurd (h3 x hx) (not_lt.mpr h)
    · rintro ⟨r, hr, h⟩; exact absurd (h5 r hr) (not_le.mpr h)
    · rintro ⟨r, hr, h⟩; exact absurd (h6 r hr) (not_le.mpr h)

theorem prototype_ok {order : ℕ} {ftype : FType} {rp rs : Option ℝ} :
    (∃ f, prototype A order ftype rp rs = .ok f) ↔
      (ftype = .butterworth ∨ (ftype = .chebyshevI ∧ rp.isSome) ∨
        (ftype = .chebyshevII ∧ rp.isSome ∧ rs.isSome)) := by
  cases ftype <;> cases rp <;> cases rs <;> simp [prototype]

theorem cheb1ap_z (n : ℕ) (rp : ℝ) : (cheb1ap A n rp).z = [] := by
  unfold cheb1ap; split <;> rfl

theorem cheb1ap_length (n : ℕ) (rp : ℝ) : (cheb1ap A n rp).p.length = n := by
  unfold cheb1ap
  split
  · rename_i h; simp [h]
  · simp [cheb1Poles, stepRange_sym_length]

theorem buttap_length (n : ℕ) : (buttap A n).p.length = n := by
  simp [buttap, stepRange_sym_length]

theorem cheb2ap_lengths (n : ℕ) (rs : ℝ) :
    (cheb2ap A n rs).z.length ≤ n ∧ (cheb2ap A n rs).p.length = n := by
  unfold cheb2ap
  split
  · rename_i h; simp [h]
  · refine ⟨?_, by simp [cheb2Poles, stepRange_sym_length]⟩
    simp only [cheb2Zeros, List.length_map]
    have h := (Props.cheb2Ms_perm n).length_eq
    rw [stepRange_sym_length] at h
    split at h
    · rw [List.length_cons] at h; omega
    · omega

theorem prototype_lengths {order : ℕ} {ftype : FType} {rp rs : Option ℝ} {f : Zpk}
    (h : prototype A order ftype rp rs = .ok f) : f.z.length ≤ f.p.length ∧ f.p.length = order := by
  cases ftype <;> cases rp <;> cases rs <;> simp [prototype] at h <;> subst h
  all_goals first
    | exact ⟨Nat.zero_le _, buttap_length _⟩
    | (rw [cheb1ap_z]; exact ⟨Nat.zero_le _, cheb1ap_length _ _⟩)
    | (have h := cheb2ap_lengths (A := A) order (by assumption); exact ⟨h.1.trans h.2.ge, h.2⟩)

theorem warp_ok {wn : List ℝ} {analog : Bool} {w : List ℝ} (h : warp A wn analog = .ok w) :
    w.length = wn.length ∧ (analog = false → ∀ x ∈ wn, 0 < x ∧ x < 1) := by
  unfold warp at h
  split at h
  · rw [bind_eq_ok] at h
    obtain ⟨u, h1, h2⟩ := h
    rw [check_eq_ok] at h1
    cases h2
    refine ⟨by simp, fun _ x hx => ⟨?_, ?_⟩⟩
    · by_contra h; exact h1 ⟨x, hx, Or.inl (not_lt.mp h)⟩
    · by_contra h; exact h1 ⟨x, hx, Or.inr (not_lt.mp h)⟩
  · rename_i h0
    cases h
    exact ⟨rfl, fun h => absurd h h0⟩

theorem warp_digital {wn : List ℝ} (h : ∀ x ∈ wn, 0 < x ∧ x < 1) :
    ∃ v, warp A wn false = .ok v ∧ v.length = wn.length := by
  unfold warp
  rw [if_pos rfl, check_true]
  · exact ⟨_, rfl, by simp⟩
  · rintro ⟨x, hx, h1 | h1⟩
    · linarith [(h x hx).1]
    · linarith [(h x hx).2]

theorem bandTransform_count {btype : Band} {f g : Zpk} {w : List ℝ} (h : bandTransform A btype f w = .ok g) :
    w.length = if btype = .lowpass ∨ btype = .highpass then 1 else 2 := by
  unfold bandTransform at h
  split at h <;> simp_all

theorem bandTransform_ok {btype : Band} {f : Zpk} (hf : f.z.length ≤ f.p.length) {w : List ℝ}
    (h : w.length = if btype = .lowpass ∨ btype = .highpass then 1 else 2) :
    ∃ g, bandTransform A btype f w = .ok g ∧ g.z.length ≤ g.p.length ∧ g.p.length = poleCount f.p.length btype := by
  have hr := relativeDegree_ok hf
  unfold bandTransform
  match btype, w, h with
  | .lowpass, [a], _ =>
    simp only [lp2lp, hr, ok_bind]
    exact ⟨_, rfl, by simpa using hf, by simp [poleCount]⟩
  | .highpass, [a], _ =>
    simp only [lp2hp, hr, ok_bind]
    refine ⟨_, rfl, ?_, by simp [poleCount]⟩
    simp; omega
  | .bandpass, [a, b], _ =>
    simp only [lp2bp, hr, ok_bind]
    refine ⟨_, rfl, ?_, ?_⟩
    · simp [splitPm_length]; omega
    · simp [splitPm_length, poleCount]
  | .bandstop, [a, b], _ =>
    simp only [lp2bs, hr, ok_bind]
    refine ⟨_, rfl, ?_, ?_⟩
    · simp [splitPm_length, bsZeros]; omega
    · simp [splitPm_length, poleCount]

theorem design_returns_iff {order : ℕ} {wn : List ℝ} {rp rs : Option ℝ} {btype : Band} {ftype : FType}
    {analog : Bool} {fs : Option ℝ} :
    Returns (design A order wn rp rs btype ftype analog fs) ↔ Valid A wn rp rs btype ftype analog fs := by
  unfold Returns design
  constructor
  · rintro ⟨g, h⟩
    simp only [bind_eq_ok] at h
    obtain ⟨w, hw, f, hf, v, hv, g1, hg1, -⟩ := h
    obtain ⟨rfl, h1, h2, h3, h4, h5, h6⟩ := validate_eq_ok.mp hw
    obtain ⟨h7, h8⟩ := warp_ok hv
    have h9 := bandTransform_count hg1
    rw [h7] at h9
    exact ⟨⟨h9, h3, h4, fun ha x hx => (h8 ha x hx).2, by simp, h5, h6, prototype_ok.mp ⟨f, hf⟩⟩, h2⟩
  · rintro ⟨h, hfs⟩
    have hle : wn.length ≤ 2 := by
      rw [← edges_length (A := A) wn fs, h.count]; split <;> omega
    have hv : validate A wn rp rs analog fs = .ok (edges A wn fs) := validate_eq_ok.mpr
      ⟨rfl, hle, hfs, h.positive, h.increasing, h.ripple, h.attenuation⟩
    obtain ⟨f, hf⟩ := (prototype_ok (A := A) (order := order)).mpr h.family
    have hw : ∃ v, warp A (edges A wn fs) analog = .ok v ∧ v.length = (edges A wn fs).length := by
      cases analog with
      | true => exact ⟨_, rfl, rfl⟩
      | false => exact warp_digital (fun x hx => ⟨h.positive x hx, h.nyquist rfl x hx⟩)
    obtain ⟨v, hv1, hv2⟩ := hw
    obtain ⟨g, hg, hgl, -⟩ := bandTransform_ok (A := A) (btype := btype) (prototype_lengths hf).1 (w := v)
      (by rw [hv2, h.count])
    rw [hv, ok_bind, hf, ok_bind, hv1, ok_bind, hg, ok_bind]
    unfold discretise
    split
    · simp [bilinear, relativeDegree_ok hgl, bind, Except.bind, pure, Except.pure]
    · exact ⟨g, rfl⟩

theorem noUb_bilinear (f : Zpk) (fs : ℝ) : NoUb (bilinear A f fs) :=
  (noUb_relativeDegree _ _).bind (fun _ _ => noUb_ok _)

theorem noUb_design (order : ℕ) (wn : List ℝ) (rp rs : Option ℝ) (btype : Band) (ftype : FType)
    (analog : Bool) (fs : Option ℝ) : NoUb (design A order wn rp rs btype ftype analog fs) := by
  have hc : ∀ (c : Prop) (i : Decidable c), NoUb (@check c i Err.panic) := fun c i => noUb_check (by simp)
  refine NoUb.bind ?_ (fun w _ => NoUb.bind ?_ (fun f _ => NoUb.bind ?_ (fun v _ => NoUb.bind ?_ (fun g _ => ?_))))
  · refine NoUb.bind (hc _ _) (fun _ _ => NoUb.bind ?_ (fun _ _ => NoUb.bind (hc _ _) (fun _ _ =>
      NoUb.bind (hc _ _) (fun _ _ => NoUb.bind (hc _ _) (fun _ _ => NoUb.bind (hc _ _) (fun _ _ => noUb_ok _))))))
    cases fs <;> cases analog <;> simp [scaleEdges, NoUb]
  · cases ftype <;> cases rp <;> cases rs <;> simp [prototype, NoUb]
  · unfold warp
    split
    · exact NoUb.bind (hc _ _) (fun _ _ => noUb_ok _)
    · exact noUb_ok _
  · unfold bandTransform
    split
    · exact (noUb_relativeDegree _ _).bind (fun _ _ => noUb_ok _)
    · exact (noUb_relativeDegree _ _).bind (fun _ _ => noUb_ok _)
    · exact (noUb_relativeDegree _ _).bind (fun _ _ => noUb_ok _)
    · exact (noUb_relativeDegree _ _).bind (fun _ _ => noUb_ok _)
    · simp [NoUb]
  · unfold discretise
    split
    · exact noUb_bilinear _ _
    · exact noUb_ok _

theorem noUb_zpk2tf (order : ℕ) (z p : List ℂ) (k : ℝ) : NoUb (zpk2tf A order z p k) :=
  (noUb_poly _).bind fun _ _ => (noUb_poly _).bind fun _ _ => noUb_pure _

theorem noUb_convert (s : Sorts) (order : ℕ) (analog : Bool) (output : Output) (f : Zpk) :
    NoUb (convert A s order analog output f) := by
  unfold convert
  split
  · exact noUb_ok _
  · exact (noUb_zpk2tf _ _ _ _).bind fun _ _ => noUb_pure _
  · exact (noUb_zpk2sos _ _ _ _ _).bind fun _ _ => noUb_pure _

theorem noUb_iirfilter (s : Sorts) (order : ℕ) (wn : List ℝ) (rp rs : Option ℝ)
    (btype : Option Band) (ftype : Option FType) (analog : Option Bool) (output : Option Output)
    (fs : Option ℝ) : NoUb (iirfilter A s order wn rp rs btype ftype analog output fs) := by
  rw [iirfilter_eq]
  exact (noUb_design _ _ _ _ _ _ _ _).bind fun _ _ => noUb_convert _ _ _ _ _

/-! ### The polynomials are always computed -/

theorem polyEntry_returns (a : List ℂ) (zi : ℂ) (i : ℕ) (ha : a ≠ []) (hi : i ≤ a.length) :
    ∃ x, polyEntry A a [1, -zi] i = .ok x := by
  have hL : 0 < a.length := List.length_pos_iff.mpr ha
  have hk : ∀ j, j < 2 → ∃ y, idx [1, -zi] j = .ok y := fun j hj => ⟨_, idx_ok (by simpa using hj) 0⟩
  unfold polyEntry
  dsimp only
  rw [if_neg (show ¬ i > a.length by omega)]
  split
  · obtain ⟨y, hy⟩ := hk (i - 0) (by omega)
    rw [idx_ok hL 0, ok_bind, hy, ok_bind]
    exact ⟨_, rfl⟩
  · have : ∀ (l : List ℕ) (acc : ℂ), (∀ u ∈ l, u < a.length) → ∃ x, l.foldlM (fun acc u =>
        if i - u < 2 then do
          let x ← idx a u
          let y ← idx [1, -zi] (i - u)
          return A.cadd acc (A.cmul x y)
        else return acc) acc = (.ok x : Res ℂ) := by
      intro l
      induction l with
      | nil => intro acc _; exact ⟨acc, rfl⟩
      | cons u l ih =>
        intro acc hl
        have hu := hl u (by simp)
        have hl' : ∀ v ∈ l, v < a.length := fun v hv => hl v (by simp [hv])
        rw [List.foldlM_cons]
        split
        · rename_i h2
          obtain ⟨y, hy⟩ := hk (i - u) h2
          rw [idx_ok hu 0]
          simp only [ok_bind, hy]
          exact ih _ hl'
        · exact ih _ hl'
    exact this _ 0 (fun u hu => by
      have := List.mem_range'_1.mp hu
      omega)

theorem mapM_returns {α β : Type} {f : α → Res β} (l : List α) (h : ∀ x ∈ l, ∃ y, f x = .ok y) :
    ∃ ys, l.mapM f = .ok ys ∧ ys.length = l.length := by
  induction l with
  | nil => exact ⟨[], rfl, rfl⟩
  | cons a l ih =>
    obtain ⟨y, hy⟩ := h a (by simp)
    obtain ⟨ys, hys, hl⟩ := ih (fun x hx => h x (by simp [hx]))
    exact ⟨y :: ys, by rw [List.mapM_cons, hy, ok_bind, hys]; rfl, by simp [hl]⟩

theorem polyFold_returns (z : List ℂ) (a : List ℂ) (ha : a ≠ []) :
    ∃ c, z.foldlM (polyStep A) a = .ok c ∧ c.length = a.length + z.length := by
  induction z generalizing a with
  | nil => exact ⟨a, rfl, rfl⟩
  | cons r z ih =>
    obtain ⟨b, hb, hl⟩ := mapM_returns (f := polyEntry A a [1, -r]) (List.range (a.length + 2 - 1)) (fun i hi =>
      polyEntry_returns a r i ha (by have := List.mem_range.mp hi; omega))
    rw [List.length_range] at hl
    obtain ⟨c, hc, hcl⟩ := ih b (by intro h; rw [h] at hl; simp at hl)
    refine ⟨c, ?_, ?_⟩
    · have hb' : polyStep A a r = .ok b := hb
      rw [List.foldlM_cons, hb', ok_bind, hc]
    · rw [hcl, hl, List.length_cons]; omega

theorem poly_returns (z : List ℂ) : ∃ c, poly A z = .ok c ∧ c.length = z.length + 1 := by
  obtain ⟨c, hc, hl⟩ := polyFold_returns (A := A) z [1] (by simp)
  unfold poly
  rw [hc, ok_bind]
  dsimp only
  split
  · exact ⟨_, rfl, by simp [hl]; omega⟩
  · exact ⟨c, rfl, by simp [hl]; omega⟩

theorem zpk2tf_returns (order : ℕ) (z p : List ℂ) (k : ℝ) :
    ∃ t, zpk2tf A order z p k = .ok t ∧ t.b.length = order + 1 ∧ t.a.length = order + 1 := by
  obtain ⟨b, hb, -⟩ := poly_returns (A := A) z
  obtain ⟨a, ha, -⟩ := poly_returns (A := A) p
  unfold zpk2tf
  rw [hb, ok_bind, ha]
  refine ⟨_, rfl, ?_, ?_⟩ <;> simp [fillReal] <;> omega

/-! ### Conjugate pairs through the whole design -/

theorem prototype_good (hA : A.Lawful) {order : ℕ} {ftype : FType} {rp rs : Option ℝ} {f : Zpk}
    (h : prototype A order ftype rp rs = .ok f) :
    Good f f.z.length order ∧ (ftype ≠ .chebyshevII → f.z.length = 0) := by
  have hl := (prototype_lengths h).2
  cases ftype <;> cases rp <;> cases rs <;> simp [prototype] at h <;> subst h
  all_goals first
    | exact ⟨⟨conjClosed_nil, buttap_conj hA _, rfl, hl⟩, fun _ => rfl⟩
    | exact ⟨⟨by rw [cheb1ap_z]; exact conjClosed_nil, cheb1ap_conj hA _ _, rfl, hl⟩, fun _ => by rw [cheb1ap_z]; rfl⟩
    | exact ⟨⟨(cheb2ap_conj hA _ _).1, (cheb2ap_conj hA _ _).2, rfl, hl⟩, fun h => absurd rfl h⟩

theorem bandTransform_good (hA : A.Lawful) {btype : Band} {ftype : FType} (hk : KeepsPairs btype ftype) {f g : Zpk}
    {order : ℕ} (hf : Good f f.z.length order) (h0 : ftype ≠ .chebyshevII → f.z.length = 0)
    (hle : f.z.length ≤ f.p.length) {w : List ℝ} (h : bandTransform A btype f w = .ok g) :
    Good g g.z.length (poleCount order btype) ∧ g.z.length ≤ g.p.length := by
  have hcount := bandTransform_count h
  obtain ⟨g', hg', h1, h2⟩ := bandTransform_ok (A := A) (btype := btype) hle hcount
  rw [hg'] at h
  cases h
  refine ⟨?_, h1⟩
  have hle' : f.z.length ≤ order := by rw [← hf.np]; exact hle
  have hz : btype = .highpass ∨ btype = .bandstop → f.z.length = 0 := by
    intro hb
    refine h0 (fun h => ?_)
    rcases hk h with rfl | rfl <;> simp at hb
  rw [hf.np] at h2
  unfold bandTransform at hg'
  match btype, w, hcount with
  | .lowpass, [a], _ =>
    obtain ⟨g, e, hg⟩ := lp2lp_good hA hf hle' a
    dsimp only at hg'
    rw [e] at hg'
    cases hg'
    exact ⟨hg.z, hg.p, rfl, h2⟩
  | .highpass, [a], _ =>
    have hf' : Good f 0 order := by rw [hz (.inl rfl)] at hf; exact hf
    obtain ⟨g, e, hg, -⟩ := lp2hp_good hA hf' a
    dsimp only at hg'
    rw [e] at hg'
    cases hg'
    exact ⟨hg.z, hg.p, rfl, h2⟩
  | .bandpass, [a, b], _ =>
    obtain ⟨g, e, hg⟩ := lp2bp_good hA hf hle' (A.sqrt (A.mul a b)) (A.sub b a)
    dsimp only at hg'
    rw [e] at hg'
    cases hg'
    exact ⟨hg.z, hg.p, rfl, h2⟩
  | .bandstop, [a, b], _ =>
    have hf' : Good f 0 order := by rw [hz (.inr rfl)] at hf; exact hf
    obtain ⟨g, e, hg⟩ := lp2bs_good hA hf' (A.sqrt (A.mul a b)) (A.sub b a)
    dsimp only at hg'
    rw [e] at hg'
    cases hg'
    exact ⟨hg.z, hg.p, rfl, h2⟩

theorem design_good (hA : A.Lawful) {order : ℕ} {wn : List ℝ} {rp rs : Option ℝ} {btype : Band} {ftype : FType}
    {analog : Bool} {fs : Option ℝ} (hk : KeepsPairs btype ftype) {g : Zpk}
    (h : design A order wn rp rs btype ftype analog fs = .ok g) :
    ConjClosed g.z ∧ ConjClosed g.p ∧ g.z.length ≤ g.p.length ∧ g.p.length = poleCount order btype ∧
      (analog = false → g.z.length = g.p.length ∧ (∀ x ∈ g.z, A.Rep x) ∧ (∀ x ∈ g.p, A.Rep x)) := by
  unfold design at h
  obtain ⟨w, hw, h⟩ := bind_eq_ok.mp h
  obtain ⟨f, hf, h⟩ := bind_eq_ok.mp h
  obtain ⟨v, hv, h⟩ := bind_eq_ok.mp h
  obtain ⟨f', hf', h⟩ := bind_eq_ok.mp h
  obtain ⟨h1, h2⟩ := prototype_good hA hf
  obtain ⟨h3, h4⟩ := bandTransform_good hA hk h1 h2 (prototype_lengths hf).1 hf'
  unfold discretise at h
  split at h
  · obtain ⟨g', e, hg, r1, r2⟩ := bilinear_good hA h3 (by rw [← h3.np]; exact h4) 2
    rw [e] at h
    cases h
    exact ⟨hg.z, hg.p, by rw [hg.nz, hg.np], hg.np, fun _ => ⟨by rw [hg.nz, hg.np], r1, r2⟩⟩
  · rename_i ha
    cases h
    exact ⟨h3.z, h3.p, h4, h3.np, fun h => absurd h ha⟩

end SciRs.Rounded

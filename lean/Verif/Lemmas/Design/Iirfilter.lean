import Verif.Spec.DesignRequest
import Verif.Props.Design.Prototype
import Verif.Props.Design.Transforms
import Verif.Props.Design.Zpk2sos

/-! # Lemmas about `iirfilter_dyn` -/

namespace SciRs.Design

open Complex SciRs.Spec

theorem bind_eq_ok {α β : Type} {x : Res α} {f : α → Res β} {b : β} :
    (x >>= f) = .ok b ↔ ∃ a, x = .ok a ∧ f a = .ok b := by
  cases x with
  | error e => simp [bind, Except.bind]
  | ok a => simp [bind, Except.bind]

theorem check_eq_ok {c : Prop} [Decidable c] {e : Err} {u : Unit} : check c e = .ok u ↔ c := by
  unfold check
  split <;> simp_all

/-- The call does not end in undefined behaviour. -/
def NoUb {α : Type} (r : Res α) : Prop := r ≠ .error Err.ub

theorem NoUb.bind {α β : Type} {x : Res α} {f : α → Res β} (hx : NoUb x) (hf : ∀ a, x = .ok a → NoUb (f a)) :
    NoUb (x >>= f) := by
  cases x with
  | error e => simpa [NoUb, Bind.bind, Except.bind] using hx
  | ok a => exact hf a rfl

theorem noUb_check {c : Prop} [Decidable c] {e : Err} (he : e ≠ Err.ub) : NoUb (check c e) := by
  unfold NoUb check
  split
  · simp
  · simpa using he

theorem noUb_ok {α : Type} (a : α) : NoUb (.ok a : Res α) := by simp [NoUb]

theorem panics_iff_not_returns {α : Type} {r : Res α} (h : NoUb r) : Panics r ↔ ¬ Returns r := by
  cases r with
  | error e =>
    have : e ≠ Err.ub := fun h0 => h (by rw [h0])
    simp [this, Returns]
  | ok a => simp

/-- Everything in `iirfilter_dyn` before the conversion. -/
noncomputable def design (order : ℕ) (wn : List ℝ) (rp rs : Option ℝ) (btype : Band) (ftype : FType)
    (analog : Bool) (fs : Option ℝ) : Res Zpk := do
  let wn ← validate wn rp rs analog fs
  let f ← prototype order ftype rp rs
  let warped ← warp wn analog
  let f ← bandTransform btype f warped
  discretise analog f

theorem iirfilter_eq (eps : ℝ) (s : Sorts) (order : ℕ) (wn : List ℝ) (rp rs : Option ℝ)
    (btype : Option Band) (ftype : Option FType) (analog : Option Bool) (output : Option Output)
    (fs : Option ℝ) :
    iirfilter eps s order wn rp rs btype ftype analog output fs =
      design order wn rp rs (btype.getD .bandpass) (ftype.getD .butterworth) (analog.getD false) fs >>=
        convert eps s order (analog.getD false) (output.getD .ba) := by
  unfold iirfilter design
  simp only [bind_assoc]

theorem validate_eq_ok {wn : List ℝ} {rp rs : Option ℝ} {analog : Bool} {fs : Option ℝ} {w : List ℝ} :
    validate wn rp rs analog fs = .ok w ↔
      w = edges wn fs ∧ wn.length ≤ 2 ∧ (fs.isSome → analog = false) ∧ (∀ w ∈ edges wn fs, 0 < w) ∧
      (edges wn fs).Pairwise (· < ·) ∧ (∀ r, rp = some r → 0 ≤ r) ∧ (∀ r, rs = some r → 0 ≤ r) := by
  unfold validate
  have hpw : ∀ l : List ℝ, l.length ≤ 2 →
      (¬ (l.length > 1 ∧ l.getD 0 0 ≥ l.getD 1 0) ↔ l.Pairwise (· < ·)) := by
    intro l hl
    match l, hl with
    | [], _ => simp
    | [a], _ => simp
    | [a, b], _ => simp
  have hlen : (edges wn fs).length = wn.length := by unfold edges; split <;> simp
  have hfs : ∀ w1, scaleEdges wn analog fs = .ok w1 ↔
      w1 = edges wn fs ∧ (fs.isSome → analog = false) := by
    intro w1
    unfold scaleEdges
    cases fs with
    | none => simp [edges, eq_comm]
    | some fs =>
      cases analog <;> simp [edges, eq_comm]
  simp only [bind_eq_ok, check_eq_ok, hfs]
  constructor
  · rintro ⟨-, h1, w1, ⟨rfl, h2⟩, -, h3, -, h4, -, h5, -, h6, h7⟩
    have hw : w = edges wn fs := by cases h7; rfl
    refine ⟨hw, by omega, h2, fun x hx => ?_, (hpw _ (by rw [hlen]; omega)).mp h4, fun r hr => ?_,
      fun r hr => ?_⟩
    · by_contra h; exact h3 ⟨x, hx, not_lt.mp h⟩
    · by_contra h; exact h5 ⟨r, hr, not_le.mp h⟩
    · by_contra h; exact h6 ⟨r, hr, not_le.mp h⟩
  · rintro ⟨rfl, h1, h2, h3, h4, h5, h6⟩
    refine ⟨(), by omega, _, ⟨rfl, h2⟩, (), ?_, (), (hpw _ (by rw [hlen]; omega)).mpr h4, (), ?_, (), ?_, rfl⟩
    · rintro ⟨x, hx, h⟩; exact absurd (h3 x hx) (not_lt.mpr h)
    · rintro ⟨r, hr, h⟩; exact absurd (h5 r hr) (not_le.mpr h)
    · rintro ⟨r, hr, h⟩; exact absurd (h6 r hr) (not_le.mpr h)

theorem prototype_ok {order : ℕ} {ftype : FType} {rp rs : Option ℝ} :
    (∃ f, prototype order ftype rp rs = .ok f) ↔
      (ftype = .butterworth ∨ (ftype = .chebyshevI ∧ rp.isSome) ∨
        (ftype = .chebyshevII ∧ rp.isSome ∧ rs.isSome)) := by
  cases ftype <;> cases rp <;> cases rs <;> simp [prototype]

theorem cheb2ap_lengths (n : ℕ) (rs : ℝ) : (cheb2ap n rs).z.length ≤ (cheb2ap n rs).p.length := by
  by_cases hn : n = 0
  · subst hn; rw [Props.C47_order_zero]
  · obtain ⟨mu, -, hz, hp, -⟩ := Props.cheb2ap_fields n hn rs
    rw [hz, hp, List.length_map, cheb1Poles_length, Props.cheb2Zeros_eq, List.length_map]
    have h := (Props.cheb2Ms_perm n).length_eq
    rw [stepRange_sym_length] at h
    split at h
    · rw [List.length_cons] at h; omega
    · omega

theorem prototype_lengths {order : ℕ} {ftype : FType} {rp rs : Option ℝ} {f : Zpk}
    (h : prototype order ftype rp rs = .ok f) : f.z.length ≤ f.p.length := by
  cases ftype <;> cases rp <;> cases rs <;> simp [prototype] at h <;> subst h
  all_goals first
    | exact Nat.zero_le _
    | (rw [Props.cheb1ap_z]; exact Nat.zero_le _)
    | exact cheb2ap_lengths _ _

theorem warp_ok {wn : List ℝ} {analog : Bool} {w : List ℝ} (h : warp wn analog = .ok w) :
    w.length = wn.length ∧ (analog = false → ∀ x ∈ wn, 0 < x ∧ x < 1) := by
  unfold warp at h
  split at h
  · rw [bind_eq_ok] at h
    obtain ⟨u, h1, h2⟩ := h
    rw [check_eq_ok] at h1
    cases h2
    refine ⟨by simp, fun _ x hx => ⟨?_, ?_⟩⟩
    · by_contra h; exact h1 ⟨x, hx, Or.inl (not_lt.mp h)⟩
    · by_contra h; exact h1 ⟨x, hx, Or.inr (not_lt.mp h)⟩
  · rename_i h0
    cases h
    exact ⟨rfl, fun h => absurd h h0⟩

theorem warp_digital {wn : List ℝ} (h : ∀ x ∈ wn, 0 < x ∧ x < 1) :
    warp wn false = .ok (wn.map (fun x => 4 * Real.tan (Real.pi * x / 2))) := by
  unfold warp
  rw [if_pos rfl, check_true]
  · norm_num [pure, Except.pure]
  · rintro ⟨x, hx, h1 | h1⟩
    · linarith [(h x hx).1]
    · linarith [(h x hx).2]

theorem bandTransform_count {btype : Band} {f g : Zpk} {w : List ℝ} (h : bandTransform btype f w = .ok g) :
    w.length = if btype = .lowpass ∨ btype = .highpass then 1 else 2 := by
  unfold bandTransform at h
  split at h <;> simp_all

theorem bandTransform_ok {btype : Band} {f : Zpk} (hf : f.z.length ≤ f.p.length) {w : List ℝ}
    (h : w.length = if btype = .lowpass ∨ btype = .highpass then 1 else 2) :
    ∃ g, bandTransform btype f w = .ok g ∧ g.z.length ≤ g.p.length := by
  have hd := fun wo bw f' => Props.C44_degrees f f' wo bw 1
  have hr := relativeDegree_ok hf
  unfold bandTransform
  match btype, w, h with
  | .lowpass, [a], _ =>
    obtain ⟨g, hg⟩ : ∃ g, lp2lp f (some a) = .ok g := by simp [lp2lp, hr, bind, Except.bind, pure, Except.pure]
    have := (hd (some a) none g).1 hg
    exact ⟨g, hg, by omega⟩
  | .highpass, [a], _ =>
    obtain ⟨g, hg⟩ : ∃ g, lp2hp f (some a) = .ok g := by simp [lp2hp, hr, bind, Except.bind, pure, Except.pure]
    have := (hd (some a) none g).2.1 hg
    exact ⟨g, hg, by omega⟩
  | .bandpass, [a, b], _ =>
    obtain ⟨g, hg⟩ : ∃ g, lp2bp f (some (Real.sqrt (a * b))) (some (b - a)) = .ok g := by
      simp [lp2bp, hr, bind, Except.bind, pure, Except.pure]
    have := (hd (some (Real.sqrt (a * b))) (some (b - a)) g).2.2.1 hg
    exact ⟨g, hg, by omega⟩
  | .bandstop, [a, b], _ =>
    obtain ⟨g, hg⟩ : ∃ g, lp2bs f (some (Real.sqrt (a * b))) (some (b - a)) = .ok g := by
      simp [lp2bs, hr, bind, Except.bind, pure, Except.pure]
    have := (hd (some (Real.sqrt (a * b))) (some (b - a)) g).2.2.2.1 hg
    exact ⟨g, hg, by omega⟩

theorem edges_length (wn : List ℝ) (fs : Option ℝ) : (edges wn fs).length = wn.length := by
  unfold edges; split <;> simp

theorem design_returns_iff {order : ℕ} {wn : List ℝ} {rp rs : Option ℝ} {btype : Band} {ftype : FType}
    {analog : Bool} {fs : Option ℝ} :
    Returns (design order wn rp rs btype ftype analog fs) ↔
      ValidRequest wn rp rs btype ftype analog fs := by
  unfold Returns design
  constructor
  · rintro ⟨g, h⟩
    simp only [bind_eq_ok] at h
    obtain ⟨w, hw, f, hf, v, hv, g1, hg1, -⟩ := h
    obtain ⟨rfl, h1, h2, h3, h4, h5, h6⟩ := validate_eq_ok.mp hw
    obtain ⟨h7, h8⟩ := warp_ok hv
    have h9 := bandTransform_count hg1
    rw [h7, edges_length] at h9
    exact ⟨h9, h3, h4, fun ha x hx => (h8 ha x hx).2, h2, h5, h6, prototype_ok.mp ⟨f, hf⟩⟩
  · intro h
    have hle : wn.length ≤ 2 := by rw [h.count]; split <;> omega
    have hv : validate wn rp rs analog fs = .ok (edges wn fs) := validate_eq_ok.mpr
      ⟨rfl, hle, h.fs_digital, h.positive, h.increasing, h.ripple, h.attenuation⟩
    obtain ⟨f, hf⟩ := (prototype_ok (order := order)).mpr h.family
    have hw : ∃ v, warp (edges wn fs) analog = .ok v ∧ v.length = wn.length := by
      cases analog with
      | true => exact ⟨_, rfl, edges_length wn fs⟩
      | false =>
        exact ⟨_, warp_digital (fun x hx => ⟨h.positive x hx, h.nyquist rfl x hx⟩), by simp [edges_length]⟩
    obtain ⟨v, hv1, hv2⟩ := hw
    obtain ⟨g, hg, hgl⟩ := bandTransform_ok (btype := btype) (prototype_lengths hf) (w := v) (by rw [hv2, h.count])
    rw [hv, ok_bind, hf, ok_bind, hv1, ok_bind, hg, ok_bind]
    unfold discretise
    split
    · simp [bilinear, relativeDegree_ok hgl, bind, Except.bind, pure, Except.pure]
    · exact ⟨g, rfl⟩

theorem noUb_relativeDegree (z p : List ℂ) : NoUb (relativeDegree z p) := by
  unfold relativeDegree NoUb
  dsimp only
  split <;> simp

theorem noUb_bilinear (f : Zpk) (fs : ℝ) : NoUb (bilinear f fs) :=
  (noUb_relativeDegree _ _).bind (fun _ _ => noUb_ok _)

theorem noUb_design (order : ℕ) (wn : List ℝ) (rp rs : Option ℝ) (btype : Band) (ftype : FType)
    (analog : Bool) (fs : Option ℝ) : NoUb (design order wn rp rs btype ftype analog fs) := by
  have hc : ∀ (c : Prop) (i : Decidable c), NoUb (@check c i Err.panic) := fun c i => noUb_check (by simp)
  refine NoUb.bind ?_ (fun w _ => NoUb.bind ?_ (fun f _ => NoUb.bind ?_ (fun v _ => NoUb.bind ?_ (fun g _ => ?_))))
  · refine NoUb.bind (hc _ _) (fun _ _ => NoUb.bind ?_ (fun _ _ => NoUb.bind (hc _ _) (fun _ _ =>
      NoUb.bind (hc _ _) (fun _ _ => NoUb.bind (hc _ _) (fun _ _ => NoUb.bind (hc _ _) (fun _ _ => noUb_ok _))))))
    cases fs <;> cases analog <;> simp [scaleEdges, NoUb]
  · cases ftype <;> cases rp <;> cases rs <;> simp [prototype, NoUb]
  · unfold warp
    split
    · exact NoUb.bind (hc _ _) (fun _ _ => noUb_ok _)
    · exact noUb_ok _
  · unfold bandTransform
    split
    · exact (noUb_relativeDegree _ _).bind (fun _ _ => noUb_ok _)
    · exact (noUb_relativeDegree _ _).bind (fun _ _ => noUb_ok _)
    · exact (noUb_relativeDegree _ _).bind (fun _ _ => noUb_ok _)
    · exact (noUb_relativeDegree _ _).bind (fun _ _ => noUb_ok _)
    · simp [NoUb]
  · unfold discretise
    split
    · exact noUb_bilinear _ _
    · exact noUb_ok _

end SciRs.Design

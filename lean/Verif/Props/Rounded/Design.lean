import Verif.Lemmas.Rounded.Exact
import Verif.Lemmas.Rounded.Iirfilter
import Verif.Lemmas.Rounded.Lawful

/-!
# C86: filter design in floating-point arithmetic

The same theorems hold in exact arithmetic, in `f32` and in `f64`: the model takes its operations from an `Arith`,
and the theorems ask for the symmetries collected in `Arith.Lawful` only.
-/

namespace SciRs.Props

open SciRs SciRs.Design SciRs.Spec SciRs.Rounded Complex

/-- **C86**, the model: run in exact arithmetic, it is the model that C43-C54, C84 and C85 are about. -/
theorem C86_exact (eps : ℝ) (s : Sorts) (order : ℕ) (wn : List ℝ) (rp rs : Option ℝ) (btype : Option Band)
    (ftype : Option FType) (analog : Option Bool) (output : Option Output) (fs : Option ℝ) :
    Rounded.iirfilter (.exact eps) s order wn rp rs btype ftype analog output fs =
      Design.iirfilter eps s order wn rp rs btype ftype analog output fs :=
  iirfilter_exact eps s order wn rp rs btype ftype analog output fs

/-- **C86**, the arithmetic: `f64` and `f32` with the complex operations of `num_complex`, over any mathematical
library whose functions have the usual symmetries, obey the laws that the other theorems ask for; exact
arithmetic does too. -/
theorem C86_lawful (m : Libm) (eps : ℝ) (he : 0 ≤ eps) :
    (Arith.ofRounding binary64 m).Lawful ∧ (Arith.ofRounding binary32 m).Lawful ∧ (Arith.exact eps).Lawful :=
  ⟨ofRounding_lawful binary64_nearest m, ofRounding_lawful binary32_nearest m, exact_lawful eps he⟩

/-- Such a library exists: the one that rounds the exact values. -/
noncomputable example : Libm := Libm.rounded binary64 binary64_nearest ((2 : ℝ) ^ (-52 : ℤ)) (by positivity)

/-- **C86**, returning: in any arithmetic, a request for zeros, poles and gain, or for transfer-function
coefficients, is answered exactly when it makes sense, judged by the computed edges; otherwise the call panics.
The transfer function comes with `2 * order + 1` coefficients on each side. -/
theorem C86_returns_iff (A : Arith) (s : Sorts) (order : ℕ) (wn : List ℝ) (rp rs : Option ℝ) (btype : Option Band)
    (ftype : Option FType) (analog : Option Bool) (output : Option Output) (fs : Option ℝ)
    (ho : output ≠ some .sos) :
    (Returns (Rounded.iirfilter A s order wn rp rs btype ftype analog output fs) ↔
      Valid A wn rp rs (btype.getD .bandpass) (ftype.getD .butterworth) (analog.getD false) fs) ∧
    (Panics (Rounded.iirfilter A s order wn rp rs btype ftype analog output fs) ↔
      ¬ Valid A wn rp rs (btype.getD .bandpass) (ftype.getD .butterworth) (analog.getD false) fs) ∧
    (∀ t, Rounded.iirfilter A s order wn rp rs btype ftype analog output fs = .ok (.ba t) →
      t.b.length = 2 * order + 1 ∧ t.a.length = 2 * order + 1) := by
  have key : Returns (Rounded.iirfilter A s order wn rp rs btype ftype analog output fs) ↔
      Valid A wn rp rs (btype.getD .bandpass) (ftype.getD .butterworth) (analog.getD false) fs := by
    rw [← Rounded.design_returns_iff (order := order), Rounded.iirfilter_eq]
    constructor
    · rintro ⟨f, h⟩
      obtain ⟨g, hg, -⟩ := bind_eq_ok.mp h
      exact ⟨g, hg⟩
    · rintro ⟨g, hg⟩
      rw [hg, ok_bind]
      match output, ho with
      | some .zpk, _ => exact ⟨_, rfl⟩
      | none, _ =>
        obtain ⟨t, ht, -⟩ := Rounded.zpk2tf_returns (A := A) (2 * order) g.z g.p g.k
        exact ⟨.ba t, by simp [Rounded.convert, ht, bind, Except.bind, pure, Except.pure]⟩
      | some .ba, _ =>
        obtain ⟨t, ht, -⟩ := Rounded.zpk2tf_returns (A := A) (2 * order) g.z g.p g.k
        exact ⟨.ba t, by simp [Rounded.convert, ht, bind, Except.bind, pure, Except.pure]⟩
  refine ⟨key, by rw [panics_iff_not_returns (Rounded.noUb_iirfilter _ _ _ _ _ _ _ _ _ _), key], ?_⟩
  intro t ht
  rw [Rounded.iirfilter_eq] at ht
  obtain ⟨g, -, h⟩ := bind_eq_ok.mp ht
  obtain ⟨t', ht', hl⟩ := Rounded.zpk2tf_returns (A := A) (2 * order) g.z g.p g.k
  have : Rounded.convert A s order (analog.getD false) (output.getD .ba) g = .ok (.ba t) := h
  match output, ho with
  | some .zpk, _ => simp [Rounded.convert] at this
  | none, _ =>
    simp [Rounded.convert, ht', bind, Except.bind, pure, Except.pure] at this
    rw [← this]; exact hl
  | some .ba, _ =>
    simp [Rounded.convert, ht', bind, Except.bind, pure, Except.pure] at this
    rw [← this]; exact hl

/-- **C86**, conjugate pairs: the zeros and the poles of every design come in exact conjugate pairs in spite of
rounding, bit for bit; there are exactly as many poles as asked for, never more zeros than poles, and as many
zeros as poles in a digital filter. -/
theorem C86_conjugate_pairs {A : Arith} (hA : A.Lawful) (s : Sorts) (order : ℕ) (wn : List ℝ) (rp rs : Option ℝ)
    (btype : Option Band) (ftype : Option FType) (analog : Option Bool) (fs : Option ℝ)
    (hk : KeepsPairs (btype.getD .bandpass) (ftype.getD .butterworth)) {f : Zpk}
    (h : Rounded.iirfilter A s order wn rp rs btype ftype analog (some .zpk) fs = .ok (.zpk f)) :
    ConjClosed f.z ∧ ConjClosed f.p ∧ f.z.length ≤ f.p.length ∧
      f.p.length = poleCount order (btype.getD .bandpass) ∧
      (analog.getD false = false → f.z.length = f.p.length) := by
  rw [Rounded.iirfilter_eq] at h
  obtain ⟨g, hg, h⟩ := bind_eq_ok.mp h
  simp only [Rounded.convert, Option.getD_some, Except.ok.injEq, Filter.zpk.injEq] at h
  subst h
  obtain ⟨h1, h2, h3, h4, h5⟩ := design_good hA hk hg
  exact ⟨h1, h2, h3, h4, fun ha => (h5 ha).1⟩

/-- Every element of the first of two related lists is related to something. -/
theorem forall₂_left {α β : Type} {R : α → β → Prop} {l : List α} {m : List β} (h : List.Forall₂ R l m) {x : α}
    (hx : x ∈ l) : ∃ y, R x y := by
  induction h with
  | nil => simp at hx
  | cons h _ ih =>
    rcases List.mem_cons.mp hx with rfl | hx
    · exact ⟨_, h⟩
    · exact ih hx

/-- Whether a root passes for real is what the conversion tests. -/
theorem separated_iff (A : Arith) (z : List ℂ) :
    Rounded.Separated A (defaultTol A) z ↔ ∀ x ∈ z, ¬ NearReal A x := by
  unfold Rounded.Separated NearReal isReal defaultTol
  refine forall₂_congr (fun x _ => ?_)
  by_cases h : x.im = 0 <;> simp [h]

/-- The sections `l` use up the zeros `z` and the poles `p`: each section is made from two zeros and two poles that
are real or conjugate, by the code that makes one section; each root is used once. -/
def UsesUp (A : Arith) (l : List (Sos ℝ)) (z p : List ℂ) : Prop :=
  ∃ qs : List (ℂ × ℂ × ℂ × ℂ),
    List.Forall₂ (fun s q => Rounded.single A [q.1, q.2.1] [q.2.2.1, q.2.2.2] 1 = .ok s ∧
      ConjClosed [q.1, q.2.1] ∧ ConjClosed [q.2.2.1, q.2.2.2]) l qs ∧
    (qs.flatMap (fun q => [q.1, q.2.1])).Perm z ∧ (qs.flatMap (fun q => [q.2.2.1, q.2.2.2])).Perm p

/-- **C86**, sections: for a digital filter the section format is returned exactly when no computed zero or pole
passes for real without being real; otherwise the call panics.  The sections are then the zeros and poles of the
zero-pole-gain answer (with one more of each at the origin when their number is odd), two zeros and two poles to
a section, and the first section is multiplied by the gain.  Every leading denominator coefficient is exactly one,
and there are `(poles + 1) / 2` sections. -/
theorem C86_sections {A : Arith} (hA : A.Lawful) {s : Sorts} (hs : s.Correct) (order : ℕ) (ho : order ≠ 0)
    (wn : List ℝ) (rp rs : Option ℝ) (btype : Option Band) (ftype : Option FType) (analog : Option Bool)
    (han : analog.getD false = false) (fs : Option ℝ)
    (hk : KeepsPairs (btype.getD .bandpass) (ftype.getD .butterworth)) {f : Zpk}
    (h : Rounded.iirfilter A s order wn rp rs btype ftype analog (some .zpk) fs = .ok (.zpk f)) :
    (Returns (Rounded.iirfilter A s order wn rp rs btype ftype analog (some .sos) fs) ↔
      ∀ x ∈ f.z ++ f.p, ¬ NearReal A x) ∧
    (Panics (Rounded.iirfilter A s order wn rp rs btype ftype analog (some .sos) fs) ↔
      ∃ x ∈ f.z ++ f.p, NearReal A x) ∧
    ((∀ x ∈ f.z ++ f.p, ¬ NearReal A x) → ∃ s0 rest,
      Rounded.iirfilter A s order wn rp rs btype ftype analog (some .sos) fs =
        .ok (.sos ({ s0 with b0 := A.mul s0.b0 f.k, b1 := A.mul s0.b1 f.k, b2 := A.mul s0.b2 f.k } :: rest)) ∧
      (s0 :: rest).length = (f.p.length + 1) / 2 ∧
      UsesUp A (s0 :: rest) (f.z ++ List.replicate (f.p.length % 2) 0) (f.p ++ List.replicate (f.p.length % 2) 0) ∧
      ∀ x ∈ s0 :: rest, x.a0 = 1 ∧ x.zi0 = 0 ∧ x.zi1 = 0) := by
  rw [Rounded.iirfilter_eq] at h
  obtain ⟨g, hg, h⟩ := bind_eq_ok.mp h
  simp only [Rounded.convert, Option.getD_some, Except.ok.injEq, Filter.zpk.injEq] at h
  subst h
  obtain ⟨h1, h2, h3, h4, h5⟩ := design_good hA hk hg
  obtain ⟨h5, r1, r2⟩ := h5 han
  have hpos : 0 < g.p.length := by
    rw [h4]; unfold poleCount; split <;> omega
  set n := (g.p.length + 1) / 2 with hn
  set q := g.p.length % 2 with hq
  have rep0 : ∀ x ∈ List.replicate q (0 : ℂ), A.Rep x := fun x hx => by
    rw [(List.mem_replicate.mp hx).2]; exact ⟨by simpa using hA.rep_zero, by simpa using hA.rep_zero⟩
  have rz : ∀ x ∈ g.z ++ List.replicate q 0, A.Rep x := fun x hx =>
    (List.mem_append.mp hx).elim (r1 x) (rep0 x)
  have rp' : ∀ x ∈ g.p ++ List.replicate q 0, A.Rep x := fun x hx =>
    (List.mem_append.mp hx).elim (r2 x) (rep0 x)
  have cz : ConjClosed (g.z ++ List.replicate q 0) := conjClosed_append h1 (by simpa using conjClosed_replicate_real q 0)
  have cp : ConjClosed (g.p ++ List.replicate q 0) := conjClosed_append h2 (by simpa using conjClosed_replicate_real q 0)
  have lz : (g.z ++ List.replicate q 0).length = 2 * n := by
    rw [List.length_append, List.length_replicate, h5]; omega
  have lp : (g.p ++ List.replicate q 0).length = 2 * n := by
    rw [List.length_append, List.length_replicate]; omega
  have hzpk : Rounded.zpk2sos A s order g none (some false) =
      pairUp A s .nearest false (g.z ++ List.replicate q 0) (g.p ++ List.replicate q 0) g.k n := by
    unfold Rounded.zpk2sos
    dsimp only [Option.getD_some, Option.getD_none]
    rw [if_neg (by simp), if_neg (by rintro ⟨-, h0⟩; rw [h0] at hpos; simp at hpos), if_pos (by simp)]
    have e1 : g.z.length - g.p.length = 0 := by omega
    rw [e1, List.replicate_zero, List.append_nil, h5, Nat.sub_self, List.replicate_zero, List.append_nil, h5,
      Nat.max_self]
    by_cases hodd : g.p.length % 2 = 1
    · rw [if_pos ⟨hodd, rfl⟩, check_true (by simp [h5]), ok_bind, hq, hodd]; rfl
    · have : q = 0 := by omega
      rw [if_neg (fun h => hodd h.1), check_true (by simp [h5]), ok_bind, this]
      simp
      rfl
  have hfull : Rounded.iirfilter A s order wn rp rs btype ftype analog (some .sos) fs =
      pairUp A s .nearest false (g.z ++ List.replicate q 0) (g.p ++ List.replicate q 0) g.k n >>=
        fun l => .ok (.sos l) := by
    rw [Rounded.iirfilter_eq, hg, ok_bind, han]
    simp only [Rounded.convert, Option.getD_some, hzpk]
    rfl
  have hpad : ∀ l : List ℂ, Rounded.Separated A (defaultTol A) (l ++ List.replicate q 0) ↔
      Rounded.Separated A (defaultTol A) l := by
    intro l
    constructor
    · exact fun h x hx => h x (List.mem_append_left _ hx)
    · intro h x hx
      rcases List.mem_append.mp hx with hx | hx
      · exact h x hx
      · left; rw [(List.mem_replicate.mp hx).2]; simp
  have hsep : (∀ x ∈ g.z ++ g.p, ¬ NearReal A x) ↔
      Rounded.Separated A (defaultTol A) (g.z ++ List.replicate q 0) ∧
        Rounded.Separated A (defaultTol A) (g.p ++ List.replicate q 0) := by
    rw [hpad, hpad, separated_iff, separated_iff, List.forall_mem_append]
  have main : (∀ x ∈ g.z ++ g.p, ¬ NearReal A x) → ∃ s0 rest,
      Rounded.iirfilter A s order wn rp rs btype ftype analog (some .sos) fs =
        .ok (.sos ({ s0 with b0 := A.mul s0.b0 g.k, b1 := A.mul s0.b1 g.k, b2 := A.mul s0.b2 g.k } :: rest)) ∧
      (s0 :: rest).length = n ∧
      UsesUp A (s0 :: rest) (g.z ++ List.replicate q 0) (g.p ++ List.replicate q 0) ∧
      ∀ x ∈ s0 :: rest, x.a0 = 1 ∧ x.zi0 = 0 ∧ x.zi1 = 0 := by
    intro hnear
    obtain ⟨sz, sp⟩ := hsep.mp hnear
    obtain ⟨new, qs, e, hl, hm, hZ, hP⟩ := Rounded.pairUp_even hA hs .nearest false g.k (n := n) (by omega) cz cp rz rp'
      sz sp lz lp
    match new, hl with
    | [], hl => simp at hl; omega
    | s0 :: rest, hl =>
      refine ⟨s0, rest, by rw [hfull, e]; rfl, hl, ⟨qs, ?_, hZ, hP⟩, ?_⟩
      · exact List.Forall₂.imp (fun a b hab => ⟨hab.made, hab.z, hab.p⟩) hm
      · intro x hx
        obtain ⟨b, hb⟩ := forall₂_left hm hx
        exact ⟨hb.a0, hb.zi0, hb.zi1⟩
  have key : Returns (Rounded.iirfilter A s order wn rp rs btype ftype analog (some .sos) fs) ↔
      ∀ x ∈ g.z ++ g.p, ¬ NearReal A x := by
    constructor
    · rintro ⟨x, hx⟩
      rw [hfull] at hx
      obtain ⟨l, hl, -⟩ := bind_eq_ok.mp hx
      exact hsep.mpr (Rounded.pairUp_near_real hA hs cz cp rz rp' lz lp hl)
    · intro h
      obtain ⟨s0, rest, e, -⟩ := main h
      exact ⟨_, e⟩
  refine ⟨key, ?_, main⟩
  rw [panics_iff_not_returns (Rounded.noUb_iirfilter _ _ _ _ _ _ _ _ _ _), key]
  push Not
  rfl

/-- **C86**, first-order filters: for order one, low-pass or high-pass, sections are always returned, in every
lawful arithmetic: a single section. -/
theorem C86_first_order {A : Arith} (hA : A.Lawful) {s : Sorts} (hs : s.Correct) (wn : List ℝ) (rp rs : Option ℝ)
    (band : Band) (hb : band = .lowpass ∨ band = .highpass) (ftype : Option FType) (fs : Option ℝ)
    (hk : KeepsPairs band (ftype.getD .butterworth))
    (hv : Valid A wn rp rs band (ftype.getD .butterworth) false fs) :
    ∃ x, Rounded.iirfilter A s 1 wn rp rs (some band) ftype none (some .sos) fs = .ok (.sos [x]) := by
  obtain ⟨g, hg⟩ := (Rounded.design_returns_iff (order := 1)).mpr hv
  have hf : Rounded.iirfilter A s 1 wn rp rs (some band) ftype none (some .zpk) fs = .ok (.zpk g) := by
    rw [Rounded.iirfilter_eq]
    change (Rounded.design A 1 wn rp rs band (ftype.getD .butterworth) false fs >>= _) = _
    rw [hg]
    rfl
  obtain ⟨c1, c2, -, c4, c5⟩ := C86_conjugate_pairs hA s 1 wn rp rs (some band) ftype none fs hk hf
  have h1 : g.p.length = 1 := by
    rw [c4]; simp only [poleCount, Option.getD_some, if_pos hb]
  have h2 : g.z.length = 1 := (c5 rfl).trans h1
  have real : ∀ l : List ℂ, l.length = 1 → ConjClosed l → ∀ x ∈ l, x.im = 0 := by
    intro l hl hc x hx
    match l, hl with
    | [y], _ =>
      have : (starRingEnd ℂ) y = y := by simpa [ConjClosed] using hc
      rw [List.mem_singleton.mp hx]
      exact Complex.conj_eq_iff_im.mp this
  obtain ⟨-, -, h⟩ := C86_sections hA hs 1 one_ne_zero wn rp rs (some band) ftype none rfl fs hk hf
  obtain ⟨s0, rest, e, hl, -⟩ := h (fun x hx hn => by
    rcases List.mem_append.mp hx with hx | hx
    · exact hn.1 (real _ h2 c1 x hx)
    · exact hn.1 (real _ h1 c2 x hx))
  rw [h1] at hl
  have : rest = [] := by
    rw [List.length_cons] at hl
    exact List.length_eq_zero_iff.mp (by omega)
  subst this
  exact ⟨_, e⟩

/-- A request that makes sense in `f64`: a fourth-order band-pass filter without a sampling rate. -/
theorem valid_example (A : Arith) : Valid A [1 / 4, 1 / 2] none none .bandpass .butterworth false none :=
  ⟨⟨by simp [Rounded.edges], by simp [Rounded.edges, Spec.edges], by simp [Rounded.edges, Spec.edges]; norm_num,
    by simp [Rounded.edges, Spec.edges]; norm_num, by simp, by simp, by simp, .inl rfl⟩, by simp⟩

example (m : Libm) (s : Sorts) :
    Returns (Rounded.iirfilter (.ofRounding binary64 m) s 4 [1 / 4, 1 / 2] none none none none none (some .zpk) none) :=
  ((C86_returns_iff _ s 4 _ _ _ none none none (some .zpk) none (by simp)).1).mpr (valid_example _)

/-- and one that does not: the edges in the wrong order. -/
example (m : Libm) (s : Sorts) :
    Panics (Rounded.iirfilter (.ofRounding binary64 m) s 4 [1 / 2, 1 / 4] none none none none none none none) := by
  refine ((C86_returns_iff _ s 4 _ _ _ none none none none none (by simp)).2.1).mpr ?_
  rintro ⟨⟨-, -, h, -⟩, -⟩
  simp [Rounded.edges, Spec.edges] at h
  norm_num at h

/-- The theorem on sections applies to it: eight poles and, when sections are returned, four sections. -/
example (m : Libm) {s : Sorts} (hs : s.Correct) : ∃ f,
    Rounded.iirfilter (.ofRounding binary32 m) s 4 [1 / 4, 1 / 2] none none none none none (some .zpk) none =
      .ok (.zpk f) ∧ f.p.length = 8 ∧ f.z.length = 8 ∧
    (Returns (Rounded.iirfilter (.ofRounding binary32 m) s 4 [1 / 4, 1 / 2] none none none none none (some .sos) none) ↔
      ∀ x ∈ f.z ++ f.p, ¬ NearReal (.ofRounding binary32 m) x) := by
  obtain ⟨g, hg⟩ := (Rounded.design_returns_iff (order := 4)).mpr (valid_example (.ofRounding binary32 m))
  have hf : Rounded.iirfilter (.ofRounding binary32 m) s 4 [1 / 4, 1 / 2] none none none none none (some .zpk) none =
      .ok (.zpk g) := by
    rw [Rounded.iirfilter_eq]
    change (Rounded.design _ 4 _ none none .bandpass .butterworth false none >>= _) = _
    rw [hg]
    rfl
  have hA := (C86_lawful m 0 le_rfl).2.1
  have hk : KeepsPairs ((none : Option Band).getD .bandpass) ((none : Option FType).getD .butterworth) := by
    simp [KeepsPairs]
  obtain ⟨-, -, -, c4, c5⟩ := C86_conjugate_pairs hA s 4 _ none none none none none none hk hf
  have h8 : g.p.length = 8 := by rw [c4]; rfl
  exact ⟨g, hf, h8, (c5 rfl).trans h8,
    (C86_sections hA hs 4 (by norm_num) _ none none none none none rfl none hk hf).1⟩

end SciRs.Props

import Verif.Lemmas.Rounded.Coefficients
import Verif.Lemmas.Rounded.Zeros
import Verif.Lemmas.Schur
import Verif.Props.Rounded.Design
import Verif.Props.RoundedSos

/-!
# C87: the coefficients of sections designed in floating-point arithmetic

What a user of `f32` or `f64` gets: the exact values of the coefficients in terms of the computed zeros and poles,
and a margin within which the rounded sections are stable.
-/

namespace SciRs.Props

open SciRs SciRs.Design SciRs.Spec SciRs.Rounded Complex

variable {r : Rounding}

/-- The section of two zeros and two poles: the coefficients of `(x - z1)(x - z2)` and `(x - p1)(x - p2)`, each
operation rounded. -/
noncomputable def roundedSection (r : Rounding) (z1 z2 p1 p2 : ℂ) : Sos ℝ :=
  { b0 := 1
    b1 := -r.rnd (z1.re + z2.re)
    b2 := r.rnd (r.rnd (z1.re * z2.re) - r.rnd (z1.im * z2.im))
    a0 := 1
    a1 := -r.rnd (p1.re + p2.re)
    a2 := r.rnd (r.rnd (p1.re * p2.re) - r.rnd (p1.im * p2.im))
    zi0 := 0
    zi1 := 0 }

/-- Two real numbers, or two conjugates. -/
def PairOfRoots (x y : ℂ) : Prop := (x.im = 0 ∧ y.im = 0) ∨ y = (starRingEnd ℂ) x

theorem pairOfRoots_of_conjClosed {x y : ℂ} (h : ConjClosed [x, y]) : PairOfRoots x y := by
  have hm : (starRingEnd ℂ) x ∈ [x, y] := h.subset (by simp)
  rcases List.mem_cons.mp hm with hx | hx
  · have hx0 : x.im = 0 := Complex.conj_eq_iff_im.mp hx
    have hy : (starRingEnd ℂ) y ∈ [x, y] := h.subset (by simp)
    rcases List.mem_cons.mp hy with hy | hy
    · right
      rw [hx]
      have := congrArg (starRingEnd ℂ) hy
      rw [Complex.conj_conj, hx] at this
      exact this
    · exact .inl ⟨hx0, Complex.conj_eq_iff_im.mp (List.mem_singleton.mp hy)⟩
  · exact .inr (List.mem_singleton.mp hx).symm

/-- **C87**, the coefficients: the sections of a digital design are, number for number, those computed from pairs of
its zeros and pairs of its poles (each real or conjugate, each root in one pair, one zero and pole at the origin
added when their number is odd), the numerator of the first one multiplied by the gain. -/
theorem C87_coefficients (hr : r.Nearest) (m : Libm) {s : Sorts} (hs : s.Correct) (order : ℕ) (ho : order ≠ 0)
    (wn : List ℝ) (rp rs : Option ℝ) (btype : Option Band) (ftype : Option FType) (analog : Option Bool)
    (han : analog.getD false = false) (fs : Option ℝ)
    (hk : KeepsPairs (btype.getD .bandpass) (ftype.getD .butterworth)) {l : List (Sos ℝ)}
    (h : Rounded.iirfilter (.ofRounding r m) s order wn rp rs btype ftype analog (some .sos) fs = .ok (.sos l)) :
    ∃ f, Rounded.iirfilter (.ofRounding r m) s order wn rp rs btype ftype analog (some .zpk) fs = .ok (.zpk f) ∧
      (∀ x ∈ f.z ++ f.p, r.rnd x.re = x.re ∧ r.rnd x.im = x.im) ∧ r.rnd f.k = f.k ∧
      f.p.length = poleCount order (btype.getD .bandpass) ∧ f.z.length = f.p.length ∧
      ∃ (q0 : ℂ × ℂ × ℂ × ℂ) (qs : List (ℂ × ℂ × ℂ × ℂ)),
        l = (let s0 := roundedSection r q0.1 q0.2.1 q0.2.2.1 q0.2.2.2
             { s0 with b0 := f.k, b1 := r.rnd (s0.b1 * f.k), b2 := r.rnd (s0.b2 * f.k) }) ::
            qs.map (fun q => roundedSection r q.1 q.2.1 q.2.2.1 q.2.2.2) ∧
        (∀ q ∈ q0 :: qs, PairOfRoots q.1 q.2.1 ∧ PairOfRoots q.2.2.1 q.2.2.2) ∧
        ((q0 :: qs).flatMap (fun q => [q.1, q.2.1])).Perm (f.z ++ List.replicate (f.p.length % 2) 0) ∧
        ((q0 :: qs).flatMap (fun q => [q.2.2.1, q.2.2.2])).Perm (f.p ++ List.replicate (f.p.length % 2) 0) := by
  set A := Arith.ofRounding r m with hAdef
  have hA : A.Lawful := ofRounding_lawful hr m
  have hd := h
  rw [Rounded.iirfilter_eq] at hd
  obtain ⟨f, hf, -⟩ := bind_eq_ok.mp hd
  have hz : Rounded.iirfilter A s order wn rp rs btype ftype analog (some .zpk) fs = .ok (.zpk f) := by
    rw [Rounded.iirfilter_eq, hf]; rfl
  obtain ⟨c1, c2, c3, c4, c5⟩ := design_good hA hk hf
  obtain ⟨c5, r1, r2⟩ := c5 han
  have hkrep : r.rnd f.k = f.k := by
    unfold Rounded.design at hf
    obtain ⟨w, hw, hf⟩ := bind_eq_ok.mp hf
    obtain ⟨g, hg, hf⟩ := bind_eq_ok.mp hf
    obtain ⟨v, hv, hf⟩ := bind_eq_ok.mp hf
    obtain ⟨g', hg', hf⟩ := bind_eq_ok.mp hf
    unfold Rounded.discretise at hf
    rw [if_pos han] at hf
    unfold Rounded.bilinear at hf
    obtain ⟨d, hd, hf⟩ := bind_eq_ok.mp hf
    cases hf
    exact hr.idem _
  obtain ⟨hret, -, hsec⟩ := C86_sections hA hs order ho wn rp rs btype ftype analog han fs hk hz
  obtain ⟨s0, rest, e, hl, ⟨qs, hq, hZ, hP⟩, -⟩ := hsec (hret.mp ⟨_, h⟩)
  rw [h] at e
  simp only [Except.ok.injEq, Filter.sos.injEq] at e
  have reps : ∀ x ∈ f.z ++ f.p, A.Rep x := fun x hx => (List.mem_append.mp hx).elim (r1 x) (r2 x)
  have rep0 : A.Rep 0 := ⟨r.zero, r.zero⟩
  have repz : ∀ x ∈ f.z ++ List.replicate (f.p.length % 2) 0, A.Rep x := fun x hx =>
    (List.mem_append.mp hx).elim (r1 x) (fun h => by rw [(List.mem_replicate.mp h).2]; exact rep0)
  have repp : ∀ x ∈ f.p ++ List.replicate (f.p.length % 2) 0, A.Rep x := fun x hx =>
    (List.mem_append.mp hx).elim (r2 x) (fun h => by rw [(List.mem_replicate.mp h).2]; exact rep0)
  -- one section
  have one : ∀ (x : Sos ℝ) (q : ℂ × ℂ × ℂ × ℂ), q ∈ qs →
      Rounded.single A [q.1, q.2.1] [q.2.2.1, q.2.2.2] 1 = .ok x →
      x = roundedSection r q.1 q.2.1 q.2.2.1 q.2.2.2 := by
    intro x q hq hx
    have m1 : ∀ y ∈ [q.1, q.2.1], A.Rep y := fun y hy =>
      repz y (hZ.subset (List.mem_flatMap.mpr ⟨q, hq, hy⟩))
    have m2 : ∀ y ∈ [q.2.2.1, q.2.2.2], A.Rep y := fun y hy =>
      repp y (hP.subset (List.mem_flatMap.mpr ⟨q, hq, hy⟩))
    rw [single_fl hr (m1 _ (by simp)) (m1 _ (by simp)) (m2 _ (by simp)) (m2 _ (by simp))] at hx
    cases hx
    rfl
  have all : ∀ (l : List (Sos ℝ)) (qs' : List (ℂ × ℂ × ℂ × ℂ)), (∀ q ∈ qs', q ∈ qs) →
      List.Forall₂ (fun s q => Rounded.single A [q.1, q.2.1] [q.2.2.1, q.2.2.2] 1 = .ok s ∧
        ConjClosed [q.1, q.2.1] ∧ ConjClosed [q.2.2.1, q.2.2.2]) l qs' →
      l = qs'.map (fun q => roundedSection r q.1 q.2.1 q.2.2.1 q.2.2.2) ∧
        ∀ q ∈ qs', PairOfRoots q.1 q.2.1 ∧ PairOfRoots q.2.2.1 q.2.2.2 := by
    intro l qs' hsub hF
    induction hF with
    | nil => simp
    | @cons x q l' qs'' hxq _ ih =>
      obtain ⟨i1, i2⟩ := ih (fun q hq => hsub q (List.mem_cons_of_mem _ hq))
      refine ⟨by rw [List.map_cons, ← i1, ← one x q (hsub q (by simp)) hxq.1], ?_⟩
      intro q' hq'
      rcases List.mem_cons.mp hq' with rfl | hq'
      · exact ⟨pairOfRoots_of_conjClosed hxq.2.1, pairOfRoots_of_conjClosed hxq.2.2⟩
      · exact i2 q' hq'
  obtain ⟨a1, a2⟩ := all _ qs (fun _ h => h) hq
  refine ⟨f, hz, fun x hx => reps x hx, hkrep, c4, c5, ?_⟩
  match qs, a1, a2, hZ, hP with
  | q0 :: qs, a1, a2, hZ, hP =>
    rw [List.map_cons, List.cons.injEq] at a1
    refine ⟨q0, qs, ?_, a2, hZ, hP⟩
    rw [e, a1.2, a1.1]
    congr 1
    have : A.mul (roundedSection r q0.1 q0.2.1 q0.2.2.1 q0.2.2.2).b0 f.k = f.k := by
      change r.rnd (1 * f.k) = f.k
      rw [one_mul, hkrep]
    rw [this]
    rfl

/-- **C87**, conjugate pairs: the middle coefficient of a conjugate pair is exact, `-2 Re`; the last is the
rounded sum of the rounded squares. -/
theorem C87_conjugate_coefficients (hr : r.Nearest) {z p : ℂ} (hz : r.rnd z.re = z.re) (hp : r.rnd p.re = p.re) :
    let x := roundedSection r z ((starRingEnd ℂ) z) p ((starRingEnd ℂ) p)
    x.b1 = -(2 * z.re) ∧ x.a1 = -(2 * p.re) ∧
      x.b2 = r.rnd (r.rnd (z.re * z.re) + r.rnd (z.im * z.im)) ∧
      x.a2 = r.rnd (r.rnd (p.re * p.re) + r.rnd (p.im * p.im)) := by
  simp [roundedSection, hr.double _ hz, hr.double _ hp, hr.odd, two_mul]

/-! ### Numerators -/

/-- **C87**, zeros: the zeros of Butterworth and Chebyshev I designs are exactly `1` and `-1` in spite of rounding. -/
theorem C87_zeros (hr : r.Nearest) (m : Libm) (s : Sorts) (order : ℕ) (wn : List ℝ) (rp rs : Option ℝ) (band : Band)
    (ftype : Option FType) (hII : ftype ≠ some .chebyshevII) (analog : Option Bool)
    (han : analog.getD false = false) (fs : Option ℝ) {f : Zpk}
    (h : Rounded.iirfilter (.ofRounding r m) s order wn rp rs (some band) ftype analog (some .zpk) fs = .ok (.zpk f)) :
    (band = .lowpass → f.z = List.replicate order (-1)) ∧
    (band = .highpass → f.z = List.replicate order 1) ∧
    (band = .bandpass → f.z = List.replicate order 1 ++ List.replicate order (-1)) := by
  rw [Rounded.iirfilter_eq] at h
  obtain ⟨g, hg, h⟩ := bind_eq_ok.mp h
  simp only [Rounded.convert, Option.getD_some, Except.ok.injEq, Filter.zpk.injEq] at h
  subst h
  rw [han] at hg
  refine design_zeros hr ?_ hg
  cases ftype with
  | none => simp
  | some t => simpa using hII

/-- **C87**, numerators: in a low-pass filter every section has the numerator `1, 2, 1` exactly, in a high-pass
filter `1, -2, 1`, times the gain in the first section; for odd orders one section has `1, ±1, 0` instead.  So a
high-pass filter blocks constants exactly, and a low-pass filter the Nyquist frequency. -/
theorem C87_numerators (hr : r.Nearest) (m : Libm) {s : Sorts} (hs : s.Correct) (order : ℕ) (ho : order ≠ 0)
    (wn : List ℝ) (rp rs : Option ℝ) (band : Band) (hb : band = .lowpass ∨ band = .highpass) (ftype : Option FType)
    (hII : ftype ≠ some .chebyshevII) (analog : Option Bool) (han : analog.getD false = false) (fs : Option ℝ)
    {l : List (Sos ℝ)}
    (h : Rounded.iirfilter (.ofRounding r m) s order wn rp rs (some band) ftype analog (some .sos) fs =
      .ok (.sos l)) :
    ∃ (k σ : ℝ) (s0 : Sos ℝ) (rest : List (Sos ℝ)), l = s0 :: rest ∧
      σ = (if band = .lowpass then 1 else -1) ∧
      ((s0.b0 = k ∧ s0.b1 = 2 * σ * k ∧ s0.b2 = k) ∨ (order % 2 = 1 ∧ s0.b0 = k ∧ s0.b1 = σ * k ∧ s0.b2 = 0)) ∧
      (∀ x ∈ rest, (x.b0 = 1 ∧ x.b1 = 2 * σ ∧ x.b2 = 1) ∨
        (order % 2 = 1 ∧ x.b0 = 1 ∧ x.b1 = σ ∧ x.b2 = 0)) ∧
      ∀ x ∈ l, x.b0 - σ * x.b1 + x.b2 = 0 := by
  have hk : KeepsPairs ((some band).getD .bandpass) (ftype.getD .butterworth) := by
    intro h'
    cases ftype with
    | none => simp at h'
    | some t => exact absurd (congrArg some h') hII
  obtain ⟨f, hf, -, hrep, hc, hlen, q0, qs, hl, -, hZ, -⟩ :=
    C87_coefficients hr m hs order ho wn rp rs (some band) ftype analog han fs hk h
  have hz := C87_zeros hr m s order wn rp rs band ftype hII analog han fs hf
  have hord : f.p.length = order := by
    rw [hc]; simp only [poleCount, Option.getD_some, if_pos hb]
  rw [hord] at hZ
  obtain ⟨σ, hσ⟩ : ∃ σ : ℝ, σ = (if band = .lowpass then 1 else -1) := ⟨_, rfl⟩
  have hσ2 : σ * σ = 1 := by rw [hσ]; split <;> norm_num
  have hσz : f.z = List.replicate order ((-σ : ℝ) : ℂ) := by
    rcases hb with rfl | rfl
    · rw [hz.1 rfl, hσ]; simp
    · rw [hz.2.1 rfl, hσ]; simp
  have hσr : r.rnd σ = σ := by
    rw [hσ]
    split
    · exact hr.one
    · rw [hr.odd, hr.one]
  have h2σ : r.rnd (2 * σ) = 2 * σ := by rw [two_mul]; exact hr.double σ hσr
  rw [hσz] at hZ
  -- the zeros of one section
  have key : ∀ q ∈ q0 :: qs, ∀ p1 p2 : ℂ,
      ((roundedSection r q.1 q.2.1 p1 p2).b1 = 2 * σ ∧ (roundedSection r q.1 q.2.1 p1 p2).b2 = 1) ∨
      (order % 2 = 1 ∧ (roundedSection r q.1 q.2.1 p1 p2).b1 = σ ∧ (roundedSection r q.1 q.2.1 p1 p2).b2 = 0) := by
    intro q hq p1 p2
    have mem : ∀ y ∈ [q.1, q.2.1], y = ((-σ : ℝ) : ℂ) ∨ (order % 2 = 1 ∧ y = 0) := by
      intro y hy
      have := hZ.subset (List.mem_flatMap.mpr ⟨q, hq, hy⟩)
      rcases List.mem_append.mp this with h | h
      · exact .inl (List.mem_replicate.mp h).2
      · have := List.mem_replicate.mp h
        exact .inr ⟨by omega, this.2⟩
    have hnot : ¬ (q.1 = 0 ∧ q.2.1 = 0) := by
      rintro ⟨e1, e2⟩
      have hc := hZ.count_eq (0 : ℂ)
      have hσ0 : ((-σ : ℝ) : ℂ) ≠ 0 := by
        intro h0
        have : σ = 0 := by simpa using h0
        rw [this] at hσ2
        norm_num at hσ2
      rw [List.count_append, List.count_replicate, List.count_replicate_self, if_neg (by simpa using hσ0)] at hc
      have : ([q.1, q.2.1] : List ℂ).count 0 ≤ ((q0 :: qs).flatMap (fun q => [q.1, q.2.1])).count 0 := by
        obtain ⟨a, b, e⟩ := List.append_of_mem hq
        rw [e]
        simp only [List.flatMap_append, List.flatMap_cons, List.count_append]
        omega
      rw [e1, e2] at this
      simp at this
      have hmod := Nat.mod_lt order (show 2 > 0 by norm_num)
      simp at hc
      omega
    have g1 := mem q.1 (by simp)
    have g2 := mem q.2.1 (by simp)
    have sum : r.rnd (-σ + -σ) = -(2 * σ) := by
      rw [show -σ + -σ = -(2 * σ) by ring, hr.odd, h2σ]
    rcases g1 with g1 | ⟨g0, g1⟩ <;> rcases g2 with g2 | ⟨g0', g2⟩
    · left
      simp [roundedSection, g1, g2, hσ2, hr.one, r.zero, sum]
    · right
      refine ⟨g0', ?_⟩
      simp [roundedSection, g1, g2, hr.odd, hσr, r.zero]
    · right
      refine ⟨g0, ?_⟩
      simp [roundedSection, g1, g2, hr.odd, hσr, r.zero]
    · exact absurd ⟨g1, g2⟩ hnot
  suffices H : ∃ (s0 : Sos ℝ) (rest : List (Sos ℝ)), l = s0 :: rest ∧
      ((s0.b0 = f.k ∧ s0.b1 = 2 * σ * f.k ∧ s0.b2 = f.k) ∨
        (order % 2 = 1 ∧ s0.b0 = f.k ∧ s0.b1 = σ * f.k ∧ s0.b2 = 0)) ∧
      (∀ x ∈ rest, (x.b0 = 1 ∧ x.b1 = 2 * σ ∧ x.b2 = 1) ∨
        (order % 2 = 1 ∧ x.b0 = 1 ∧ x.b1 = σ ∧ x.b2 = 0)) by
    obtain ⟨s0, rest, e, h1, h2⟩ := H
    refine ⟨f.k, σ, s0, rest, e, hσ, h1, h2, fun x hx => ?_⟩
    rw [e] at hx
    rcases List.mem_cons.mp hx with rfl | hx
    · rcases h1 with ⟨a, b, c⟩ | ⟨-, a, b, c⟩ <;> rw [a, b, c]
      · linear_combination (-2 * f.k) * hσ2
      · linear_combination (-f.k) * hσ2
    · rcases h2 x hx with ⟨a, b, c⟩ | ⟨-, a, b, c⟩ <;> rw [a, b, c]
      · linear_combination (-2) * hσ2
      · linear_combination (-1) * hσ2
  refine ⟨_, _, hl, ?_, ?_⟩
  · rcases key q0 (by simp) q0.2.2.1 q0.2.2.2 with ⟨k1, k2⟩ | ⟨k0, k1, k2⟩
    · left
      refine ⟨rfl, ?_, ?_⟩
      · change r.rnd (_ * f.k) = _
        rw [k1, mul_assoc, two_mul]
        have : r.rnd (σ * f.k) = σ * f.k := by
          rw [hσ]; split
          · rw [one_mul, hrep]
          · rw [neg_one_mul, hr.odd, hrep]
        rw [hr.double _ this]
      · change r.rnd (_ * f.k) = _
        rw [k2, one_mul, hrep]
    · right
      refine ⟨k0, rfl, ?_, ?_⟩
      · change r.rnd (_ * f.k) = _
        rw [k1, hσ]; split
        · rw [one_mul, hrep]
        · rw [neg_one_mul, hr.odd, hrep]
      · change r.rnd (_ * f.k) = _
        rw [k2, zero_mul, r.zero]
  · intro x hx
    obtain ⟨q, hq, rfl⟩ := List.mem_map.mp hx
    rcases key q (by simp [hq]) q.2.2.1 q.2.2.2 with ⟨k1, k2⟩ | ⟨k0, k1, k2⟩
    · exact .inl ⟨rfl, k1, k2⟩
    · exact .inr ⟨k0, rfl, k1, k2⟩

/-! ### Stability -/

theorem margin {p1 p2 : ℂ} (hp : PairOfRoots p1 p2) {δ : ℝ} (hδ : 0 < δ) (h1 : p1.re ≤ 1 - δ)
    (h2 : p2.re ≤ 1 - δ) : δ ^ 2 ≤ 1 - (p1.re + p2.re) + (p1.re * p2.re - p1.im * p2.im) := by
  have h : δ * δ ≤ (1 - p1.re) * (1 - p2.re) :=
    mul_le_mul (by linarith) (by linarith) hδ.le (by linarith)
  rcases hp with ⟨i1, i2⟩ | rfl
  · rw [i1, i2]; linarith
  · simp only [conj_re, conj_im] at h ⊢
    linarith [mul_self_nonneg p1.im]

/-- Two roots at distance at least `δ` inside the unit circle, in rounded arithmetic. -/
theorem roundedSection_stable (z1 z2 : ℂ) {p1 p2 : ℂ} (hp : PairOfRoots p1 p2) {δ : ℝ} (hδ : 0 < δ)
    (h1 : ‖p1‖ ≤ 1 - δ) (h2 : ‖p2‖ ≤ 1 - δ) (hu : r.u + 2 * r.t ≤ 1) (hm : 5 * r.u + 4 * r.t < δ ^ 2) :
    Stable (roundedSection r z1 z2 p1 p2) := by
  have u0 := r.u_nonneg
  have t0 := r.t_nonneg
  have n1 := norm_nonneg p1
  have n2 := norm_nonneg p2
  -- the exact coefficients
  have hre1 := Complex.abs_re_le_norm p1
  have hre2 := Complex.abs_re_le_norm p2
  have hprod : |p1.re * p2.re| + |p1.im * p2.im| ≤ ‖p1‖ * ‖p2‖ := by
    have s1 : ‖p1‖ ^ 2 = |p1.re| ^ 2 + |p1.im| ^ 2 := by
      rw [← Complex.normSq_eq_norm_sq, Complex.normSq_apply, sq_abs, sq_abs]; ring
    have s2 : ‖p2‖ ^ 2 = |p2.re| ^ 2 + |p2.im| ^ 2 := by
      rw [← Complex.normSq_eq_norm_sq, Complex.normSq_apply, sq_abs, sq_abs]; ring
    rw [abs_mul, abs_mul]
    refine abs_le_of_sq_le_sq' ?_ (by positivity) |>.2
    rw [mul_pow, s1, s2]
    nlinarith [sq_nonneg (|p1.re| * |p2.im| - |p1.im| * |p2.re|)]
  have hP : ‖p1‖ * ‖p2‖ ≤ (1 - δ) ^ 2 := by nlinarith
  have hδ1 : δ ≤ 1 := by linarith
  have hP1 : (1 - δ) ^ 2 ≤ 1 := by nlinarith
  -- the rounding errors
  set x := p1.re * p2.re with hx
  set y := p1.im * p2.im with hy
  have e1 := abs_le.mp (r.err x)
  have e2 := abs_le.mp (r.err y)
  have e3 := abs_le.mp (r.err (r.rnd x - r.rnd y))
  have e4 := abs_le.mp (r.err (p1.re + p2.re))
  have hsum : |p1.re + p2.re| ≤ 2 := (abs_add_le _ _).trans (by linarith)
  have ux : r.u * |x| + r.u * |y| ≤ r.u := by
    rw [← mul_add]
    exact (mul_le_mul_of_nonneg_left (hprod.trans (hP.trans hP1)) u0).trans (mul_one _).le
  have hd1 := (abs_le.mp (show |x - y| ≤ 1 from (abs_sub _ _).trans (hprod.trans (hP.trans hP1))))
  have hin : |r.rnd x - r.rnd y| ≤ 1 + r.u + 2 * r.t := by
    rw [abs_le]; constructor <;> linarith [e1.1, e1.2, e2.1, e2.2]
  have hout : r.u * |r.rnd x - r.rnd y| ≤ 2 * r.u := by
    have := mul_le_mul_of_nonneg_left hin u0
    nlinarith
  have us : r.u * |p1.re + p2.re| ≤ 2 * r.u := by nlinarith
  -- `x - y` is the product of the roots, and `p1.re + p2.re` their sum
  have hxy : x - y ≤ (1 - δ) ^ 2 := by
    have a := le_abs_self x
    have b := neg_abs_le y
    linarith
  have hplus : δ ^ 2 ≤ 1 - (p1.re + p2.re) + (x - y) :=
    margin hp hδ ((le_abs_self _).trans (hre1.trans h1)) ((le_abs_self _).trans (hre2.trans h2))
  have hminus : δ ^ 2 ≤ 1 + (p1.re + p2.re) + (x - y) := by
    have hp' : PairOfRoots (-p1) (-p2) := by
      rcases hp with ⟨i1, i2⟩ | rfl
      · exact .inl ⟨by simp [i1], by simp [i2]⟩
      · exact .inr (by simp)
    have := margin hp' hδ (by rw [neg_re]; exact (neg_le_abs _).trans (hre1.trans h1))
      (by rw [neg_re]; exact (neg_le_abs _).trans (hre2.trans h2))
    simp only [neg_re, neg_im, neg_mul_neg] at this
    linarith
  have := (schur_iff (roundedSection r z1 z2 p1 p2).a1 (roundedSection r z1 z2 p1 p2).a2).mpr ⟨?_, ?_⟩
  · exact this
  · change r.rnd (r.rnd x - r.rnd y) < 1
    have : (1 - δ) ^ 2 ≤ 1 - δ ^ 2 := by nlinarith
    linarith [e1.1, e1.2, e2.1, e2.2, e3.1, e3.2]
  · change |-r.rnd (p1.re + p2.re)| < 1 + r.rnd (r.rnd x - r.rnd y)
    rw [abs_neg, abs_lt]
    constructor <;> linarith [e1.1, e1.2, e2.1, e2.2, e3.1, e3.2, e4.1, e4.2]

/-- **C87**, stability: when every computed pole lies at least `δ` inside the unit circle, where `δ²` exceeds
`5 u + 4 t` (for `f64` about `2.4e-8`, for `f32` about `5.5e-4`), the computed sections are stable.  Then filtering
with them in any sufficiently precise arithmetic stays within a constant times the precision of exact filtering. -/
theorem C87_stable_partial (hr : r.Nearest) (m : Libm) {s : Sorts} (hs : s.Correct) (order : ℕ) (ho : order ≠ 0)
    (wn : List ℝ) (rp rs : Option ℝ) (btype : Option Band) (ftype : Option FType) (analog : Option Bool)
    (han : analog.getD false = false) (fs : Option ℝ)
    (hk : KeepsPairs (btype.getD .bandpass) (ftype.getD .butterworth)) {l : List (Sos ℝ)}
    (h : Rounded.iirfilter (.ofRounding r m) s order wn rp rs btype ftype analog (some .sos) fs = .ok (.sos l))
    {f : Zpk}
    (hf : Rounded.iirfilter (.ofRounding r m) s order wn rp rs btype ftype analog (some .zpk) fs = .ok (.zpk f))
    {δ : ℝ} (hδ : 0 < δ) (hin : ∀ p ∈ f.p, ‖p‖ ≤ 1 - δ) (hu : r.u + 2 * r.t ≤ 1)
    (hm : 5 * r.u + 4 * r.t < δ ^ 2) :
    (∀ x ∈ l, Stable x) ∧
      ∃ K u0 : ℝ, 0 < u0 ∧ ∀ (r' : Rounding), r'.u ≤ u0 → ∀ L : ℝ, ∀ x : List ℝ, (∀ v ∈ x, |v| ≤ L) →
        ∀ i (_ : i < x.length),
        |((sosfiltDyn (x.map (Fl.mk (r := r'))) (l.map (flSection r'))).1.getD i 0).val
          - (sosfiltDyn x l).1.getD i 0| ≤ K * (r'.u * L + r'.t) := by
  obtain ⟨f', hf', -, -, hc, -, q0, qs, hl, hq, -, hP⟩ :=
    C87_coefficients hr m hs order ho wn rp rs btype ftype analog han fs hk h
  rw [hf] at hf'
  simp only [Except.ok.injEq, Filter.zpk.injEq] at hf'
  subst hf'
  have hpos : 0 < f.p.length := by
    rw [hc]; unfold poleCount; split <;> omega
  have hδ1 : δ ≤ 1 := by
    have := hin _ (List.getElem_mem hpos)
    linarith [norm_nonneg f.p[0]]
  have hin' : ∀ p ∈ f.p ++ List.replicate (f.p.length % 2) 0, ‖p‖ ≤ 1 - δ := fun p hp =>
    (List.mem_append.mp hp).elim (hin p) (fun h => by rw [(List.mem_replicate.mp h).2, norm_zero]; linarith)
  have st : ∀ q ∈ q0 :: qs, Stable (roundedSection r q.1 q.2.1 q.2.2.1 q.2.2.2) := fun q hm' =>
    roundedSection_stable _ _ (hq q hm').2 hδ (hin' _ (hP.subset (List.mem_flatMap.mpr ⟨q, hm', by simp⟩)))
      (hin' _ (hP.subset (List.mem_flatMap.mpr ⟨q, hm', by simp⟩))) hu hm
  have stl : ∀ x ∈ l, Stable x := by
    intro x hx
    rw [hl] at hx
    rcases List.mem_cons.mp hx with rfl | hx
    · exact st q0 (by simp)
    · obtain ⟨q, hq', rfl⟩ := List.mem_map.mp hx
      exact st q (by simp [hq'])
  refine ⟨stl, ?_⟩
  obtain ⟨K, u0, hu0, H⟩ := C72_error_bounded _ stl
  refine ⟨K, u0, hu0, fun r' hr' L x hx i hi => ?_⟩
  have hL : 0 ≤ L := (abs_nonneg _).trans (hx x[i] (List.getElem_mem hi))
  refine (H r' hr' L (fun y hy => ?_) x hx).2 i hi
  have hz : y.zi0 = 0 ∧ y.zi1 = 0 := by
    rw [hl] at hy
    rcases List.mem_cons.mp hy with rfl | hy
    · exact ⟨rfl, rfl⟩
    · obtain ⟨q, -, rfl⟩ := List.mem_map.mp hy
      exact ⟨rfl, rfl⟩
  rw [hz.1, hz.2, abs_zero]
  exact ⟨hL, hL⟩

/-- The precisions: `f64` asks for a margin above `2.4e-8`, `f32` for one above `5.5e-4`. -/
example : (binary64.u + 2 * binary64.t ≤ 1 ∧ 5 * binary64.u + 4 * binary64.t < (24 / 10 ^ 9 : ℝ) ^ 2) ∧
    (binary32.u + 2 * binary32.t ≤ 1 ∧ 5 * binary32.u + 4 * binary32.t < (55 / 10 ^ 5 : ℝ) ^ 2) := by
  have h1 : binary64.u = 2 ^ (-53 : ℤ) := rfl
  have h2 : binary64.t = 2 ^ (-1075 : ℤ) := rfl
  have h3 : binary32.u = 2 ^ (-24 : ℤ) := rfl
  have h4 : binary32.t = 2 ^ (-150 : ℤ) := rfl
  have h5 : (2 : ℝ) ^ (-1075 : ℤ) ≤ 2 ^ (-100 : ℤ) := zpow_le_zpow_right₀ (by norm_num) (by norm_num)
  have h6 : (2 : ℝ) ^ (-150 : ℤ) ≤ 2 ^ (-100 : ℤ) := zpow_le_zpow_right₀ (by norm_num) (by norm_num)
  rw [h1, h2, h3, h4]
  have e1 : (2 : ℝ) ^ (-53 : ℤ) = 1 / 2 ^ 53 := by rw [zpow_neg]; norm_num
  have e2 : (2 : ℝ) ^ (-24 : ℤ) = 1 / 2 ^ 24 := by rw [zpow_neg]; norm_num
  have e3 : (2 : ℝ) ^ (-100 : ℤ) = 1 / 2 ^ 100 := by rw [zpow_neg]; norm_num
  rw [e3] at h5 h6
  rw [e1, e2]
  refine ⟨⟨?_, ?_⟩, ?_, ?_⟩ <;> norm_num1 at h5 h6 ⊢ <;> linarith

end SciRs.Props

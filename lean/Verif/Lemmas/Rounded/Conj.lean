import Verif.Spec.ArithLaws
import Verif.Model.Rounded.Zpk
import Verif.Lemmas.Design.Prototype
import Verif.Props.Design.Prototype

/-! # Lemmas: conjugation through the rounded design pipeline -/

namespace SciRs.Rounded

open Complex SciRs.Design SciRs.Spec

variable {A : Arith}

theorem conj_mk (x y : ℝ) : (starRingEnd ℂ) (⟨x, y⟩ : ℂ) = ⟨x, -y⟩ := rfl

theorem conj_I' : (starRingEnd ℂ) I = -I := conj_I

theorem buttap_conj (hA : A.Lawful) (n : ℕ) : ConjClosed (buttap A n).p := by
  refine conjClosed_sym (neg_stepRange_sym n) (fun m => ?_)
  rw [map_neg, hA.conj_cexp, conj_mk, hA.ofInt_neg, hA.mul_neg, hA.neg_div]

theorem cheb1Poles_conj (hA : A.Lawful) (n : ℕ) (mu : ℝ) : ConjClosed (cheb1Poles A n mu) := by
  refine conjClosed_sym (neg_stepRange_sym n) (fun m => ?_)
  rw [map_neg, hA.conj_csinh, conj_mk, hA.ofInt_neg, hA.neg_div, hA.mul_neg]

theorem cheb1ap_conj (hA : A.Lawful) (n : ℕ) (rp : ℝ) : ConjClosed (cheb1ap A n rp).p := by
  unfold cheb1ap
  split
  · exact conjClosed_nil
  · exact cheb1Poles_conj hA _ _

theorem cheb2Ms_neg (n : ℕ) : ((cheb2Ms n).map (fun m => -m)).Perm (cheb2Ms n) := by
  unfold cheb2Ms
  split
  · rename_i h
    rw [List.map_append]
    refine List.Perm.trans ?_ List.perm_append_comm
    refine List.Perm.append ?_ ?_
    · exact neg_stepRange ((n - 1) / 2) (by omega) _ (by omega) (by omega)
    · exact neg_stepRange ((n - 1) / 2) (by omega) _ (by omega) (by omega)
  · rw [List.map_append]
    refine List.Perm.append (neg_stepRange_sym n) ?_
    simp [stepRange]

theorem cheb2Zeros_conj (hA : A.Lawful) (n : ℕ) : ConjClosed (cheb2Zeros A n) := by
  refine conjClosed_sym (cheb2Ms_neg n) (fun m => ?_)
  rw [map_neg, hA.ofInt_neg, hA.neg_mul, hA.sin_neg, ofReal_neg]
  simp only [hA.neg_cdiv, hA.cdiv_neg, map_neg, hA.conj_cdiv, conj_ofReal, conj_I', neg_neg]

theorem cheb2Poles_conj (hA : A.Lawful) (n : ℕ) (mu : ℝ) : ConjClosed (cheb2Poles A n mu) := by
  refine conjClosed_sym (neg_stepRange_sym n) (fun m => ?_)
  dsimp only
  rw [hA.ofInt_neg, hA.mul_neg, hA.neg_div, ← conj_mk, ← hA.conj_cexp, hA.conj_cdiv, map_one, conj_mk, neg_re,
    neg_im, neg_re, neg_im, conj_re, conj_im, neg_neg, hA.mul_neg, hA.mul_neg, neg_neg]

theorem cheb2ap_conj (hA : A.Lawful) (n : ℕ) (rs : ℝ) :
    ConjClosed (cheb2ap A n rs).z ∧ ConjClosed (cheb2ap A n rs).p := by
  unfold cheb2ap
  split
  · exact ⟨conjClosed_nil, conjClosed_nil⟩
  · exact ⟨cheb2Zeros_conj hA _, cheb2Poles_conj hA _ _⟩

theorem splitPm_eq (l : List ℂ) (wo : ℝ) :
    splitPm A l wo = l.map (fun a => A.cadd a (A.csqrt (A.csub (A.csq a) (A.powi wo 2 : ℝ)))) ++
      l.map (fun a => A.csub a (A.csqrt (A.csub (A.csq a) (A.powi wo 2 : ℝ)))) := by
  simp [splitPm, List.map_map, Function.comp_def]

theorem splitPm_length (l : List ℂ) (wo : ℝ) : (splitPm A l wo).length = 2 * l.length := by
  simp [splitPm]; omega

theorem splitPm_conj (hA : A.Lawful) {l : List ℂ} (h : ConjClosed l) (wo : ℝ) : ConjClosed (splitPm A l wo) := by
  unfold ConjClosed at *
  rw [splitPm_eq]
  generalize (A.powi wo 2 : ℝ) = w
  have hp := perm_append_flat l (fun a => A.cadd a (A.csqrt (A.csub (A.csq a) (w : ℂ))))
    (fun a => A.csub a (A.csqrt (A.csub (A.csq a) (w : ℂ))))
  refine (hp.map _).trans (List.Perm.trans ?_ hp.symm)
  rw [List.map_flatMap]
  have hq : ∀ a, ([A.cadd a (A.csqrt (A.csub (A.csq a) (w : ℂ))),
        A.csub a (A.csqrt (A.csub (A.csq a) (w : ℂ)))].map (starRingEnd ℂ)).Perm
      [A.cadd ((starRingEnd ℂ) a) (A.csqrt (A.csub (A.csq ((starRingEnd ℂ) a)) (w : ℂ))),
        A.csub ((starRingEnd ℂ) a) (A.csqrt (A.csub (A.csq ((starRingEnd ℂ) a)) (w : ℂ)))] := by
    intro a
    have e : A.csub (A.csq ((starRingEnd ℂ) a)) (w : ℂ) = (starRingEnd ℂ) (A.csub (A.csq a) (w : ℂ)) := by
      rw [hA.conj_csub, hA.conj_csq, conj_ofReal]
    rw [e]
    simp only [List.map_cons, List.map_nil, hA.conj_cadd, hA.conj_csub a]
    rcases hA.conj_csqrt (A.csub (A.csq a) (w : ℂ)) with h4 | ⟨h4, -⟩
    · rw [h4]
    · rw [h4, hA.cadd_neg, hA.csub_neg]
      exact List.Perm.swap _ _ _
  refine (perm_flatMap_congr l _ _ hq).trans ?_
  rw [show l.flatMap (fun a => [A.cadd ((starRingEnd ℂ) a) (A.csqrt (A.csub (A.csq ((starRingEnd ℂ) a)) (w : ℂ))),
        A.csub ((starRingEnd ℂ) a) (A.csqrt (A.csub (A.csq ((starRingEnd ℂ) a)) (w : ℂ)))]) =
      (l.map (starRingEnd ℂ)).flatMap (fun a => [A.cadd a (A.csqrt (A.csub (A.csq a) (w : ℂ))),
        A.csub a (A.csqrt (A.csub (A.csq a) (w : ℂ)))]) by rw [List.flatMap_map]]
  exact h.flatMap_right _

/-- What one stage keeps: real coefficients and at least as many poles as zeros, with the counts given. -/
structure Good (f : Zpk) (nz np : ℕ) : Prop where
  z : ConjClosed f.z
  p : ConjClosed f.p
  nz : f.z.length = nz
  np : f.p.length = np

theorem relDeg_ok {f : Zpk} (h : f.z.length ≤ f.p.length) :
    relativeDegree f.z f.p = .ok (f.p.length - f.z.length) := relativeDegree_ok h

theorem lp2lp_good (hA : A.Lawful) {f : Zpk} {nz np : ℕ} (h : Good f nz np) (hle : nz ≤ np) (wo : ℝ) :
    ∃ g, lp2lp A f (some wo) = .ok g ∧ Good g nz np := by
  unfold lp2lp
  rw [relativeDegree_ok (by rw [h.nz, h.np]; exact hle)]
  refine ⟨_, rfl, ⟨conjClosed_map h.z fun x => ?_, conjClosed_map h.p fun x => ?_, ?_, ?_⟩⟩
  · rw [hA.conj_cmul, conj_ofReal]
  · rw [hA.conj_cmul, conj_ofReal]
  · simp [h.nz]
  · simp [h.np]

theorem lp2hp_good (hA : A.Lawful) {f : Zpk} {np : ℕ} (h : Good f 0 np) (wo : ℝ) :
    ∃ g, lp2hp A f (some wo) = .ok g ∧ Good g np np ∧ ∀ z ∈ g.z, z = 0 := by
  have hz : f.z = [] := List.length_eq_zero_iff.mp h.nz
  unfold lp2hp
  rw [relativeDegree_ok (by rw [h.nz]; exact Nat.zero_le _)]
  refine ⟨_, rfl, ⟨?_, conjClosed_map h.p fun x => ?_, ?_, ?_⟩, ?_⟩
  · rw [hz]
    exact conjClosed_append conjClosed_nil (by simpa using conjClosed_replicate_real _ 0)
  · rw [hA.conj_cdiv, conj_ofReal]
  · simp [hz, h.np]
  · simp [h.np]
  · intro z hm
    rw [hz] at hm
    simp at hm
    exact hm.2

theorem lp2bp_good (hA : A.Lawful) {f : Zpk} {nz np : ℕ} (h : Good f nz np) (hle : nz ≤ np) (wo bw : ℝ) :
    ∃ g, lp2bp A f (some wo) (some bw) = .ok g ∧ Good g (np + nz) (2 * np) := by
  unfold lp2bp
  rw [relativeDegree_ok (by rw [h.nz, h.np]; exact hle)]
  refine ⟨_, rfl, ⟨conjClosed_append (splitPm_conj hA (conjClosed_map h.z fun x => ?_) _)
    (by simpa using conjClosed_replicate_real _ 0), splitPm_conj hA (conjClosed_map h.p fun x => ?_) _, ?_, ?_⟩⟩
  · rw [hA.conj_cmul, conj_ofReal]
  · rw [hA.conj_cmul, conj_ofReal]
  · dsimp only
    rw [List.length_append, splitPm_length, List.length_map, List.length_replicate, h.nz, h.np]; omega
  · dsimp only
    rw [splitPm_length, List.length_map, h.np]

theorem lp2bs_good (hA : A.Lawful) {f : Zpk} {np : ℕ} (h : Good f 0 np) (wo bw : ℝ) :
    ∃ g, lp2bs A f (some wo) (some bw) = .ok g ∧ Good g (2 * np) (2 * np) := by
  have hz : f.z = [] := List.length_eq_zero_iff.mp h.nz
  unfold lp2bs
  rw [relativeDegree_ok (by rw [h.nz]; exact Nat.zero_le _)]
  refine ⟨_, rfl, ⟨?_, splitPm_conj hA (conjClosed_map h.p fun x => ?_) _, ?_, ?_⟩⟩
  · dsimp only [Option.getD_some]
    rw [hz]
    simp only [bsZeros, List.map_nil, List.nil_append, ConjClosed, List.map_append, List.map_replicate, conj_mk,
      hA.neg_mul, neg_neg]
    exact List.perm_append_comm
  · rw [hA.conj_cmul, hA.conj_cdiv, conj_mk, map_neg, conj_I', neg_neg]
    have e : (⟨0, -(A.div bw 2)⟩ : ℂ) = -⟨0, A.div bw 2⟩ := by apply Complex.ext <;> simp
    dsimp only [Option.getD_some]
    rw [e, hA.neg_cdiv, hA.neg_cmul, hA.cmul_neg]
  · dsimp only
    rw [hz]
    simp [bsZeros, h.np]; omega
  · dsimp only
    rw [splitPm_length, List.length_map, h.np]

theorem bilinear_good (hA : A.Lawful) {f : Zpk} {nz np : ℕ} (h : Good f nz np) (hle : nz ≤ np) (fs : ℝ) :
    ∃ g, bilinear A f fs = .ok g ∧ Good g np np ∧ (∀ x ∈ g.z, A.Rep x) ∧ (∀ x ∈ g.p, A.Rep x) := by
  unfold bilinear
  rw [relativeDegree_ok (by rw [h.nz, h.np]; exact hle)]
  refine ⟨_, rfl, ⟨conjClosed_append (conjClosed_map h.z fun x => ?_)
    (by simpa using conjClosed_replicate_real _ (-1)), conjClosed_map h.p fun x => ?_, ?_, ?_⟩, ?_, ?_⟩
  · rw [hA.conj_cdiv, hA.conj_cadd, hA.conj_csub, conj_ofReal]
  · rw [hA.conj_cdiv, hA.conj_cadd, hA.conj_csub, conj_ofReal]
  · dsimp only
    rw [List.length_append, List.length_map, List.length_replicate, h.nz, h.np]; omega
  · simp [h.np]
  · intro x hx
    rcases List.mem_append.mp hx with hx | hx
    · obtain ⟨y, -, rfl⟩ := List.mem_map.mp hx
      exact hA.rep_cdiv _ _
    · rw [(List.mem_replicate.mp hx).2]
      exact ⟨by simpa using hA.rep_neg_one, by simpa using hA.rep_zero⟩
  · intro x hx
    obtain ⟨y, -, rfl⟩ := List.mem_map.mp hx
    exact hA.rep_cdiv _ _

end SciRs.Rounded

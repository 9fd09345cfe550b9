import Verif.Props.Convolve

/-!
# Unit tests of `convolve` and `correlate`, run on the model

Tests of the transcription, not properties.  The model of the transform is over ℝ, so the expected values of the
repository's tests are derived from C35, C36 and C37.
-/

namespace SciRs.Conformance

open SciRs.Props
open SciRs.Spec SciRs.Signal

/-- `test_convolve` (`convolve.rs:129-138`). -/
example : convolve cfg64 [1, 2, 3] [4, 5, 6] .full = .ok [4, 13, 28, 27, 18] := by
  obtain ⟨o, h1, h2, h3⟩ := C35_full_is_convolution cfg64 [1, 2, 3] [4, 5, 6] (by simp [IsSlice, cfg64])
    (by simp [IsSlice, cfg64]) (by simp)
  rw [C35_convolve_eq, h1]
  congr 1
  refine ext_getD (by simpa using h2) (fun m hm => ?_)
  rw [h3 m hm]
  have hm : m < 5 := by simpa [h2] using hm
  interval_cases m <;> (simp [convAt, Finset.sum_range_succ]; try norm_num)

/-- `test_correlate` (`convolve.rs:141-149`). -/
example : correlate cfg64 [1, 2, 3] [4, 5, 6] .full = .ok [6, 17, 32, 23, 12] := by
  obtain ⟨o, h1, h2, h3⟩ := C35_full_is_convolution cfg64 [1, 2, 3] [6, 5, 4] (by simp [IsSlice, cfg64])
    (by simp [IsSlice, cfg64]) (by simp)
  rw [C37_correlate_eq, C35_convolve_eq, show ([4, 5, 6] : List ℝ).reverse = [6, 5, 4] by simp, h1]
  congr 1
  refine ext_getD (by simpa using h2) (fun m hm => ?_)
  rw [h3 m hm]
  have hm : m < 5 := by simpa [h2] using hm
  interval_cases m <;> (simp [convAt, Finset.sum_range_succ]; try norm_num)

/-- `test_convolve_valid` (`convolve.rs:152-160`). -/
example : convolve cfg64 [1, 2, 3, 4] [1, 2] .valid = .ok [4, 7, 10] := by
  obtain ⟨o, h1, h2, h3⟩ := C36_valid cfg64 [1, 2, 3, 4] [1, 2] (by simp [IsSlice, cfg64])
    (by simp [IsSlice, cfg64]) (by simp) (by simp)
  rw [C35_convolve_eq, h1]
  congr 1
  refine ext_getD (by simpa using h2) (fun m hm => ?_)
  rw [h3 m hm]
  have hm : m < 3 := by simpa [h2] using hm
  interval_cases m <;> (simp [Finset.sum_range_succ]; try norm_num)

/-- `test_convolve_same` (`convolve.rs:163-171`). -/
example : convolve cfg64 [1, 2, 3, 4] [1, 2, 1] .same = .ok [4, 8, 12, 11] := by
  obtain ⟨f, o, h1, h2, h3, b, a, h4, h5, h6⟩ := C36_same cfg64 [1, 2, 3, 4] [1, 2, 1] (by simp [IsSlice, cfg64])
    (by simp [IsSlice, cfg64]) (by simp)
  obtain ⟨f', h1', hl, hf⟩ := C35_full_is_convolution cfg64 [1, 2, 3, 4] [1, 2, 1] (by simp [IsSlice, cfg64])
    (by simp [IsSlice, cfg64]) (by simp)
  obtain rfl : f = f' := by rw [h1] at h1'; exact Except.ok.inj h1'
  rw [C35_convolve_eq, h2]
  congr 1
  have hb : b.length = 1 := by simpa using h5
  refine ext_getD (by simpa using h3) (fun m hm => ?_)
  have e : o.getD m 0 = f.getD (1 + m) 0 := by
    rw [h4, List.append_assoc, List.getD_append_right _ _ _ _ (by omega), hb, Nat.add_sub_cancel_left,
      List.getD_append _ _ _ _ hm]
  have hm : m < 4 := by simpa [h3] using hm
  rw [e, hf _ (by rw [hl]; simp; omega)]
  interval_cases m <;> (simp [convAt, Finset.sum_range_succ]; try norm_num)

end SciRs.Conformance

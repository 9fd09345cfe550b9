import Verif.Props.Convolve
import Verif.Props.SosfiltAlgebra
import Verif.Props.Savgol
import Verif.Props.Moments

/-!
# C107: the algebra of convolution, and convolution against the other modules
-/

namespace SciRs.Props

open SciRs SciRs.Spec SciRs.Signal PowerSeries

theorem coeff_signal (x : List ℝ) (m : ℕ) : coeff m (signal x) = x.getD m 0 := by
  simp [signal]

theorem convAt_eq_coeff (x y : List ℝ) (m : ℕ) : convAt x y m = coeff m (signal x * signal y) := by
  rw [coeff_mul, Finset.Nat.sum_antidiagonal_eq_sum_range_succ_mk]
  unfold convAt
  refine Finset.sum_congr rfl (fun i _ => ?_)
  rw [coeff_signal, coeff_signal]

theorem signal_ext {u v : List ℝ} (hl : u.length = v.length) (h : signal u = signal v) : u = v := by
  refine ext_getD hl (fun m _ => ?_)
  rw [← coeff_signal, ← coeff_signal, h]

/-- Full convolution multiplies the signals as power series. -/
theorem fftconvolve_signal (c : Cfg) (x y : List ℝ) (hx : IsSlice c x) (hy : IsSlice c y)
    (hne : x ≠ [] ∨ y ≠ []) :
    ∃ out, fftconvolve c x y .full = .ok out ∧ out.length = x.length + y.length - 1 ∧
      signal out = signal x * signal y := by
  obtain ⟨o, h1, h2, h3⟩ := C35_full_is_convolution c x y hx hy hne
  refine ⟨o, h1, h2, ?_⟩
  ext m
  rw [coeff_signal, ← convAt_eq_coeff]
  by_cases hm : m < o.length
  · exact h3 m hm
  · rw [List.getD_eq_default _ _ (by omega), convAt_eq_double]
    refine (Finset.sum_eq_zero (fun i hi => Finset.sum_eq_zero (fun j hj => ?_))).symm
    have := Finset.mem_range.mp hi
    have := Finset.mem_range.mp hj
    rw [if_neg (by omega)]

/-- The result of a full convolution, read backwards. -/
theorem of_fftconvolve (c : Cfg) (x y : List ℝ) (hx : IsSlice c x) (hy : IsSlice c y)
    (hne : x ≠ [] ∨ y ≠ []) (out : List ℝ) (h : fftconvolve c x y .full = .ok out) :
    out.length = x.length + y.length - 1 ∧ signal out = signal x * signal y := by
  obtain ⟨o, h1, h2, h3⟩ := fftconvolve_signal c x y hx hy hne
  rw [h1] at h
  injection h with h
  subst h
  exact ⟨h2, h3⟩

/-- **C107** Full convolution is associative (for signals that are not empty, when the intermediate results
fit into memory). -/
theorem C107_assoc (c : Cfg) (x y z : List ℝ) (hx : IsSlice c x) (hy : IsSlice c y) (hz : IsSlice c z)
    (hxn : x ≠ []) (hyn : y ≠ []) (hzn : z ≠ []) (xy yz : List ℝ)
    (h1 : fftconvolve c x y .full = .ok xy) (h2 : fftconvolve c y z .full = .ok yz)
    (hxy : IsSlice c xy) (hyz : IsSlice c yz) :
    ∃ out, fftconvolve c xy z .full = .ok out ∧ fftconvolve c x yz .full = .ok out := by
  obtain ⟨l1, s1⟩ := of_fftconvolve c x y hx hy (Or.inl hxn) xy h1
  obtain ⟨l2, s2⟩ := of_fftconvolve c y z hy hz (Or.inl hyn) yz h2
  obtain ⟨o, e1, l3, s3⟩ := fftconvolve_signal c xy z hxy hz (Or.inr hzn)
  obtain ⟨o', e2, l4, s4⟩ := fftconvolve_signal c x yz hx hyz (Or.inl hxn)
  have p1 := List.length_pos_iff.mpr hxn
  have p2 := List.length_pos_iff.mpr hyn
  have p3 := List.length_pos_iff.mpr hzn
  have : o = o' := signal_ext (by omega) (by rw [s3, s4, s1, s2, mul_assoc])
  exact ⟨o, e1, by rw [e2, this]⟩

/-- The hypotheses of `C107_assoc` are met on a 64-bit target. -/
example : ∃ xy yz out, fftconvolve ⟨64, true, by decide⟩ [1, 2] [3, 4] .full = .ok xy ∧
    fftconvolve ⟨64, true, by decide⟩ [3, 4] [5] .full = .ok yz ∧
    fftconvolve ⟨64, true, by decide⟩ xy [5] .full = .ok out ∧
    fftconvolve ⟨64, true, by decide⟩ [1, 2] yz .full = .ok out := by
  have sl : ∀ l : List ℝ, l.length ≤ 3 → IsSlice ⟨64, true, by decide⟩ l := by
    intro l hl
    unfold IsSlice
    have : 4 * l.length ≤ 12 := by omega
    exact lt_of_le_of_lt this (by norm_num)
  obtain ⟨xy, h1, l1, -⟩ := fftconvolve_signal ⟨64, true, by decide⟩ [1, 2] [3, 4]
    (sl _ (by simp)) (sl _ (by simp)) (by simp)
  obtain ⟨yz, h2, l2, -⟩ := fftconvolve_signal ⟨64, true, by decide⟩ [3, 4] [5]
    (sl _ (by simp)) (sl _ (by simp)) (by simp)
  obtain ⟨out, h3, h4⟩ := C107_assoc ⟨64, true, by decide⟩ [1, 2] [3, 4] [5] (sl _ (by simp))
    (sl _ (by simp)) (sl _ (by simp)) (by simp) (by simp) (by simp) xy yz h1 h2
    (sl _ (by rw [l1]; simp)) (sl _ (by rw [l2]; simp))
  exact ⟨xy, yz, out, h1, h2, h3, h4⟩

theorem getD_lin (α β : ℝ) (u v : List ℝ) (hl : u.length = v.length) (m : ℕ) :
    (lin α β u v).getD m 0 = α * u.getD m 0 + β * v.getD m 0 := by
  unfold lin
  by_cases hm : m < u.length
  · rw [List.getD_eq_getElem _ _ (by simp; omega), List.getD_eq_getElem _ _ hm,
      List.getD_eq_getElem _ _ (by omega)]
    simp
  · rw [List.getD_eq_default _ _ (by simp; omega), List.getD_eq_default _ _ (by omega),
      List.getD_eq_default _ _ (by omega)]
    ring

theorem signal_lin (α β : ℝ) (u v : List ℝ) (hl : u.length = v.length) :
    signal (lin α β u v) = C α * signal u + C β * signal v := by
  ext m
  rw [coeff_signal, map_add, coeff_C_mul, coeff_C_mul, coeff_signal, coeff_signal,
    getD_lin α β u v hl]

/-- **C107** Full convolution is linear in the first input, and so (C35: it is commutative) in the
second. -/
theorem C107_linear (c : Cfg) (α β : ℝ) (x x' y : List ℝ) (hl : x.length = x'.length)
    (hx : IsSlice c x) (hy : IsSlice c y) (hne : x ≠ []) :
    ∃ o o', fftconvolve c x y .full = .ok o ∧ fftconvolve c x' y .full = .ok o' ∧
      o.length = o'.length ∧
      fftconvolve c (List.zipWith (fun u v => α * u + β * v) x x') y .full =
        .ok (List.zipWith (fun u v => α * u + β * v) o o') := by
  have hx' : IsSlice c x' := by unfold IsSlice at *; omega
  have hne' : x' ≠ [] := by
    intro h0; rw [h0] at hl; exact hne (List.length_eq_zero_iff.mp (by simpa using hl))
  obtain ⟨o, e1, l1, s1⟩ := fftconvolve_signal c x y hx hy (Or.inl hne)
  obtain ⟨o', e2, l2, s2⟩ := fftconvolve_signal c x' y hx' hy (Or.inl hne')
  have hll : (lin α β x x').length = x.length := by simp [lin, hl]
  obtain ⟨w, e3, l3, s3⟩ := fftconvolve_signal c (lin α β x x') y
    (by unfold IsSlice at *; rw [hll]; exact hx) hy
    (Or.inl (by intro h0; rw [h0] at hll; exact hne (List.length_eq_zero_iff.mp hll.symm)))
  refine ⟨o, o', e1, e2, by omega, ?_⟩
  show fftconvolve c (lin α β x x') y .full = .ok (lin α β o o')
  rw [e3]
  congr 1
  refine signal_ext ?_ ?_
  · rw [l3, hll]; simp [lin]; omega
  · rw [s3, signal_lin _ _ _ _ hl, signal_lin _ _ _ _ (by omega), s1, s2]
    ring

theorem signal_replicate_zero (k : ℕ) (x : List ℝ) :
    signal (List.replicate k 0 ++ x) = X ^ k * signal x := by
  induction k with
  | zero => simp
  | succ k ih =>
    rw [List.replicate_succ, List.cons_append, signal_cons, ih]
    simp [pow_succ']
    ring

theorem signal_append_zero (x : List ℝ) (k : ℕ) : signal (x ++ List.replicate k 0) = signal x := by
  ext m
  rw [coeff_signal, coeff_signal]
  by_cases hm : m < x.length
  · rw [List.getD_append _ _ _ _ hm]
  · rw [List.getD_append_right _ _ _ _ (by omega), List.getD_eq_default x _ (by omega)]
    by_cases h2 : m - x.length < k
    · rw [List.getD_eq_getElem _ _ (by simpa using h2)]; simp
    · rw [List.getD_eq_default _ _ (by simp; omega)]

/-- **C107** Convolving with a unit impulse at position `k`, followed by `j` zeros, delays the signal by `k`
samples and appends `j` zeros. In particular `[1]` is neutral. -/
theorem C107_impulse (c : Cfg) (x : List ℝ) (k j : ℕ) (hx : IsSlice c x) (hne : x ≠ [])
    (hk : IsSlice c (List.replicate k 0 ++ 1 :: List.replicate j 0)) :
    fftconvolve c x (List.replicate k 0 ++ 1 :: List.replicate j 0) .full =
      .ok (List.replicate k 0 ++ x ++ List.replicate j 0) := by
  obtain ⟨o, e, l, s⟩ := fftconvolve_signal c x _ hx hk (Or.inl hne)
  rw [e]
  congr 1
  have p := List.length_pos_iff.mpr hne
  refine signal_ext (by rw [l]; simp; omega) ?_
  rw [s, signal_append_zero, signal_replicate_zero, signal_replicate_zero, signal_cons]
  have : signal (List.replicate j (0 : ℝ)) = 0 := by
    simpa [signal_nil] using signal_append_zero [] j
  rw [this]
  simp
  ring

/-- **C107** In Same mode a centred unit impulse returns the signal. -/
theorem C107_impulse_same (c : Cfg) (x : List ℝ) (k : ℕ) (hx : IsSlice c x) (hne : x ≠ [])
    (hk : IsSlice c (List.replicate k 0 ++ 1 :: List.replicate k 0)) :
    fftconvolve c x (List.replicate k 0 ++ 1 :: List.replicate k 0) .same = .ok x := by
  have hl : (List.replicate k (0 : ℝ) ++ 1 :: List.replicate k 0).length = 2 * k + 1 := by
    simp; omega
  obtain ⟨full, out, e1, e2, lo, bef, aft, hf, hb, -⟩ := C36_same c x _ hx hk (by omega)
  rw [C107_impulse c x k k hx hne hk] at e1
  injection e1 with e1
  rw [e2]
  congr 1
  rw [← e1, List.append_assoc, List.append_assoc] at hf
  rw [hl] at hb
  have h1 := List.append_inj hf (by simp; omega)
  have h2 := List.append_inj h1.2 (by omega)
  exact h2.1.symm

/-- **C107** Exchanging the inputs of a full correlation reverses its result. -/
theorem C107_correlate_swap (c : Cfg) (x y : List ℝ) (hx : IsSlice c x) (hy : IsSlice c y)
    (hxn : x ≠ []) (hyn : y ≠ []) :
    ∃ out, correlate c x y .full = .ok out ∧ correlate c y x .full = .ok out.reverse := by
  obtain ⟨o, e1, l1, v1⟩ := C37_correlate_full c x y hx hy (Or.inl hxn)
  obtain ⟨o', e2, l2, v2⟩ := C37_correlate_full c y x hy hx (Or.inl hyn)
  have p1 := List.length_pos_iff.mpr hxn
  have p2 := List.length_pos_iff.mpr hyn
  refine ⟨o, e1, ?_⟩
  rw [e2]
  congr 1
  refine ext_getD (by simp; omega) (fun m hm => ?_)
  have e : o.reverse.getD m 0 = o.getD (o.length - 1 - m) 0 := by
    rw [List.getD_eq_getElem _ _ (by simp; omega), List.getD_eq_getElem _ _ (by omega),
      List.getElem_reverse]
  rw [v2 m hm, e, v1 _ (by omega), corrAt_swap]
  congr 1
  omega

theorem sum_eq_range (l : List ℝ) (n : ℕ) (h : l.length ≤ n) :
    l.sum = ∑ i ∈ Finset.range n, l.getD i 0 := by
  induction l generalizing n with
  | nil => simp
  | cons a l ih =>
    obtain ⟨n, rfl⟩ : ∃ k, n = k + 1 := ⟨n - 1, by simp at h; omega⟩
    rw [List.sum_cons, Finset.sum_range_succ', ih n (by simpa using h)]
    simp [add_comm]

/-- **C107** The sum of a full convolution is the product of the sums. -/
theorem C107_sum (c : Cfg) (x y : List ℝ) (hx : IsSlice c x) (hy : IsSlice c y)
    (hne : x ≠ [] ∨ y ≠ []) :
    ∃ out, fftconvolve c x y .full = .ok out ∧ out.sum = x.sum * y.sum := by
  obtain ⟨o, h1, h2, h3⟩ := C35_full_is_convolution c x y hx hy hne
  refine ⟨o, h1, ?_⟩
  rw [sum_eq_range o o.length le_rfl, sum_eq_range x x.length le_rfl, sum_eq_range y y.length le_rfl,
    Finset.sum_mul_sum, Finset.sum_congr rfl (fun m hm => by
      rw [h3 m (Finset.mem_range.mp hm), convAt_eq_double]), Finset.sum_comm]
  refine Finset.sum_congr rfl (fun i hi => ?_)
  rw [Finset.sum_comm]
  refine Finset.sum_congr rfl (fun j hj => ?_)
  have := Finset.mem_range.mp hi
  have := Finset.mem_range.mp hj
  rw [Finset.sum_ite_eq, if_pos (Finset.mem_range.mpr (by omega))]

/-- **C107** Young's inequality: the absolute values of a full convolution add up to at most the product of
those of the inputs. -/
theorem C107_young (c : Cfg) (x y : List ℝ) (hx : IsSlice c x) (hy : IsSlice c y)
    (hne : x ≠ [] ∨ y ≠ []) :
    ∃ out, fftconvolve c x y .full = .ok out ∧
      (out.map (fun v => |v|)).sum ≤ (x.map (fun v => |v|)).sum * (y.map (fun v => |v|)).sum := by
  obtain ⟨o, h1, h2, h3⟩ := C35_full_is_convolution c x y hx hy hne
  refine ⟨o, h1, ?_⟩
  have g : ∀ (l : List ℝ) (i : ℕ), (l.map (fun v => |v|)).getD i 0 = |l.getD i 0| := by
    intro l i
    by_cases hi : i < l.length
    · rw [List.getD_eq_getElem _ _ (by simpa using hi), List.getD_eq_getElem _ _ hi]; simp
    · rw [List.getD_eq_default _ _ (by simp; omega), List.getD_eq_default _ _ (by omega)]; simp
  have hs : ∀ l : List ℝ, IsSlice c l → IsSlice c (l.map (fun v => |v|)) := by
    intro l hl; unfold IsSlice at *; simpa using hl
  obtain ⟨o', e1, e2⟩ := C107_sum c (x.map (fun v => |v|)) (y.map (fun v => |v|)) (hs x hx) (hs y hy)
    (hne.imp (by simp) (by simp))
  obtain ⟨o'', f1, f2, f3⟩ := C35_full_is_convolution c (x.map (fun v => |v|)) (y.map (fun v => |v|))
    (hs x hx) (hs y hy) (hne.imp (by simp) (by simp))
  rw [f1] at e1
  injection e1 with e1
  subst e1
  rw [← e2]
  simp only [List.length_map] at f2
  rw [sum_eq_range (o.map _) o.length (by simp), sum_eq_range o'' o.length (by omega)]
  refine Finset.sum_le_sum (fun m hm => ?_)
  have hm := Finset.mem_range.mp hm
  rw [g, h3 m hm, f3 m (by omega)]
  unfold convAt
  refine (Finset.abs_sum_le_sum_abs _ _).trans (le_of_eq (Finset.sum_congr rfl (fun i _ => ?_)))
  rw [g, g, abs_mul]

/-- **C107** Filtering from rest is convolution: the output of `sosfilt` is the beginning of the full
convolution of the input with the filter's own response to a unit impulse. -/
theorem C107_sosfilt_is_convolution (c : Cfg) (sos : List (Sos ℝ)) (h : AtRest sos) (x : List ℝ)
    (hx : IsSlice c x) (hne : x ≠ []) :
    ∃ out, fftconvolve c x (sosfiltDyn (1 :: List.replicate (x.length - 1) 0) sos).1 .full = .ok out ∧
      (sosfiltDyn x sos).1 = out.take x.length := by
  have p := List.length_pos_iff.mpr hne
  set δ : List ℝ := 1 :: List.replicate (x.length - 1) 0 with hδ
  have lδ : δ.length = x.length := by rw [hδ]; simp; omega
  have lh : (sosfiltDyn δ sos).1.length = x.length := by rw [(C24_length δ sos).1, lδ]
  obtain ⟨o, e, l, s⟩ := fftconvolve_signal c x (sosfiltDyn δ sos).1 hx
    (by unfold IsSlice at *; rw [lh]; exact hx) (Or.inl hne)
  refine ⟨o, e, ?_⟩
  have sδ : signal δ = 1 := by
    rw [hδ, signal_cons]
    have : signal (List.replicate (x.length - 1) (0 : ℝ)) = 0 := by
      simpa [signal_nil] using signal_append_zero [] (x.length - 1)
    rw [this]; simp
  have h1 : (X : PowerSeries ℝ) ^ x.length ∣
      signal (sosfiltDyn x sos).1 * (sos.map den).prod - signal x * (sos.map num).prod := by
    rw [X_pow_dvd_iff]
    intro m hm
    rw [map_sub, C23_transfer sos h x m hm, sub_self]
  have h2 : (X : PowerSeries ℝ) ^ x.length ∣
      signal (sosfiltDyn δ sos).1 * (sos.map den).prod - (sos.map num).prod := by
    rw [X_pow_dvd_iff]
    intro m hm
    rw [map_sub, C23_transfer sos h δ m (by omega), sδ, one_mul, sub_self]
  have h3 : (X : PowerSeries ℝ) ^ x.length ∣
      (sos.map den).prod * (signal (sosfiltDyn x sos).1 - signal o) := by
    have e3 : (sos.map den).prod * (signal (sosfiltDyn x sos).1 - signal o) =
        (signal (sosfiltDyn x sos).1 * (sos.map den).prod - signal x * (sos.map num).prod) -
        signal x * (signal (sosfiltDyn δ sos).1 * (sos.map den).prod - (sos.map num).prod) := by
      rw [s]; ring
    rw [e3]
    exact dvd_sub h1 (Dvd.dvd.mul_left h2 _)
  have h4 : (X : PowerSeries ℝ) ^ x.length ∣ signal (sosfiltDyn x sos).1 - signal o :=
    (isUnit_den_prod sos).dvd_mul_left.mp h3
  rw [X_pow_dvd_iff] at h4
  refine ext_getD (by rw [(C24_length x sos).1, List.length_take]; omega) (fun m hm => ?_)
  rw [(C24_length x sos).1] at hm
  have := h4 m hm
  rw [map_sub, coeff_signal, coeff_signal, sub_eq_zero] at this
  rw [this]
  rw [List.getD_eq_getElem _ _ (by omega), List.getD_eq_getElem _ _ (by simp; omega), List.getElem_take]

/-- The hypotheses of `C107_sosfilt_is_convolution` are met on a 64-bit target. -/
example : AtRest [Sos.new 1 2 1 1 (-1) (3 : ℝ)] ∧ IsSlice ⟨64, true, by decide⟩ [1, -1, 4] := by
  refine ⟨?_, ?_⟩
  · intro s hs
    rw [List.mem_singleton] at hs
    subst hs
    exact ⟨rfl, rfl⟩
  · unfold IsSlice; norm_num

/-- **C107** The autocorrelation of the statistics module is the cross-correlation of the centred samples with
themselves, read from its centre and divided by the number of samples and the variance. -/
theorem C107_autocorr_is_correlation (c : Cfg) (x : List ℝ) (hx : IsSlice c x) (h : NonConstant x) :
    ∃ out, correlate c (x.map (fun v => v - (Stats.mean x).1)) (x.map (fun v => v - (Stats.mean x).1))
        .full = .ok out ∧
      ∀ k, k < x.length → Stats.autocorr x k =
        out.getD (x.length - 1 + k) 0 / x.length / (Stats.variance x).1 := by
  have hne := Stats.nonConstant_ne h
  have hd : IsSlice c (x.map (fun v => v - (Stats.mean x).1)) := by
    unfold IsSlice at *; simpa using hx
  obtain ⟨o, e, l, v⟩ := C37_correlate_full c _ _ hd hd (Or.inl (by simpa using hne))
  refine ⟨o, e, fun k hk => ?_⟩
  simp only [List.length_map] at l v
  have p := List.length_pos_iff.mpr hne
  rw [C04_value x h k, v _ (by omega), Stats.variance_eq]
  congr 2
  unfold corrAt
  rw [List.length_map]
  have ez : (((x.length - 1 + k : ℕ) : ℤ) - ((x.length : ℤ) - 1)) = k := by omega
  rw [ez, Stats.mean_eq, Finset.sum_comm]
  have g : ∀ i, i < x.length → (x.map (fun v => v - avg x)).getD i 0 = x.getD i 0 - avg x := by
    intro i hi
    rw [List.getD_eq_getElem _ _ (by simpa using hi), List.getD_eq_getElem _ _ hi]; simp
  have inner : ∀ j ∈ Finset.range x.length, (∑ i ∈ Finset.range x.length,
      if (i : ℤ) - j = k then (x.map (fun v => v - avg x)).getD i 0 *
        (x.map (fun v => v - avg x)).getD j 0 else 0) =
      if j < x.length - k then (x.getD j 0 - avg x) * (x.getD (j + k) 0 - avg x) else 0 := by
    intro j hj
    have hj := Finset.mem_range.mp hj
    by_cases hjk : j < x.length - k
    · rw [if_pos hjk, Finset.sum_eq_single (j + k)]
      · rw [if_pos (by push_cast; ring), g _ (by omega), g _ hj, mul_comm]
      · intro b _ hb; rw [if_neg (by omega)]
      · intro hb; exact absurd (Finset.mem_range.mpr (by omega)) hb
    · rw [if_neg hjk]
      refine Finset.sum_eq_zero (fun i hi => ?_)
      have := Finset.mem_range.mp hi
      rw [if_neg (by omega)]
  rw [Finset.sum_congr rfl inner, ← Finset.sum_filter]
  refine Finset.sum_congr ?_ (fun _ _ => rfl)
  ext j
  simp only [Finset.mem_filter, Finset.mem_range]
  omega

/-- A signal whose ends are repeated `h` times. -/
def padEnds (h : ℕ) (y : List ℝ) : List ℝ :=
  List.replicate h (y.headD 0) ++ y ++ List.replicate h (y.getLastD 0)

theorem getD_padEnds (h : ℕ) (y : List ℝ) (i : ℕ) (hi : i < y.length + 2 * h) :
    (padEnds h y).getD i 0 = extendNearest y ((i : ℤ) - h) := by
  unfold padEnds extendNearest
  rw [List.append_assoc]
  by_cases h1 : i < h
  · rw [if_pos (by omega), List.getD_append _ _ _ _ (by simpa using h1),
      List.getD_eq_getElem _ _ (by simpa using h1)]
    simp
  · rw [if_neg (by omega), List.getD_append_right _ _ _ _ (by simp; omega), List.length_replicate]
    by_cases h2 : i - h < y.length
    · rw [if_pos (by omega), List.getD_append _ _ _ _ h2]
      congr 1; omega
    · rw [if_neg (by omega), List.getD_append_right _ _ _ _ (by omega),
        List.getD_eq_getElem _ _ (by simp; omega)]
      simp

/-- **C107** Savitzky-Golay filtering is convolution in Valid mode of the signal, its ends repeated by half a
window, with the coefficients that `savgol_coeffs_dyn` returns for the same arguments. -/
theorem C107_savgol_is_convolution (c : Cfg) (solve : Savgol.Solver ℝ) (hs : SolvesLeastSquares solve)
    (y : List ℝ) (h p : ℕ) (hp : p + 2 ≤ 2 * h + 1) (hw : ((2 * h + 1 : ℕ) : ℤ) ≤ c.usizeMax)
    (deriv : Option ℕ) (delta : Option ℝ)
    (hf : deriv.getD 0 ≤ p → (((deriv.getD 0).factorial : ℕ) : ℤ) ≤ c.usizeMax)
    (hne : y ≠ []) (hy : IsSlice c (padEnds h y)) :
    ∃ fir out, Savgol.savgolCoeffsDyn c solve (2 * h + 1) p deriv delta = .ok fir ∧
      Savgol.savgolFilterDyn c solve y (2 * h + 1) p deriv delta = .ok out ∧
      fftconvolve c (padEnds h y) fir .valid = .ok out := by
  obtain ⟨fir, out, hfir, ho, hl, -, hv⟩ := savgol_output c solve hs y h p hp hw deriv delta hf
  have hco := savgol_coeffs_ok c solve (2 * h + 1) p (by omega) deriv delta hf
  rw [← hfir] at hco
  have lf : fir.length = 2 * h + 1 := by
    rw [hfir]; split_ifs
    · simp
    · exact (hs _ _ _ _).1
  have lp : (padEnds h y).length = y.length + 2 * h := by unfold padEnds; simp; omega
  have py := List.length_pos_iff.mpr hne
  obtain ⟨o, e, lo, vo⟩ := C36_valid c (padEnds h y) fir hy
    (by unfold IsSlice at *; rw [lp] at hy; rw [lf]; omega) (by omega) (by omega)
  refine ⟨fir, out, hco, ho, ?_⟩
  rw [e]
  congr 1
  refine ext_getD (by omega) (fun m hm => ?_)
  rw [vo m hm, hv m (by omega), lf]
  refine Finset.sum_congr rfl (fun i hi => ?_)
  have := Finset.mem_range.mp hi
  rw [getD_padEnds h y _ (by omega)]
  congr 2
  omega

/-- The hypotheses on the sizes are met on a 64-bit target (a solver that meets `SolvesLeastSquares` is given
beside C33). -/
example : IsSlice ⟨64, true, by decide⟩ (padEnds 2 [1, 2, 5]) ∧
    ((2 * 2 + 1 : ℕ) : ℤ) ≤ (⟨64, true, by decide⟩ : Cfg).usizeMax := by
  refine ⟨?_, ?_⟩
  · unfold IsSlice padEnds; norm_num
  · unfold Cfg.usizeMax; norm_num

end SciRs.Props

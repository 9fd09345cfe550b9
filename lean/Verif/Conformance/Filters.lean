import Verif.Model.SosfiltZi
import Verif.Model.Sosfiltfilt
import Verif.Model.Savgol
import Verif.Model.Stats
import Verif.Model.Bessel
import Verif.Conformance.Special
import Mathlib.Data.Rat.Floor

/-!
# Unit tests of the filters, of `median`, `companion_dyn` and `i0e`, run on the model

Tests of the transcription, not properties.  The model is evaluated by the kernel on rational numbers, with the
decimal literals of the repository's own tests; the expected values and tolerances are those of the tests.
-/

namespace SciRs.Conformance

/-- `assert_relative_eq!(a, e, max_relative = tol)` on `f64`: the absolute difference is at most the machine epsilon, or
the relative difference at most `tol`. -/
def near (tol : ℚ) (a e : ℚ) : Bool := decide (|a - e| ≤ 1 / 2 ^ 52 ∨ |a - e| ≤ tol * max |a| |e|)

/-- Both lists have the same length and agree up to `tol`. -/
def allNear (tol : ℚ) (a e : List ℚ) : Bool := a.length == e.length && (a.zip e).all fun q => near tol q.1 q.2

/-- The call returned a list that agrees with `e`. -/
def givesNear (tol : ℚ) (r : Res (List ℚ)) (e : List ℚ) : Bool :=
  match r with | .ok a => allNear tol a e | .error _ => false

/-- The call returned a matrix with these rows. -/
def givesRows {T : Type} [DecidableEq T] (r : Res (DMat T)) (rows : List (List T)) : Bool :=
  match r with
  | .ok m => ((List.range m.nrows).map fun i => (List.range m.ncols).map fun j => m.entry i j) == rows
  | .error _ => false

/-- A matrix from its rows. -/
def matrix {T : Type} [Zero T] (rows : List (List T)) : DMat T :=
  ⟨rows.length, (rows.headD []).length, fun i j => (rows.getD i []).getD j 0⟩

/-- companion.rs, test `scipy_example_dyn`. -/
example : givesRows (companionDyn ([1, -10, 31, -30] : List ℚ) 4) [[10, -31, 30], [1, 0, 0], [0, 1, 0]] = true := by
  decide +kernel

/-- lfilter_zi.rs, test `scipy_example_dyn`. -/
example : givesNear 1e-6 (lfilterZiDyn
    [0.00327922, 0.01639608, 0.03279216, 0.03279216, 0.01639608, 0.00327922]
    [1, -2.47441617, 2.81100631, -1.70377224, 0.54443269, -0.07231567])
    [0.99672078, -1.49409147, 1.28412268, -0.45244173, 0.07559489] = true := by
  decide +kernel

/-- The sections of the test in sosfilt_zi.rs. -/
def ziSections : List ℚ :=
    [1.55854712e-07, 3.11709423e-07, 1.55854712e-07, 1.00000000e+00, -6.68178638e-01, 0.00000000e+00,
    1.00000000e+00, 2.00000000e+00, 1.00000000e+00, 1.00000000e+00, -1.35904130e+00, 4.71015698e-01,
    1.00000000e+00, 2.00000000e+00, 1.00000000e+00, 1.00000000e+00, -1.42887946e+00, 5.46607979e-01,
    1.00000000e+00, 2.00000000e+00, 1.00000000e+00, 1.00000000e+00, -1.55098998e+00, 6.78779458e-01,
    1.00000000e+00, 1.00000000e+00, 0.00000000e+00, 1.00000000e+00, -1.73262236e+00, 8.75376926e-01]

/-- sosfilt_zi.rs, test `scipy_example_dyn`. -/
example : (match fromScipyDyn (2 ^ 64 - 1) true 5 ziSections with
    | .ok l => match sosfiltZiDyn l with
      | .ok l' => allNear 1e-6 (l'.flatMap fun s => [s.zi0, s.zi1])
          [1.72292381e-06, 1.55854712e-07, 6.52357932e-05, -2.97332383e-05, 2.21320188e-03, -1.17932460e-03,
    6.90969677e-02, -4.61691178e-02, 9.28622716e-01, -8.75376926e-01]
      | .error _ => false
    | .error _ => false) = true := by
  decide +kernel

/-- sos.rs, test `can_use_external_filter_design`. -/
example : (match fromScipyDyn (2 ^ 64 - 1) true 4 (
    [0.00474269, 0.00948539, 0.00474269, 1, -1.05531479, 0.29986557, 1, 2, 1, 1, -1.32397785, 0.6355536, 1, -2,
    1, 1, -1.99416225, 0.99417226, 1, -2, 1, 1, -1.99760501, 0.9976149] : List ℚ) with
    | .ok l => l.length == 4
    | .error _ => false) = true := by
  decide +kernel

/-- ext.rs, test `scipy_example_dyn`, first matrix. -/
example : givesRows (oddExtDyn (matrix [[1, 2, 3, 4, 5], [0, 1, 4, 9, 16]] : DMat ℤ) 1 0)
    [[2, 3, 2, -1, -6], [1, 2, 3, 4, 5], [0, 1, 4, 9, 16], [-1, 0, 5, 14, 27]] = true := by
  decide +kernel

/-- ext.rs, test `scipy_example_dyn`, columns. -/
example : givesRows (oddExtDyn (matrix [[1, 2, 3, 4, 5], [0, 1, 4, 9, 16]] : DMat ℤ) 2 1)
    [[-1, 0, 1, 2, 3, 4, 5, 6, 7], [-4, -1, 0, 1, 4, 9, 16, 23, 28]] = true := by
  decide +kernel

/-- ext.rs, test `scipy_example_dyn`, second matrix. -/
example : givesRows (oddExtDyn (matrix [[1, 2, 3, 4, 5], [0, 1, 4, 9, 16], [0, 1, 8, 27, 64]] : DMat ℤ) 2 0)
    [[2, 3, -2, -19, -54], [2, 3, 2, -1, -6], [1, 2, 3, 4, 5], [0, 1, 4, 9, 16], [0, 1, 8, 27, 64],
      [0, 1, 12, 45, 112], [-1, 0, 13, 50, 123]] = true := by
  decide +kernel

/-- The band-pass sections of the tests in sosfilt.rs and sosfiltfilt.rs. -/
def bandpass : List ℚ :=
    [2.6775767382597835e-5, 5.355153476519567e-5, 2.6775767382597835e-5, 1.0, -1.7991202154617734,
    0.8162578614819005, 1.0, 2.0, 1.0, 1.0, -1.8774769894419825, 0.9094302413068086, 1.0, -2.0, 1.0, 1.0,
    -1.9237959892866103, 0.9263794671616161, 1.0, -2.0, 1.0, 1.0, -1.978497311228862, 0.9799894886973378]

/-- sosfilt.rs, tests `can_sosfilt` and `can_resume_sosfilt`, on a short rational signal: the three ways to filter and
filtering in two halves give the same samples. -/
example : (match fromScipyDyn (2 ^ 64 - 1) true 4 bandpass with
    | .ok l =>
      let x : List ℚ := [0, 3 / 4, 1, 1 / 4, -2 / 3, -1, -1 / 5, 1 / 2, 7 / 8]
      let y := (sosfiltDyn x l).1
      let first := sosfiltDyn (x.take 4) l
      decide (y = first.1 ++ (sosfiltDyn (x.drop 4) first.2).1) &&
      decide (y = (x.foldl (fun st v => let r := sosfiltItem v st.2; (st.1 ++ [r.1], r.2)) (([] : List ℚ), l)).1)
    | .error _ => false) = true := by
  decide +kernel

/-- stats.rs, test `can_median`. -/
example : (match Stats.median ([1, 2, 3, 4] : List ℚ) 10 with | .ret r => decide (r = (5 / 2, 4)) | _ => false) = true ∧
    (match Stats.median ([1, 2, 3, 4, 5] : List ℚ) 10 with | .ret r => decide (r = (3, 5)) | _ => false) = true := by
  decide +kernel

/-- The tables of `xsf/i0.rs` as rational numbers. -/
def tableAQ : List ℚ := [
    (-4.41534164647933937950e-18),
    (3.33079451882223809783e-17),
    (-2.43127984654795469359e-16),
    (1.71539128555513303061e-15),
    (-1.16853328779934516808e-14),
    (7.67618549860493561688e-14),
    (-4.85644678311192946090e-13),
    (2.95505266312963983461e-12),
    (-1.72682629144155570723e-11),
    (9.67580903537323691224e-11),
    (-5.18979560163526290666e-10),
    (2.65982372468238665035e-9),
    (-1.30002500998624804212e-8),
    (6.04699502254191894932e-8),
    (-2.67079385394061173391e-7),
    (1.11738753912010371815e-6),
    (-4.41673835845875056359e-6),
    (1.64484480707288970893e-5),
    (-5.75419501008210370398e-5),
    (1.88502885095841655729e-4),
    (-5.76375574538582365885e-4),
    (1.63947561694133579842e-3),
    (-4.32430999505057594430e-3),
    (1.05464603945949983183e-2),
    (-2.37374148058994688156e-2),
    (4.93052842396707084878e-2),
    (-9.49010970480476444210e-2),
    (1.71620901522208775349e-1),
    (-3.04682672343198398683e-1),
    (6.76795274409476084995e-1)]

theorem tableAQ_eq : tableAQ.map (fun q : ℚ => (q : ℝ)) = Bessel.tableA := by
  simp only [tableAQ, Bessel.tableA, List.map_cons, List.map_nil]
  push_cast
  rfl

/-- The exact instance on rational numbers, for arguments up to 8 (where neither `exp` nor `sqrt` is called). -/
def envQ : Bessel.Env ℚ := ⟨fun x => |x|, fun _ => 0, fun _ => 0, tableAQ, []⟩

/-- xsf/i0.rs, test `i0e_f64`, the arguments up to 8; the test allows `1e-6`. -/
example : (([(0, 1), (1, 0.46575960759364043), (0.213, 0.8173484705849442), (5, 0.18354081260932834)] :
    List (ℚ × ℚ)).all fun q => near 1e-15 (Bessel.i0e envQ q.1) q.2) = true := by
  decide +kernel

/-- A solver of the least-norm problem `A x = b` for matrices of full row rank, by elimination on `A Aᵀ`: stands in for
the crate `lstsq` in these tests. -/
def eliminate : ℕ → List (List ℚ) → List (List ℚ)
  | 0, _ => []
  | _, [] => []
  | fuel + 1, row :: rows =>
    let p := row.headD 1
    let r := row.map (· / p)
    let rest := eliminate fuel (rows.map fun q => (q.zip r).map (fun c => c.1 - q.headD 0 * c.2) |>.drop 1)
    r :: rest

/-- Back substitution on the rows left by `eliminate`. -/
def backSub (rows : List (List ℚ)) : List ℚ :=
  rows.foldr (fun r acc => (r.getLastD 0 - (((r.drop 1).dropLast.zip acc).map fun c => c.1 * c.2).sum) :: acc) []

/-- The solver handed to the model. -/
def lstsqQ : Savgol.Solver ℚ := fun m n a b =>
  let gram := (List.range m).map fun i => ((List.range m).map fun k =>
    ((List.range n).map fun j => a i j * a k j).sum) ++ [b i]
  let y := backSub (eliminate m gram)
  (List.range n).map fun j => (y.zipIdx.map fun c => c.1 * a c.2 j).sum

instance : Savgol.SavNum ℚ := ⟨fun n => n, 1 / 2, fun x n => x ^ n⟩

/-- savgol_filter.rs, test `can_coeffs`. -/
example : givesNear 1e-7 (Savgol.savgolCoeffsDyn debug64 lstsqQ 5 2 (some 0) (some 1))
    [-0.08571429, 0.34285714, 0.48571429, 0.34285714, -0.08571429] = true := by
  decide +kernel

/-- savgol_filter.rs, test `can_coeffs`, even window. -/
example : givesNear 1e-7 (Savgol.savgolCoeffsDyn debug64 lstsqQ 4 2 none none)
    [-0.0625, 0.5625, 0.5625, -0.0625] = true := by
  decide +kernel

/-- savgol_filter.rs, test `can_coeffs`, long window. -/
example : givesNear 5e-6 (Savgol.savgolCoeffsDyn debug64 lstsqQ 51 5 none none)
    [0.02784785, 0.01160327, -0.00086484, -0.00994566, -0.01601181, -0.01941934, -0.02050775, -0.01959997,
    -0.01700239, -0.0130048, -0.00788047, -0.00188609, 0.00473822, 0.01176888, 0.01899888, 0.02623777,
    0.03331167, 0.04006325, 0.04635174, 0.05205294, 0.05705919, 0.06127943, 0.06463912, 0.0670803, 0.06856157,
    0.06905808, 0.06856157, 0.0670803, 0.06463912, 0.06127943, 0.05705919, 0.05205294, 0.04635174, 0.04006325,
    0.03331167, 0.02623777, 0.01899888, 0.01176888, 0.00473822, -0.00188609, -0.00788047, -0.0130048,
    -0.01700239, -0.01959997, -0.02050775, -0.01941934, -0.01601181, -0.00994566, -0.00086484, 0.01160327,
    0.02784785] = true := by
  decide +kernel

/-- savgol_filter.rs, test `can_coeffs`, degree 8. -/
example : givesNear 1e-6 (Savgol.savgolCoeffsDyn debug64 lstsqQ 21 8 none none)
    [0.0125937, -0.04897551, 0.03811252, 0.04592441, -0.01514104, -0.06782274, -0.05517056, 0.03024958,
    0.15283999, 0.25791748, 0.29894434, 0.25791748, 0.15283999, 0.03024958, -0.05517056, -0.06782274,
    -0.01514104, 0.04592441, 0.03811252, -0.04897551, 0.0125937] = true := by
  decide +kernel

/-- savgol_filter.rs, test `can_coeffs`, first derivative. -/
example : givesNear 1e-7 (Savgol.savgolCoeffsDyn debug64 lstsqQ 5 2 (some 1) (some 1))
    [2.0e-1, 1.0e-1, 2.07548111e-16, -1.0e-1, -2.0e-1] = true := by
  decide +kernel

/-- savgol_filter.rs, test `can_coeffs`, first derivative, even window. -/
example : givesNear 1e-7 (Savgol.savgolCoeffsDyn debug64 lstsqQ 6 3 (some 1) none)
    [-0.09093915, 0.4130291, 0.21560847, -0.21560847, -0.4130291, 0.09093915] = true := by
  decide +kernel

/-- savgol_filter.rs, test `can_coeffs`, second derivative, even window. -/
example : givesNear 5e-6 (Savgol.savgolCoeffsDyn debug64 lstsqQ 6 3 (some 2) (some 1))
    [0.17857143, -0.03571429, -0.14285714, -0.14285714, -0.03571429, 0.17857143] = true := by
  decide +kernel

/-- The signal of the tests of the filter. -/
def savgolInput : List ℚ := [2, 2, 5, 2, 1, 0, 1, 4, 9]

/-- savgol_filter.rs, test `can_filter`. -/
example : givesNear 1e-5 (Savgol.savgolFilterDyn debug64 lstsqQ savgolInput 5 2 none none)
    [1.74285714, 3.02857143, 3.54285714, 2.85714286, 0.65714286, 0.17142857, 1.0, 4.6, 7.97142857] = true := by
  decide +kernel

/-- savgol_filter.rs, test `can_filter`, first derivative. -/
example : givesNear 1e-5 (Savgol.savgolFilterDyn debug64 lstsqQ savgolInput 5 2 (some 1) none)
    [0.6, 0.3, -0.2, -0.8, -1.0, 0.4, 2.0, 2.6, 2.1] = true := by
  decide +kernel

/-- savgol_filter.rs, test `can_filter`, a line of 100 samples. -/
example : givesNear 1e-5 (Savgol.savgolFilterDyn debug64 lstsqQ ((List.range 100).map fun i => 3 * (i : ℚ) - 2) 51 5 none none)
    [2.45650177, 4.06008889, 5.86936071, 7.87987343, 10.08430349, 12.47257185, 15.03201779, 17.74762253,
    20.6022825, 23.57713222, 26.65191695, 29.805415, 33.01590968, 36.26171099, 39.52172696, 42.77608466,
    46.00680095, 49.19850285, 52.33919758, 55.4210924, 58.44146398, 61.40357756, 64.31765571, 67.20189688,
    70.08354354, 73, 76, 79, 82, 85, 88, 91, 94, 97, 100, 103, 106, 109, 112, 115, 118, 121, 124, 127, 130, 133,
    136, 139, 142, 145, 148, 151, 154, 157, 160, 163, 166, 169, 172, 175, 178, 181, 184, 187, 190, 193, 196, 199,
    202, 205, 208, 211, 214, 217, 220, 222.91645647, 225.79810312, 228.6823443, 231.59642245, 234.55853602,
    237.5789076, 240.66080242, 243.80149716, 246.99319905, 250.22391534, 253.47827305, 256.73828901,
    259.98409032, 263.194585, 266.34808305, 269.42286778, 272.3977175, 275.25237747, 277.96798222, 280.52742816,
    282.91569651, 285.12012658, 287.13063929, 288.93991111, 290.54349823] = true := by
  decide +kernel

/-- savgol_filter.rs, test `can_filter`, empty signal. -/
example : givesNear 0 (Savgol.savgolFilterDyn debug64 lstsqQ [] 11 2 none none) [] = true := by
  decide +kernel

end SciRs.Conformance

import Verif.Model.Factorial
import Verif.Model.Combinatorics

/-!
# The unit tests of `special/factorial.rs` and `special/combinatorics.rs`, run on the model

These are tests of the transcription, not properties: the kernel evaluates the model on the inputs of the
repository's own tests and compares with the values expected there.
-/

namespace SciRs.Conformance

/-- 64-bit target with overflow checks, as `cargo test` builds it. -/
def debug64 : Cfg := ⟨64, true, by decide⟩

def u8 : IntTy := ⟨8, false, by decide, by decide⟩
def u16 : IntTy := ⟨16, false, by decide, by decide⟩
def u32 : IntTy := ⟨32, false, by decide, by decide⟩
def u64 : IntTy := ⟨64, false, by decide, by decide⟩
def u128 : IntTy := ⟨128, false, by decide, by decide⟩
def i8 : IntTy := ⟨8, true, by decide, by decide⟩
def i16 : IntTy := ⟨16, true, by decide, by decide⟩
def i32 : IntTy := ⟨32, true, by decide, by decide⟩
def i64 : IntTy := ⟨64, true, by decide, by decide⟩
def i128 : IntTy := ⟨128, true, by decide, by decide⟩

/-- The call returned `v`. -/
def gives (r : Res Int) (v : Int) : Bool := match r with | .ok w => w == v | .error _ => false

/-- The call ended within the budget and returned `v`. -/
def runGives (r : Run Int) (v : Int) : Bool := match r with | .ret w => w == v | _ => false

/-- `check_values`, combinatorics.rs 192-203: row `n`, column `k` holds `f(n, k)`. -/
def table (f : Int → Int → Int → Bool) (rows : List (List Int)) : Bool :=
  rows.zipIdx.all fun r => r.1.zipIdx.all fun v => f r.2 v.2 v.1

/-- The arguments of the tests with negative numbers: `n` in `-lo .. 0`, `m` in `-5 .. 5`, both orders. -/
def negatives (f : Int → Int → Bool) (lo : Nat) : Bool :=
  (List.range lo).all fun i => (List.range 10).all fun j =>
    f ((i : Int) - lo) ((j : Int) - 5) && f ((j : Int) - 5) ((i : Int) - lo)

/-- combinatorics.rs, test `comb`. -/
example : [u32, i32].all (fun t => table (fun n k v => gives (primintComb debug64 t n k) v) [
    [1, 0, 0, 0, 0, 0, 0, 0, 0, 0],
    [1, 1, 0, 0, 0, 0, 0, 0, 0, 0],
    [1, 2, 1, 0, 0, 0, 0, 0, 0, 0],
    [1, 3, 3, 1, 0, 0, 0, 0, 0, 0],
    [1, 4, 6, 4, 1, 0, 0, 0, 0, 0],
    [1, 5, 10, 10, 5, 1, 0, 0, 0, 0],
    [1, 6, 15, 20, 15, 6, 1, 0, 0, 0],
    [1, 7, 21, 35, 35, 21, 7, 1, 0, 0],
    [1, 8, 28, 56, 70, 56, 28, 8, 1, 0],
    [1, 9, 36, 84, 126, 126, 84, 36, 9, 1]]) = true := by
  decide +kernel

/-- combinatorics.rs, test `comb_rep`. -/
example : [u32, i32].all (fun t => table (fun n k v => gives (primintCombRep debug64 t n k) v) [
    [0, 0, 0, 0, 0, 0, 0, 0, 0, 0],
    [1, 1, 1, 1, 1, 1, 1, 1, 1, 1],
    [1, 2, 3, 4, 5, 6, 7, 8, 9, 10],
    [1, 3, 6, 10, 15, 21, 28, 36, 45, 55],
    [1, 4, 10, 20, 35, 56, 84, 120, 165, 220],
    [1, 5, 15, 35, 70, 126, 210, 330, 495, 715],
    [1, 6, 21, 56, 126, 252, 462, 792, 1287, 2002],
    [1, 7, 28, 84, 210, 462, 924, 1716, 3003, 5005],
    [1, 8, 36, 120, 330, 792, 1716, 3432, 6435, 11440],
    [1, 9, 45, 165, 495, 1287, 3003, 6435, 12870, 24310]]) = true := by
  decide +kernel

/-- combinatorics.rs, test `perm`. -/
example : [u32, i32].all (fun t => table (fun n k v => gives (primintPerm debug64 t n k) v) [
    [1, 0, 0, 0, 0, 0, 0, 0, 0, 0],
    [1, 1, 0, 0, 0, 0, 0, 0, 0, 0],
    [1, 2, 2, 0, 0, 0, 0, 0, 0, 0],
    [1, 3, 6, 6, 0, 0, 0, 0, 0, 0],
    [1, 4, 12, 24, 24, 0, 0, 0, 0, 0],
    [1, 5, 20, 60, 120, 120, 0, 0, 0, 0],
    [1, 6, 30, 120, 360, 720, 720, 0, 0, 0],
    [1, 7, 42, 210, 840, 2520, 5040, 5040, 0, 0],
    [1, 8, 56, 336, 1680, 6720, 20160, 40320, 40320, 0],
    [1, 9, 72, 504, 3024, 15120, 60480, 181440, 362880, 362880]]) = true := by
  decide +kernel

/-- combinatorics.rs, test `stirling2`. -/
example : [u32, i32].all (fun t => table (fun n k v => runGives (primintStirling2 debug64 t n k 20) v) [
    [1, 0, 0, 0, 0, 0, 0, 0, 0, 0],
    [0, 1, 0, 0, 0, 0, 0, 0, 0, 0],
    [0, 1, 1, 0, 0, 0, 0, 0, 0, 0],
    [0, 1, 3, 1, 0, 0, 0, 0, 0, 0],
    [0, 1, 7, 6, 1, 0, 0, 0, 0, 0],
    [0, 1, 15, 25, 10, 1, 0, 0, 0, 0],
    [0, 1, 31, 90, 65, 15, 1, 0, 0, 0],
    [0, 1, 63, 301, 350, 140, 21, 1, 0, 0],
    [0, 1, 127, 966, 1701, 1050, 266, 28, 1, 0],
    [0, 1, 255, 3025, 7770, 6951, 2646, 462, 36, 1]]) = true := by
  decide +kernel

/-- combinatorics.rs, test `comb_negatives`. -/
example : negatives (fun n m => gives (primintComb debug64 i32 n m) 0) 10 = true := by
  decide +kernel

/-- combinatorics.rs, test `comb_rep_negatives`. -/
example : negatives (fun n m => gives (primintCombRep debug64 i32 n m) 0) 4 = true := by
  decide +kernel

/-- combinatorics.rs, test `perm_negative`. -/
example : negatives (fun n m => gives (primintPerm debug64 i32 n m) 0) 4 = true := by
  decide +kernel

/-- combinatorics.rs, test `stirling2_negative`. -/
example : negatives (fun n m => runGives (primintStirling2 debug64 i32 n m 20) 0) 4 = true := by
  decide +kernel

/-- factorial.rs, `ABSOLUTE_KNOWN_FACTORIAL_VALUES`. -/
def knownrial : List Int := [1, 1, 2, 6, 24, 120, 720, 5040, 40320, 362880, 3628800, 39916800, 479001600, 6227020800, 87178291200, 1307674368000, 20922789888000, 355687428096000, 6402373705728000, 121645100408832000, 2432902008176640000, 51090942171709440000, 1124000727777607680000, 25852016738884976640000, 620448401733239439360000, 15511210043330985984000000, 403291461126605635584000000, 10888869450418352160768000000, 304888344611713860501504000000, 8841761993739701954543616000000, 265252859812191058636308480000000, 8222838654177922817725562880000000, 263130836933693530167218012160000000, 8683317618811886495518194401280000000, 295232799039604140847618609643520000000]

/-- factorial.rs, test `factorial`. -/
example : [(u8, 6), (u16, 9), (u32, 13), (u64, 21), (u128, 35), (i8, 6), (i16, 8), (i32, 13), (i64, 21), (i128, 34)].all (fun t => (List.range t.2).all fun i =>
    runGives (primintFactorial debug64 t.1 i 200) (knownrial.getD i 0)) = true := by
  decide +kernel

/-- factorial.rs, `ABSOLUTE_KNOWN_FACTORIAL2_VALUES`. -/
def knownrial2 : List Int := [1, 1, 2, 3, 8, 15, 48, 105, 384, 945, 3840, 10395, 46080, 135135, 645120, 2027025, 10321920, 34459425, 185794560, 654729075, 3715891200, 13749310575, 81749606400, 316234143225, 1961990553600, 7905853580625, 51011754393600, 213458046676875, 1428329123020800, 6190283353629375, 42849873690624000, 191898783962510625, 1371195958099968000, 6332659870762850625, 46620662575398912000, 221643095476699771875, 1678343852714360832000, 8200794532637891559375, 63777066403145711616000, 319830986772877770815625, 2551082656125828464640000, 13113070457687988603440625, 107145471557284795514880000, 563862029680583509947946875, 4714400748520531002654720000, 25373791335626257947657609375, 216862434431944426122117120000, 1192568192774434123539907640625, 10409396852733332453861621760000, 58435841445947272053455474390625, 520469842636666622693081088000000, 2980227913743310874726229193921875, 27064431817106664380040216576000000, 157952079428395476360490147277859375, 1461479318123759876522171695104000000, 8687364368561751199826958100282265625, 81842841814930553085241614925824000000]

/-- factorial.rs, test `factorial2`. -/
example : [(u8, 8), (u16, 13), (u32, 21), (u64, 34), (u128, 57), (i8, 8), (i16, 12), (i32, 20), (i64, 34), (i128, 57)].all (fun t => (List.range t.2).all fun i =>
    runGives (primintFactorial2 debug64 t.1 i 200) (knownrial2.getD i 0)) = true := by
  decide +kernel

/-- factorial.rs, test `factorialk`, for `usize` and `i64`. -/
example : [u64, i64].all (fun t => table (fun n k v => runGives (primintFactorialk debug64 t n (k + 1) 200) v) [
    [1, 1, 1, 1, 1, 1, 1, 1, 1, 1, 1, 1, 1, 1],
    [1, 1, 1, 1, 1, 1, 1, 1, 1, 1, 1, 1, 1, 1],
    [2, 2, 2, 2, 2, 2, 2, 2, 2, 2, 2, 2, 2, 2],
    [6, 3, 3, 3, 3, 3, 3, 3, 3, 3, 3, 3, 3, 3],
    [24, 8, 4, 4, 4, 4, 4, 4, 4, 4, 4, 4, 4, 4],
    [120, 15, 10, 5, 5, 5, 5, 5, 5, 5, 5, 5, 5, 5],
    [720, 48, 18, 12, 6, 6, 6, 6, 6, 6, 6, 6, 6, 6],
    [5040, 105, 28, 21, 14, 7, 7, 7, 7, 7, 7, 7, 7, 7],
    [40320, 384, 80, 32, 24, 16, 8, 8, 8, 8, 8, 8, 8, 8],
    [362880, 945, 162, 45, 36, 27, 18, 9, 9, 9, 9, 9, 9, 9],
    [3628800, 3840, 280, 120, 50, 40, 30, 20, 10, 10, 10, 10, 10, 10],
    [39916800, 10395, 880, 231, 66, 55, 44, 33, 22, 11, 11, 11, 11, 11],
    [479001600, 46080, 1944, 384, 168, 72, 60, 48, 36, 24, 12, 12, 12, 12],
    [6227020800, 135135, 3640, 585, 312, 91, 78, 65, 52, 39, 26, 13, 13, 13],
    [87178291200, 645120, 12320, 1680, 504, 224, 98, 84, 70, 56, 42, 28, 14, 14]]) = true := by
  decide +kernel

end SciRs.Conformance

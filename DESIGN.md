# A Lean 4 model of sci-rs and proofs about it

`/repo` (qsib-cbie/sci-rs at the pinned commit) is read as text only. Everything here is about the Lean model in
`lean/Verif`; the tie to the Rust code is the file/line citation on every model definition.

## Layout

| directory | content |
|---|---|
| `Verif/Basic.lean` | the panic monad (`Except Err`) and machine integers |
| `Verif/Model/*` | the model: one Lean file per source file, every definition cites the Rust lines it models |
| `Verif/Spec/*` | small specifications written without looking at the model's helpers |
| `Verif/Lemmas/*` | helper lemmas (never cited in the manifest) |
| `Verif/Props/*` | one file per property group: the property theorems, each followed by a non-vacuity `example` |

## How the code is modelled

* **Panics** are values: a function that can panic returns `Except Err α`; `Err` records the kind (assert, overflow,
  unwrap on `None`, index out of bounds, `unreachable!`, explicit `panic!`). An unchecked memory access outside its
  allocation is `Err.ub`, a separate constructor, so "never UB" is a theorem and not a convention.
* **Integers** (`special/*`): a type is given by its width and signedness; values are `Int`s. Arithmetic is
  parametrised by the build mode: `checked` (debug / overflow-checks) panics, `wrapping` (release) reduces modulo 2^bits.
  The pointer width of `usize` is a parameter.
* **Floats, law-free**: streaming code (`sosfilt*`) is modelled over an arbitrary type with `+ - *` and *no laws*, so
  the equalities proved hold for IEEE binary32/64 bit for bit (same operations, same operands, same order).
* **Floats, exact**: for algebraic properties the same definitions are read over a commutative ring, a field, `ℝ` or `ℂ`.
  Those theorems are about the algorithm in exact arithmetic. This is stated at each theorem.
* **Floats, rounded**: `Spec/Rounding.lean` is the standard model of rounding (`|rnd x - x| <= u|x| + t`, monotone,
  `rnd 0 = 0`) and a carrier whose operations are the exact ones followed by `rnd`; `Spec/BinaryRounding.lean` builds
  round-to-nearest with a finite precision and gradual underflow, so binary32 and binary64 without overflow are
  instances. C68-C72 run the same model definitions over that carrier.
* **`&mut`** arguments become returned values; loops become folds or structural recursion; potentially
  non-terminating loops take fuel and non-termination is "no fuel suffices".
* **External crates** are parameters with recorded assumptions: `rustfft` = the exact unnormalised DFT and inverse DFT (in C96: any transforms with a bounded Euclidean error);
  `lstsq` = any exact least-squares minimiser of least norm; slice `sort_unstable_by` = any function returning a sorted
  permutation; `nalgebra`/`ndarray` containers = lists / functions on `Fin`.

## Plan per property (see properties.jsonl for the statements)

| id | model | proof |
|---|---|---|
| C01, C02 | `quickselect`, `median` over a linear order; NaN witness over a law-free order | strong induction on length; sorted list spec `List.mergeSort` |
| C03, C04 | `mean`, `variance`, `stdev`, `autocorr` over ℝ | sum identities, Cauchy-Schwarz |
| C05, C06 | `autocorr_fast32`, `rms_fast32` with the tile loops as written | characterise the overwritten accumulator; negation by witness |
| C07-C09 | `lag_diff`, `rmssd`, `zscore`, `median_abs_deviation`, `mod_zscore` | telescoping; order statistics under monotone/antitone maps |
| C10-C16 | machine-integer model | exact success set by loop invariants; Mathlib `Nat.factorial`, `choose`, `descFactorial`, `multichoose`, `stirlingSecond` as specs |
| C17, C18 | `chbevl`, `i0`, `i0e` over ℝ | Clenshaw recurrence against Mathlib's Chebyshev polynomials |
| C19 | `companion_dyn` as a sequence of bounds-checked writes | write-set invariant |
| C20-C22 | law-free biquad cascade | induction over samples and sections |
| C23-C26 | cascade over a commutative ring / ℝ / ℂ | power series; geometric bounds |
| C27, C28 | `lfilter_zi_dyn`, `sosfilt_zi_dyn` over a field | fixed point equations |
| C29-C31 | `pad`, `odd_ext_dyn`, `sosfiltfilt_dyn` | index arithmetic; linearity |
| C32, C33 | `savgol_*` with the solver as a parameter | least-squares solution of a consistent system satisfies it |
| C34 | `square` over ℝ | floor arithmetic |
| C35-C38 | `fftconvolve`, `correlate`, `resample` with exact DFT | DFT convolution theorem |
| C39-C44 | zpk transforms over ℂ | product identities |
| C45-C47 | analogue prototypes over ℂ | roots of unity, Chebyshev polynomials |
| C48-C52 | `poly_dyn`, `zpk2tf_dyn`, `cplxreal_dyn`, `zpk2sos_dyn` | polynomial products; loop invariants of the pairing loop |
| C53-C55 | `Sos::from_scipy_dyn`, `iirfilter_dyn`, `cheby2_dyn` | case analysis |
| C56-C60 | composition of the above | the lemmas above |

| C67 | `i0`, `i0e` against the power series of I0 | on [0,8] the difference of two polynomials, bounded in the Chebyshev basis by exact rational arithmetic in the kernel; above 8 the differential equation of sqrt(x) exp(-x) I0(x) with the residual of the code's polynomial |
| C61 | `savgol_filter_dyn` | normal equations: the output is the value of the best fit |
| C62 | analog branch of `zpk2sos_dyn` | loop invariants; witnesses |
| C63-C66 | `cheby1_dyn`, band filters, analog designs | the bilinear map of the unit circle, composed with C39-C47 |
| C68-C71 | statistics over the rounded carrier | forward error analysis by induction over the fold |
| C72 | `sosfilt_dyn` over the rounded carrier | geometric bound on the propagated error of each stable section |
| C73 | `savgol_coeffs_dyn` | the coefficients are the minimum-norm solution of the moment equations |
| C74, C75 | `median`, `mean` for machine integers | loop invariants; witnesses |
| C76, C77 | `sosfilt_dyn`, `sosfiltfilt_dyn` on sinusoids | the sinusoidal steady state is a trajectory of the recursion; the deviation decays by stability |
| C78 | `square` with rounded sum and product (`Model/SquareFloat.lean`) | monotonicity of rounding; binary64 witness |
| C79 | `resample` | sums over roots of unity |
| C80 | `i0`, `i0e` over the rounded carrier (`Model/BesselRounded.lean`) | forward error analysis of the Clenshaw recurrence; the error of each step is multiplied by a Chebyshev polynomial of the second kind; numeric bound by exact rational arithmetic in the kernel |
| C81 | `sosfilt_dyn` and the streaming functions over IEEE 754 data with overflow, infinities and NaN (`Spec/Ieee.lean`) | sums and products with a non-finite operand are never finite, so a finite result agrees with the run of C72; no overflow by the bound of stable sections |
| C82 | statistics over IEEE 754 data | as C81; the median through the order embedding of the data without NaN into the extended reals; binary64 witnesses |
| C83 | `i0`, `i0e` over IEEE 754 data (`Model/BesselIeee.lean`) | a crude growth bound of the recurrence excludes overflow, so C80 applies; kernel arithmetic on powers for the witness at 710 |
| C84 | `iirfilter` with sections as output (same model as C48-C59) | counting argument: each pass of the pairing loop removes at most two roots, near-real roots are counted twice by `cplxreal`; location of the Butterworth poles for the criterion in terms of the request |
| C85 | composition of the design, `sosfilt` and `sosfiltfilt` models | C84, C76, C77, C31 and the responses C45, C46 |
| C86 | the whole design code once more, with every operation taken from an `Arith` (`Verif/Model/Rounded/`): exact, `f32` and `f64` are instances | laws of signs and conjugation (`Spec/ArithLaws.lean`), proved for roundings to nearest with the formulas of `num_complex`; conjugate pairs survive every step exactly; the pairing loop as in C84 |
| C87 | as C86; the sections as functions of the rounded zeros and poles | the pairing loop gives the pairs, the formulas of `num_complex` give the coefficients; the Schur triangle with a margin absorbs the rounding; `C87_low_edge_false` computes a design in `f32` by hand |
| C88 | the models of C51, C54 | every pass uses up what it puts into its section, whichever branch it takes; parity of the number of real roots decides whether a pass can fail |
| C89 | the model of C51 | `min_by` picks a smallest key; the roots left after a pass are among those before it, so the choice also beats the roots of all sections made later, which stand before it in the result; conjugates of roots in the upper half-plane are farther away |
| C90 | the model of C86 with accuracy assumptions on the library (`Spec/LibmAccuracy.lean`) | forward error analysis: angle, prototype pole, pre-warped edge, analog pole, bilinear map (a contraction in relative error on the left half-plane); the exact poles are at least e(1-e)/(2n) away from the unit circle and, unless real, from the real axis |
| C91 | the model of C86, C87 and C90 | relative errors of products of n factors (the gain: power of the edge, product of 4-p, quotient), perturbation of each factor 1/(x-p) on the unit circle with the margin of C90, rounding of the section coefficients; then C56 and C57 |
| C92 | the models of C20, C84 and C91 | the output as an absolutely convergent power series (C23, C26), its values on the unit circle as response times input, Bessel's inequality for Fourier series; the converse from long sinusoids (C76); then C45-C47 and C91 |
| C93 | the model of C03-C09 over rounded numbers (C68) | running error analysis of sums of products; order statistics move by at most the perturbation of the samples |
| C94 | the model of C27-C31 over rounded numbers (C68) | quantities computed from the coefficients converge with the unit roundoff, closed under the operations; the cascade error bound of C72 with perturbed states, applied to both passes |
| C95 | the model of C32, C33 over rounded numbers (C68), with arbitrary conversions, `powi` and solver | rounding error of a left-to-right sum of products; a polynomial weighted with coefficients that nearly solve the moment equations |
| C96 | the model of C35-C38 with the transforms, products and quotients as parameters, here rounded (C68) | Parseval's equation and Cauchy's inequality bound how the errors of the transforms and of the products reach each sample |
| C97 | the design pipeline in rounded arithmetic (C86), Chebyshev I, low-pass and high-pass | relative errors through `10^x - 1`, `asinh`, `sinh`, `cosh` and the pole angles; then the error analysis of C90 for prototype poles on an ellipse, and a lower bound for the distance of the exact poles from the unit circle and from the real axis |
| C98 | as C97 | the gain's error through the product of the prototype's poles, the root for even orders, the map of the band and the bilinear map; then the response as a product of factors, each with a small relative error because the poles keep their distance from the unit circle (as C91) |
| C99 | `sosfiltfilt_dyn` and `savgol_filter_dyn` over IEEE 754 data | the forward pass hands a bad sample to its last output, which is the first sample of the backward pass (C81); the windows of the padded signal, sample by sample |
| C100 | the design up to zeros, poles and gain over IEEE 754 data (`Model/IeeeDesign.lean`) | the checks evaluated at NaN and the infinities; a complex product or quotient with a NaN or two non-finite parts is NaN |
| C101 | the design pipeline in rounded arithmetic (C86), Butterworth, band-pass and band-stop | errors of the half bandwidth, the centre, the discriminant and its complex square root (away from the branch cut); the roots of the quadratic lie between the edges in modulus, which bounds their distance from the imaginary and real axes and so that of the digital poles and zeros from the unit circle and the real axis; then C86 and C87 |
| C102 | the design over IEEE 754 data (C100) against the design in rounded arithmetic (C86), Butterworth, low-pass and high-pass | step by step, a datum is finite and is the rounded number as long as the error bounds of C90 and C91 keep it below the largest finite number; for the overflow, the norm of the denominator is at least 0.95·4ⁿ, so its square is infinite or NaN and the quotient is zero or NaN |
| C103 | `iirfilter_dyn` for Chebyshev II high-pass and band-stop requests | the factors of the gain computed from the zeros of the prototype, which are imaginary: their real parts multiply to zero (band-stop), their distances from 1 replace their moduli (high-pass) |
| C104 | the model of C86 in arithmetics of growing accuracy (`Spec.AccurateTo`) | each step of the pipeline is continuous at the exact values, which avoid the branch cuts and the zeros of the denominators; limits along the filter of accuracies; conjugate pairs stay exact conjugates, so that the pairing is eventually that of the exact design |
| C105 | `cplxreal_dyn`, `poly_dyn`, `zpk2tf_dyn`, `zpk2sos_dyn` and the output formats of `iirfilter_dyn` over IEEE 754 data (`Model/IeeeSections.lean`), sorts that may panic (`SortOf`) | NaN: the first sort of the poles panics; finite data: a relation between IEEE data and the rounded model of C86 with bounds on all intermediate results, carried through every step, and a sort of numbers lifted from the sort of data |
| C106 | `median`, `median_abs_deviation`, `mean` (`Model/Stats.lean`) | C01 and counting in the ascending arrangement: an element below the interval in the middle would leave too few samples in it |
| C107 | `fftconvolve`, `correlate`, `sosfilt_dyn`, `savgol_filter_dyn`, `autocorr` | C35 restated as a product of power series; the filter by C23, cancelling the denominator, which is a unit |
| C108 | the design and conversion pipeline on IEEE numbers (`Model/IeeeDesign.lean`, `Model/IeeeSections.lean`), number formats of growing accuracy and range | a filter on (format, library) pairs; each operation eventually stays finite and agrees with the rounded operation; the sign of a zero chooses between finitely many orders of conjugate pairs, each of which converges; C104's limit argument for each choice |
| C109 | the four frequency transformations and the bilinear transformation on IEEE numbers (`Model/IeeeDesign.lean`), called with any filter | as C108 for one step with a constant filter; a root of a negative real may have either sign, which only swaps the two halves of the list; the panic by cases on the relative degree |
| C110 | `Model/Stats.lean` | counting of samples on either side of the median; the parallel-axis identity for sums of squares; Cauchy-Schwarz; summing a symmetric matrix by diagonals |
| C111 | `Model/Design/Iirfilter.lean`, `Model/Sosfilt.lean` | reflecting the axis is `s -> 16/s` before the bilinear transform; identities of transfer functions extended by continuity from the points the substitutions cover; equal responses give equal outputs (C92) |
| C112 | same | the Butterworth denominator is palindromic, so the complementary response is `(iv)^N` times the other; Parseval's identity on the circle |
| C113 | `Model/Savgol.lean` | the coefficients are the unique weights of least norm with given moments; reflections and rescalings of them satisfy the same characterisation, hence are equal |
| C114 | `Spec/Scaling.lean`, the models of filters and statistics | a relation kept by every arithmetic operation the code performs is kept by the whole function; `b = c a` with `c` an exact factor, and `b = -a` up to the sign of zero, are such relations |
| C115 | `Model/Combinatorics.lean`, `Model/Factorial.lean` | a returned value is the exact one (C10-C16), so the identities carry over; the panic conditions are monotone |
| C116 | `Model/Design/*.lean` | the exact response of C85, the pass band being the frequencies whose prototype frequency is at most 1; Chebyshev polynomials grow with the order and with the argument above 1 |
| C117 | `Model/Sosfilt.lean`, `Model/Sosfiltfilt.lean` | the difference of two runs is a run of the differences; a weighted induction over the samples gives a bound proportional to the initial difference, for the weights rho^i and 1; the two passes of `sosfiltfilt_dyn` are compared sample by sample around the position |
| C118 | `Model/Sosfilt.lean`, `Model/Sosfiltfilt.lean` | from rest the output is convolution with the impulse response (power series modulo X^len, from C23); the two passes from rest give the truncated autocorrelation; initial states, truncation and padding are bounded by geometric sums with C117's run bound |
| C119 | `Model/ExtRelease.lean` | all size arithmetic is that of the build; in memory (`Spec/InMemory.lean`) no sum of sizes wraps, so the loops agree with those of C29; where the new length wraps the first loop leaves the new matrix |
| C120 | `Model/Sosfilt.lean`, `Model/Sosfiltfilt.lean` | the output for a sinusoid, by C76 and by convolution with the impulse response: uniqueness of limits gives the series; the kernel likewise from C77 and C118; dominated convergence gives the inverse transforms |
| C121 | `Model/Sosfilt.lean` | convolution with the impulse response (C118); the worst input is the sign pattern of the reversed impulse response; the power series of an absolutely summable impulse response times the denominators is the numerators, evaluated at the inverse of a pole |
| C122 | `Model/Rounded/Zpk2sos.lean` | invariant of the loop over the roots: computed, exact and majorising coefficients; the errors of the complex product and sum per pass; Rouche-like comparison outside the circle |
| C123 | `Model/Rounded/*` | the gain as a product over the band poles and its rounding errors; pole errors of C101 and the pole margin give the relative error of every factor of the response; rounding of the section coefficients; C64 for the exact response |
| C124 | `Model/Sosfilt`, `Model/Rounded/*` | an invariant that writes state and output as responses of the section to the perturbed input, with geometric bounds from the pole margin; induction over the cascade; a trigonometric pole margin for Butterworth, C90–C92 for the design |
| C125 | `Model/SquareIeee.lean` | cases on finite, infinite and NaN operands; on finite times reduction to C78; induction over the array for the first panic |
| C126 | `Model/Convolve.lean`, spec `Spec/Interpolant.lean` | the real part of each kept frequency as a sum of cosines; periodicity and symmetry of the kernel; Parseval; band-limited exactness (C38) or equality of spectra for the two steps |
| C127 | `Model/Rounded/*` | the gain as a quotient of products over zeros and band poles and its rounding errors; C65 and a closure argument bound the exact denominator below by the numerator and by the distance of the edges; errors of zeros (C101) and of section coefficients against that floor |
| C128 | `Model/Rounded/*`, `Model/Sosfilt.lean` | the response errors of C123 and C127 and the energy inequality of C92 |
| C129 | `Model/Rounded/*` | condition number of the parameter of the prototype, distance of its poles and zeros from the unit circle and the real axis, then C86 and C87 |
| C130 | `Model/Rounded/*` | relative errors of the products that make up the gain, then of the factors of the response; the exact response from C55 |
| C131 | `Model/Rounded/*` | prototype poles as in C97, the quadratic of the band transform for poles of any size (scaling C101's estimates), margins from the half axes of the ellipse |
| C132 | `Model/Rounded/*`, `Model/Sosfilt.lean` | response error of C98 turned into an energy error by C92, the filtering error of C124 with the margin of C97, the gain from the response at the far end of the circle |
| C133 | `Model/Rounded/*` | gain of the prototype from C98, bandwidth and denominator as in C123 with the roots of C131, response by the product of the pole factors, sections as in C123 |
| C134 | `Model/Rounded/*`, `Model/Sosfilt` | energy of the difference from the responses of C123 and C133, gain from the response at a quarter of the sampling rate, rounding of the cascade by C124 |
| C135 | `Model/Rounded/*` | poles and zeros by C131, gain by the relative error of each factor, response by the floor that the Chebyshev formula puts under the denominator |
| C136 | `Model/Rounded/*`, `Model/Sosfilt` | energy of the difference from the responses of C127 and C135, gain from the energy of the response to an impulse, rounding of the cascade by C124 |
| C137 | `Model/Rounded/*`, `Model/Sosfiltfilt` | impulse response and zero-phase kernel as integrals of the frequency response (C120), closeness of the responses from C91, C98, C123, C127, C133 and C135, ends by C118, rounding of the filtering by C94 |

## Trusted base

* Lean's kernel (4.33.0) and Mathlib as installed.
* Axioms: every theorem of the manifest depends on a subset of `propext`, `Classical.choice` and `Quot.sound`
  (`AXIOMS.md` lists them per theorem). No axiom is added, nothing is left open, no compiled evaluation is used.
* The reading of the Rust code: each definition under `Verif/Model` is a transcription by hand, cites the lines it
  stands for, and says where it simplifies.
* Rust and its standard library: integer semantics (`Verif/Model/PrimInt.lean`), slices, iterators, `Vec`.
* External crates, as parameters or exact definitions:
  * `rustfft` transforms of length `N` are the exact unnormalised DFT and inverse DFT (`Model/Convolve.lean`); C96 assumes only a bound on their Euclidean error;
  * `lstsq::lstsq` solves the least-squares problem with least norm (`Spec/LeastSquares.lean`; hypotheses of C33, C61);
  * `sort_unstable_by` returns a sorted permutation (`Sorts.Correct` in `Model/Design/Cplx.lean`); for C105, where its
    comparisons can panic, what is assumed is `SortOf` in `Model/IeeeSections.lean`;
  * `nalgebra` and `ndarray` containers are lists or functions on index sets; `num_complex::Complex::sqrt` is the
    principal square root.
  * for the design code in floating point (C86 and later), `num_complex` computes products, quotients, `exp`, `sinh` and `sqrt` by the formulas in
    `Spec/NumComplex.lean` (the crate's source is not available offline); the real functions of the mathematical
    library are arbitrary apart from the symmetries listed in `Libm`; C90-C92, C97, C98, C101, C123,
    C124 and C127-C137 assume in addition the accuracies listed in `Libm.Accurate`; of these C97, C98 and C129-C137 also
    those in `Libm.AccurateHyp`, and C101, C123, C127, C128, C131 and C133-C137 those in `Libm.AccuratePolar`. C104,
    C108 and C109 assume all three, for an accuracy that tends to zero (`AccurateTo`). C102, C105, C108 and C109 assume that the
    library on IEEE data agrees with it where results are finite (`Lib.Agrees`, `Lib.AgreesDesign`, `Lib.AgreesSos`).
* Exact arithmetic: the theorems about values over a field, `ℝ` or `ℂ` say what the algorithm computes without
  rounding. C68-C72, C78, C80, C93-C96, C114, C117, C118 and the filtering part of C124, C132, C134, C136 and C137 include rounding to
  nearest even and gradual underflow, not overflow or NaN. C86, C87, C90-C92, C97, C98, C101, C104, C122, C123 and
  C127-C137 do the same for the design code; zeros have no sign there, which affects only which of the two square roots
  of a negative number comes first. C81-C83, C99, C100, C102, C105, C108, C109 and C125 include overflow, infinities,
  NaN and signed zeros (`Spec/Ieee.lean`; the payload of a NaN is not modelled). C01, C02, C20-C22, C24 (length,
  causality, coefficients), C27 (panics), C29, C30, C53 hold over arbitrary carriers, hence for IEEE floats as they are.

## What is modelled

Every public function of `sci-rs/src` except the parts listed below: `stats.rs`, `linalg/companion.rs`, `special/*`,
`signal/convolve.rs`, `signal/resample.rs`, `signal/wave/mod.rs`, `signal/filter/*` and `signal/filter/design/*`.

Not modelled: `plot.rs` (spawns a Python process), re-exported external crates (`kalmanfilt`, `gaussfilt`), memory
exhaustion, stack depth, performance, `sci-rs-test`, benches.

## What the code gets wrong

Each is proved with a witness about the model; the theorem that remains true is marked `_partial` or has the missing
condition as an explicit hypothesis.

| property | finding | theorem |
|---|---|---|
| C02 | with a NaN in the data the median depends on the order of the samples | `C02_nan_order_dependent` |
| C05 | `autocorr_fast32` overwrites the sum of the last incomplete tile: those products are lost | `C05_wrong` |
| C12 | `factorialk`: the loop counter overflows after the last factor: spurious panic, wrong value or endless loop | `C12_spurious_panic`, `C12_wrong_value`, `C12_diverges` |
| C13 | `comb` multiplies before dividing: `10u8.comb(5)` panics although 252 fits | `C13_spurious_panic`, `C13_wrong_value` |
| C14 | `comb_rep(0, 0)` is 0, not 1 | `C14_zero` |
| C18 | `chbevl` consumes the first coefficient twice; the effect on `i0e` stays below 1e-17 | `C18_wrong`, `C18_i0e_error` |
| C19, C27 | without overflow checks `companion_dyn` with a declared length below 2, hence `lfilter_zi_dyn` of a filter of order zero, writes out of bounds | `C19_safety_builds`, `C27_builds` |
| C28 | `sosfilt_zi_dyn` removes the transient only for sections with `a0 = 1` | `C28_needs_normalised` |
| C33 | `savgol`: the factorial of the derivative order overflows `usize` without a panic in unchecked builds | `C33_derivative_overflow_false` |
| C36 | `Valid` returns nothing when the second input is longer, against its documentation | `C36_valid_documented_length_false` |
| C38 | `resample` drops the middle bin of odd lengths: `resample([1], 1) = [0]` | `C38_identity_odd_false` |
| C40, C42 | `lp2hp_zpk_dyn` and `lp2bs_zpk_dyn` are wrong for prototypes with finite zeros | `C40_lp2hp_finite_zero_wrong`, `C42_lp2bs_finite_zero_wrong` |
| C49, C66 | `zpk2tf_dyn` pads short numerators at the wrong end | `C49_fewer_zeros_wrong`, `C66_analog_ba_wrong` |
| C51 | `zpk2sos_dyn` adds missing zeros at the origin: the sections have `H` times a power of `z` | `C51_missing_zeros_at_origin` |
| C52 | `zpk2sos_dyn` panics on a conjugate pair closer to the real axis than the tolerance | `C52_near_real_panics` |
| C53 | `from_scipy_dyn` in an unchecked build accepts a wrapped product | `C53_unchecked_wraps` |
| C55 | `cheby2_dyn` panics for every argument | `C55_cheby2_always_panics` |
| C62 | analog sections of all-pole filters: wrong for even degrees, panic for odd degrees | `C62_analog_all_pole_wrong`, `C62_analog_all_pole_odd_panics` |
| C74 | `median` of integers: the sum of the two middle samples overflows; two `i8` samples of 100 have median -28 in unchecked builds | `C74_median_wraps_false` |
| C75 | `mean` of integers: panics or not depending on the order of the samples; 128 samples of type `i8` always panic | `C75_order_matters_false`, `C75_count_false`, `C75_wraps_false` |
| C69 | in `f64` the mean of `[0.1, 0.1, 0.1]` exceeds 0.1; the variance is not 0 and the z-scores are -1 | `C69_constant_false`, `C69_zscore_constant_false` |
| C78 | `square` with duty 1 gives -1 for negative times above -2^-52 in `f64` | `C78_duty_one_negative_false` |
| C79 | `resample` to a larger length and back halves the alternating component: `[1, -1]` comes back as `[0.5, -0.5]` | `C79_roundtrip_false` |
| C82 | sums overflow although the result is representable: the mean and the median of two samples equal to the largest `f64` are infinite; the z-scores of `2^600` and `-2^600` are zeros | `C82_mean_overflow_false`, `C82_median_overflow_false`, `C82_zscore_overflow_false` |
| C83 | `i0` of an infinity is NaN (infinity divided by infinity); `i0(710)` is infinite in `f64` although the value is representable | `C83_i0_infinity_false`, `C83_i0_overflow_false` |
| C84 | a valid request for sections panics when a complex pole is within 100 epsilon of the real axis: in `f32` a second-order Butterworth filter at 0.1 Hz for 48 kHz (`cplxreal_dyn` counts the poles twice) | `C84_low_edge_panics`, exactly when: `C84_returns_iff` |
| C87 | valid requests give unstable filters when the edge is small for the precision: in `f32` a first-order low-pass at 2^-30 of the Nyquist frequency has its pole exactly at one, so the section integrates | `C87_low_edge_false`; with a margin: `C87_stable_partial` |
| C88 | analog filters with fewer zeros than poles come back `x^(#p-#z)` times too large, as coefficients or as sections (every low-pass and band-pass); odd-order analog low-pass sections panic; `s(s²+100)/((s+1)(s+2)(s+3))`, with equal counts, panics | `C88_analog_ba`, `C88_analog_sos`, `C88_equal_counts_panics`, exactly: `C88_sound` |
| C100 | a NaN critical frequency or sampling rate, and a Chebyshev I ripple of zero or NaN, pass the checks (they are all comparisons, `rp < 0` for "must be positive") and yield a filter whose poles and gain are NaN | `C100_nan_edge`, `C100_nan_accepted`, `C100_ripple`, `C100_zero_rate` |
| C102 | Butterworth low-pass and high-pass filters of order 33 and more in `f32` (257 and more in `f64`) silently get gain zero or NaN: the gain is computed by one complex division whose denominator is squared | `C102_high_order_wrong`, `C102_f32_order_33_wrong`, `C102_f64_order_257_wrong` |
| C103 | digital Chebyshev II band-stop filters of order two and more have gain zero; high-pass ones amplify the Nyquist frequency by 1.5 or more (the zeros are transformed wrongly, C40 and C42) | `C103_bandstop_wrong`, `C103_bandstop_silent`, `C103_highpass_wrong` |
| C105 | the same requests as in C100 panic (`unwrap` of a comparison with NaN) when sections are asked for; the sections of the filters of C102 have a first numerator of zeros and NaN | `C105_nan_edge_panics`, `C105_ripple_panics`, `C105_first_order_nan`, `C105_f32_order_33_wrong` |
| C119 | `odd_ext_dyn` on one-byte elements writes out of bounds in a build without overflow checks when `len + 2 n` wraps (a column of a third of the address space is enough) | `C119_one_byte`, `C119_one_byte_ub` |
| C122 | transfer functions of stable poles computed in floating point can be unstable | `C122_stable_false` |
| C125 | a NaN or infinite time makes `square` panic in a debug build and silently gives −1 in a release build | `C125_panics`, `C125_release` |

## Tests of the transcription

`lean/Verif/Conformance` replays unit tests of `/repo` on the model: the inputs, expected values and tolerances are those
of the tests. The special functions, `companion_dyn`, the initial conditions of `lfilter` and `sosfilt`, the extensions
of `sosfiltfilt`, `sosfilt`, `median`, `i0e` and the Savitzky–Golay filter are evaluated by the kernel on integers or
rational numbers; for `convolve` and `correlate` the values follow from C35–C37. These are tests of the transcription, not
properties, and no property counts them. None disagreed.

## Tests of the theorems

`seeded/LOG.jsonl` records edits of the model that imitate bugs. Each was made in a scratch copy; every module that
depends on the edit was elaborated again, with failed proofs left open, and a property theorem counts as failed when it
no longer elaborates or depends on an open proof.

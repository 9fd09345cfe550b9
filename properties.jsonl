{"id": "C01", "title": "median is the true order-statistic median", "statement": "For every non-empty sequence of totally ordered field values, median returns (m, n) where n is the number of samples and m is the middle element of the sorted sequence when n is odd and the average of the two middle elements when n is even; for the empty sequence it returns (0, 0). It never panics.", "quantifier": "all finite sequences, any length, any duplicates, any input order", "why_tests_cant": "quickselect's branch structure depends on the unbounded set of orderings and duplicate patterns; tests sample a handful of permutations", "anchors": ["sci-rs/src/stats.rs: quickselect, median"]}
{"id": "C02", "title": "median does not depend on the order of the samples", "statement": "Rearranging the samples does not change the result of median; for a carrier with incomparable elements (NaN) this guarantee fails, and a concrete counterexample exists.", "quantifier": "all pairs of sequences that are permutations of one another", "why_tests_cant": "n! permutations of every length", "anchors": ["sci-rs/src/stats.rs: quickselect, median"]}
{"id": "C03", "title": "mean, variance and stdev are the population statistics", "statement": "For every non-empty sequence mean returns sum/n with the count, variance returns the mean of squared deviations (equivalently mean of squares minus square of the mean), stdev its non-negative square root; the empty sequence gives (0,0). Variance is non-negative, is zero iff all samples are equal, is unchanged by adding a constant and scales with the square of a factor.", "quantifier": "all finite real sequences, shifts and scale factors", "why_tests_cant": "identities over unboundedly many inputs; zero-variance iff constant needs both directions for every length", "anchors": ["sci-rs/src/stats.rs: mean, variance, stdev"]}
{"id": "C04", "title": "autocorr is a normalised autocorrelation", "statement": "For every non-constant sequence, autocorr(y, 0) = 1, autocorr(y, k) = 0 when k is at least the length, |autocorr(y,k)| <= 1 for every lag, and the value is invariant under affine rescaling of y by a non-zero factor.", "quantifier": "all finite real sequences with non-zero variance, all lags", "why_tests_cant": "a Cauchy-Schwarz bound for every sequence and lag cannot be sampled", "anchors": ["sci-rs/src/stats.rs: autocorr"]}
{"id": "C05", "title": "autocorr_fast32 computes the same lags as autocorr", "statement": "For every buffer length N, lag count M and SKIP with N >= M + SKIP, entry i of the output of autocorr_fast32 is the autocorrelation at lag SKIP+i, and the panic occurs exactly when N < M + SKIP. (The code violates this whenever N - lag is not a multiple of 4; the exact value it returns is characterised.)", "quantifier": "all buffers, all N, M, SKIP", "why_tests_cant": "the tile/remainder split interacts with N, SKIP and the lag modulo 4; tests use one N", "anchors": ["sci-rs/src/stats.rs: autocorr_fast32"]}
{"id": "C06", "title": "rms_fast32 is the root mean square", "statement": "For every non-empty buffer rms_fast32 returns the non-negative square root of the mean of the squares, irrespective of the length modulo the tile size.", "quantifier": "all buffers of every length", "why_tests_cant": "tile and remainder loops must be right for every length residue", "anchors": ["sci-rs/src/stats.rs: rms_fast32"]}
{"id": "C07", "title": "lag_diff and rmssd are first differences", "statement": "lag_diff of n >= 1 samples has n-1 entries, entry i is y[i+1]-y[i], and together with y[0] it determines y; rmssd is the root of the mean of the squared successive differences and is unchanged by adding a constant.", "quantifier": "all finite sequences", "why_tests_cant": "unbounded lengths; reconstruction is a statement about every prefix", "anchors": ["sci-rs/src/stats.rs: lag_diff, rmssd"]}
{"id": "C08", "title": "zscore standardises", "statement": "For every non-constant sequence, zscore keeps the length and order of samples, its output has mean 0 and variance 1, and it is invariant under positive affine rescaling of the input.", "quantifier": "all finite real sequences with non-zero variance", "why_tests_cant": "algebraic identity over all inputs", "anchors": ["sci-rs/src/stats.rs: zscore"]}
{"id": "C09", "title": "median_abs_deviation and mod_zscore are the robust statistics", "statement": "median_abs_deviation is the median of the absolute deviations from the median; mod_zscore maps y to (y - median)*0.6745/MAD. MAD is non-negative, unchanged by shifts and scales with the absolute value of a factor.", "quantifier": "all finite sequences, all shifts and factors", "why_tests_cant": "order statistics under scaling by negative factors reverse the order; all lengths and patterns", "anchors": ["sci-rs/src/stats.rs: median_abs_deviation, mod_zscore"]}
{"id": "C10", "title": "factorial is exact or panics", "statement": "For each primitive integer type and every value n: negative n gives 0; otherwise, if n! is representable the call returns exactly n!, and in a build with overflow checks it panics exactly when n! is not representable.", "quantifier": "all twelve integer types, every value of the type, both pointer widths", "why_tests_cant": "2^128 inputs; cached/uncached boundary and type-dependent unwraps", "anchors": ["sci-rs/src/special/factorial.rs: primint_factorial, partial_product, FACTORIAL_CACHE"]}
{"id": "C11", "title": "factorial2 is the exact double factorial or panics", "statement": "For every n: negative gives 0; if n!! is representable the call returns n!!; with overflow checks it panics otherwise.", "quantifier": "all integer types and values", "why_tests_cant": "as above; the table boundary differs for even and odd n", "anchors": ["sci-rs/src/special/factorial.rs: primint_factorial2, FACTORIAL2_CACHE"]}
{"id": "C12", "title": "factorialk is the exact multifactorial or panics", "statement": "For every n and every k>0, if the multifactorial n(n-k)(n-2k)... is representable in the type then factorialk returns it. (The code violates this: the loop counter itself can overflow. The exact set of inputs on which the checked build succeeds is characterised, and in an unchecked build some inputs return a wrong number and some do not terminate.)", "quantifier": "all integer types, n and k>0, checked and unchecked builds", "why_tests_cant": "the failing inputs are at the very top of the type's range; non-termination cannot be observed by a passing test", "anchors": ["sci-rs/src/special/factorial.rs: primint_factorialk, partial_product"]}
{"id": "C13", "title": "comb is the exact binomial coefficient or panics", "statement": "For every n,k: out-of-range arguments give 0; otherwise, whenever C(n,k) is representable comb returns it. (Violated: the intermediate product min(k,n-k)*C(n,k) must also be representable and n must be below the maximum; the exact success set is characterised.) Whenever comb returns without overflow, it returns C(n,k): the integer division is always exact.", "quantifier": "all integer types and n,k", "why_tests_cant": "division exactness is a number-theoretic fact about every n,k; overflow boundary has infinitely many (type,n,k) combinations", "anchors": ["sci-rs/src/special/combinatorics.rs: primint_comb"]}
{"id": "C14", "title": "comb_rep counts multisets", "statement": "comb_rep(n,k) returns the number of multisets of size k from n elements (0 for n=k=0) whenever the call does not overflow.", "quantifier": "all integer types and n,k", "why_tests_cant": "infinitely many pairs", "anchors": ["sci-rs/src/special/combinatorics.rs: primint_comb_rep"]}
{"id": "C15", "title": "perm counts injections, exactly or panics", "statement": "perm(n,k) returns n!/(n-k)! for 0<=k<=n, 0 outside that range, and panics in a checked build exactly when the product is not representable, n is the maximum of the type, or n+1 is not a usize (possible for types wider than a pointer).", "quantifier": "all integer types and n,k", "why_tests_cant": "infinitely many pairs and the type boundary", "anchors": ["sci-rs/src/special/combinatorics.rs: primint_perm"]}
{"id": "C16", "title": "stirling2 counts set partitions", "statement": "stirling2(n,k) returns the Stirling number of the second kind, and in a checked build panics exactly when that number is not representable (no spurious overflow in intermediate results).", "quantifier": "all integer types and n,k", "why_tests_cant": "recursion of unbounded depth; needs monotonicity of all intermediate values", "anchors": ["sci-rs/src/special/combinatorics.rs: primint_stirling2"]}
{"id": "C17", "title": "i0 and i0e are even and consistent", "statement": "For every real x, i0(-x)=i0(x), i0e(-x)=i0e(x), i0(x)=exp(|x|)*i0e(x), the two regimes split at |x|=8, and on Vec/array arguments the functions act elementwise preserving length and order.", "quantifier": "all real x; all sequences", "why_tests_cant": "continuum of inputs", "anchors": ["sci-rs/src/special/xsf/i0.rs: i0, i0e", "sci-rs/src/special/bessel.rs"]}
{"id": "C18", "title": "the Chebyshev evaluator sums the Chebyshev series", "statement": "For every coefficient list and every x, the evaluator used by i0/i0e returns the Chebyshev series sum of the coefficients at x/2. (Violated: the leading coefficient is consumed twice; the exact value returned and the error, at most |c0| on [-2,2], are proved.)", "quantifier": "all coefficient lists and all arguments", "why_tests_cant": "the defect is 1e-18 for the shipped tables, far below any test tolerance, and a general identity cannot be sampled", "anchors": ["sci-rs/src/special/xsf/chbevl.rs: chbevl"]}
{"id": "C19", "title": "companion_dyn is the companion matrix and stays in bounds", "statement": "For every coefficient list of length m >= 2 with declared length m, the result is the (m-1)x(m-1) companion matrix: first row -a[i+1]/a[0], unit subdiagonal, zeros elsewhere; every root r of the polynomial is an eigenvalue with eigenvector of descending powers of r; all unchecked writes are in bounds. When the iterator yields more than the declared length, an out-of-bounds write is reached. In a build without overflow checks a declared length below 2 reaches an out-of-bounds write whenever the iterator is not empty.", "quantifier": "all coefficient lists and declared lengths, all roots", "why_tests_cant": "unsafe writes: a test passing does not show absence of undefined behaviour", "anchors": ["sci-rs/src/linalg/companion.rs: companion_dyn"]}
{"id": "C20", "title": "all cascade implementations compute the same floating-point result", "statement": "sosfilt_dyn (whichever specialised arm the number of sections selects), sosfilt_st and repeated sosfilt_item produce the same outputs and the same final section states, operation for operation, hence bit for bit in any arithmetic.", "quantifier": "all section lists of every length, all inputs, any interpretation of + - *", "why_tests_cant": "unbounded number of sections and samples; bit-for-bit equality for every float", "anchors": ["sci-rs/src/signal/filter/sosfilt.rs: sosfilt_dyn, sosfilt_st, sosfilt_item, biquad_fold"]}
{"id": "C21", "title": "filtering can be chunked and resumed", "statement": "Filtering a signal in any number of consecutive chunks, carrying the section states over, yields exactly the output and final state of filtering it in one call.", "quantifier": "all signals, all ways of cutting them, all section lists, any arithmetic", "why_tests_cant": "exponentially many cuts for every signal", "anchors": ["sci-rs/src/signal/filter/sosfilt.rs: sosfilt_dyn, sosfilt_item, sosfilt_fast32_st, sosfilt_ifast32_st"]}
{"id": "C22", "title": "the fast 32-bit kernels equal the reference cascade", "statement": "sosfilt_fast32_st writes into the output buffer exactly what sosfilt_dyn would return and leaves the same section states, for every number of sections and every length (tiled or not); the integer kernel does so on the converted samples; both panic exactly when buffer lengths differ.", "quantifier": "all section lists, all buffer lengths, any arithmetic", "why_tests_cant": "the tiled path is selected by (sections, length mod 4); all combinations times all lengths", "anchors": ["sci-rs/src/signal/filter/sosfilt.rs: _sosfilt32, _sosfilt_isize_32, sosfilt_fast32_st, sosfilt_ifast32_st"]}
{"id": "C23", "title": "sosfilt realises the product transfer function", "statement": "From zero state, the output of the cascade, as a power series in z^-1, times the product of the denominators 1+a1 z^-1+a2 z^-2 equals the input series times the product of the numerators b0+b1 z^-1+b2 z^-2.", "quantifier": "all section lists, all input signals over any commutative ring", "why_tests_cant": "a statement on all samples of all signals", "anchors": ["sci-rs/src/signal/filter/sosfilt.rs: sosfilt_item, sosfilt_dyn"]}
{"id": "C24", "title": "sosfilt is linear, causal, shift-invariant and length-preserving", "statement": "Output length equals input length; the output prefix depends only on the input prefix; filtering (input, state) is linear in exact arithmetic; prepending zeros delays the output from zero state.", "quantifier": "all signals, states, section lists, scalars", "why_tests_cant": "universally quantified functional equation", "anchors": ["sci-rs/src/signal/filter/sosfilt.rs"]}
{"id": "C25", "title": "section order does not matter in exact arithmetic", "statement": "From zero state, permuting the sections of a cascade does not change the output signal.", "quantifier": "all section lists and permutations, all signals over any field", "why_tests_cant": "all permutations of all cascades", "anchors": ["sci-rs/src/signal/filter/sosfilt.rs: sosfilt_dyn"]}
{"id": "C26", "title": "stable sections give bounded output", "statement": "If for every section the roots of z^2+a1 z+a2 are inside the unit circle then, from any initial state, every bounded input gives a bounded output with a bound independent of signal length, and the response to zero input decays geometrically.", "quantifier": "all stable cascades, all bounded signals of any length", "why_tests_cant": "a bound uniform over infinitely long runs", "anchors": ["sci-rs/src/signal/filter/sosfilt.rs"]}
{"id": "C27", "title": "lfilter_zi_dyn is the step-response steady state", "statement": "For all b, a of equal length m >= 2 with a[0] != 0 and sum(a) != 0, the returned vector is the unique transposed-direct-form-II state that a unit constant input leaves unchanged; the panics occur exactly for the documented invalid inputs. (Without overflow checks a filter of order zero, one coefficient in b and in a, writes out of bounds.)", "quantifier": "all coefficient vectors of all lengths", "why_tests_cant": "linear system of unbounded size", "anchors": ["sci-rs/src/signal/filter/lfilter_zi.rs: lfilter_zi_dyn"]}
{"id": "C28", "title": "sosfilt_zi_dyn removes the start-up transient", "statement": "After sosfilt_zi_dyn, scaling the states by the first sample makes a constant input give a constant output equal to the input times the product of the sections' DC gains, and leaves all states unchanged.", "quantifier": "all section lists with non-zero denominator sums, all constants, all lengths", "why_tests_cant": "all lengths and cascades", "anchors": ["sci-rs/src/signal/filter/sosfilt_zi.rs: sosfilt_zi_dyn"]}
{"id": "C29", "title": "odd extension is in bounds and point-symmetric", "statement": "odd_ext_dyn(x,n,axis) panics iff axis>=2 or (n>0 and n is not smaller than the extended dimension); otherwise all unchecked reads/writes are in bounds, every cell is written, the shape grows by 2n, the middle is x, and the extension is the point reflection about the end samples. pad returns the input unchanged when no padding is requested and panics for Even/Constant with positive length.", "quantifier": "all matrices, pad lengths, axes, pad types", "why_tests_cant": "unsafe index arithmetic over all shapes", "anchors": ["sci-rs/src/signal/filter/ext.rs: pad, odd_ext_dyn"]}
{"id": "C30", "title": "sosfiltfilt_dyn keeps the length and panics exactly on short input", "statement": "The output has the length of the input; the call panics exactly when the input is not longer than 3*ntaps (ntaps computed from the number of sections and the trailing zero coefficients) or some section has an all-zero denominator; it does not depend on the states stored in the passed sections.", "quantifier": "all section lists, all signals", "why_tests_cant": "padding and trimming arithmetic for all lengths", "anchors": ["sci-rs/src/signal/filter/sosfiltfilt.rs: sosfiltfilt_dyn"]}
{"id": "C31", "title": "sosfiltfilt_dyn has squared DC gain and is linear", "statement": "A constant signal is mapped to the constant times the square of the cascade's DC gain; the operation is linear in the signal in exact arithmetic.", "quantifier": "all section lists with non-zero denominator sums, all signals longer than the padding", "why_tests_cant": "all signals", "anchors": ["sci-rs/src/signal/filter/sosfiltfilt.rs: sosfiltfilt_dyn"]}
{"id": "C32", "title": "savgol_filter_dyn validates and preserves length", "statement": "The call panics iff the window is even or smaller than polyorder+2, or (overflow checks on) the factorial of the requested derivative order does not fit in usize; otherwise every signal, including an empty one and ones shorter than the window, yields an output of the same length.", "quantifier": "all signals, windows, orders", "why_tests_cant": "padding arithmetic for all lengths and windows", "anchors": ["sci-rs/src/signal/filter/savgol_filter.rs: savgol_filter_dyn, savgol_coeffs_dyn"]}
{"id": "C33", "title": "Savitzky-Golay reproduces polynomials", "statement": "In exact arithmetic, at every output index at least half a window from the ends, filtering samples (spacing delta) of a polynomial of degree at most polyorder returns the polynomial (or its requested derivative) at that point, whatever least-squares solution the solver returns, as long as the factorial of the derivative order fits in usize; constant signals are reproduced everywhere for derivative 0. Without overflow checks the derivative order 66 on a 64-bit target silently gives zeros.", "quantifier": "all polynomials, windows, orders, derivatives, positions", "why_tests_cant": "all polynomials of all degrees", "anchors": ["sci-rs/src/signal/filter/savgol_filter.rs: savgol_filter_dyn, savgol_coeffs_dyn"]}
{"id": "C34", "title": "square is a 2*pi-periodic pulse of the given duty", "statement": "For every t and duty in [0,1], square returns +1 when the phase of t modulo 2*pi lies in [0, 2*pi*duty) and -1 otherwise; it is 2*pi-periodic, also for negative t; it panics iff duty is outside [0,1]; shape is preserved.", "quantifier": "all real t, all duty", "why_tests_cant": "continuum of t, the remainder's sign for negative t", "anchors": ["sci-rs/src/signal/wave/mod.rs: square"]}
{"id": "C35", "title": "fftconvolve Full is the discrete convolution", "statement": "For all inputs, not both empty, Full mode returns the length n1+n2-1 linear convolution regardless of the power-of-two padding; it panics iff both inputs are empty.", "quantifier": "all pairs of sequences", "why_tests_cant": "padding/wrap-around for all length pairs", "anchors": ["sci-rs/src/signal/convolve.rs: fftconvolve"]}
{"id": "C36", "title": "fftconvolve Valid and Same return the right window", "statement": "Same returns n1 samples of the full convolution centred; Valid returns, for n1>=n2>0, the n1-n2+1 fully overlapping samples. When n1<n2, Valid returns an empty vector although the documentation promises max-min+1 samples.", "quantifier": "all pairs of sequences", "why_tests_cant": "index arithmetic for all length pairs and parities", "anchors": ["sci-rs/src/signal/convolve.rs: fftconvolve"]}
{"id": "C37", "title": "correlate is cross-correlation", "statement": "correlate(x,y,mode) is the convolution with the reversed second argument, so entry j of Full is the sum over i of x[i]*y[i+n2-1-j]; autocorrelation attains its maximum at zero lag and is symmetric.", "quantifier": "all pairs of sequences", "why_tests_cant": "all inputs", "anchors": ["sci-rs/src/signal/convolve.rs: correlate"]}
{"id": "C38", "title": "resample returns n samples and preserves the signal", "statement": "resample(x,n) has length n; resampling to the same length returns the signal. (Violated for odd lengths: the middle spectral bin is dropped. For even lengths it is proved, for odd lengths the exact loss is characterised with a counterexample.)", "quantifier": "all signals and target lengths", "why_tests_cant": "all lengths and parities", "anchors": ["sci-rs/src/signal/resample.rs: resample"]}
{"id": "C39", "title": "lp2lp_zpk_dyn rescales frequency", "statement": "The returned zeros, poles and gain describe H(s/wo): for every s where both are defined the transfer functions agree.", "quantifier": "all z,p,k with at most as many zeros as poles, all wo != 0, all complex s", "why_tests_cant": "all zero/pole configurations and all s", "anchors": ["sci-rs/src/signal/filter/design/lp2lp_zpk.rs"]}
{"id": "C40", "title": "lp2hp_zpk_dyn inverts frequency", "statement": "The returned zeros, poles and gain describe H(wo/s). (Holds for prototypes without finite zeros; the code's zero and gain formulas are wrong otherwise, with a counterexample.)", "quantifier": "all prototypes, all wo, all s", "why_tests_cant": "the library's tests only use zero-free prototypes", "anchors": ["sci-rs/src/signal/filter/design/lp2hp_zpk.rs"]}
{"id": "C41", "title": "lp2bp_zpk_dyn is the band-pass substitution", "statement": "The returned zeros, poles and gain describe H((s^2+wo^2)/(bw*s)) for every s != 0.", "quantifier": "all prototypes, wo, bw != 0, s", "why_tests_cant": "all configurations; square-root branch choices", "anchors": ["sci-rs/src/signal/filter/design/lp2bp_zpk.rs"]}
{"id": "C42", "title": "lp2bs_zpk_dyn is the band-stop substitution", "statement": "The returned zeros, poles and gain describe H(bw*s/(s^2+wo^2)). (Holds for prototypes without finite zeros; counterexample otherwise.)", "quantifier": "all prototypes, wo, bw, s", "why_tests_cant": "tests only use zero-free prototypes", "anchors": ["sci-rs/src/signal/filter/design/lp2bs_zpk.rs"]}
{"id": "C43", "title": "bilinear_zpk_dyn is the bilinear substitution", "statement": "The returned zeros, poles and gain describe H(2*fs*(z-1)/(z+1)) for every z != -1 where defined, with all missing zeros at -1; it maps the open left half plane into the open unit disc.", "quantifier": "all prototypes, fs>0, all z", "why_tests_cant": "all configurations", "anchors": ["sci-rs/src/signal/filter/design/bilinear_zpk.rs"]}
{"id": "C44", "title": "relative degree is checked", "statement": "Every transform panics iff there are more zeros than poles, and otherwise the number of zeros of the result is as required (equal numbers of zeros and poles for high-pass, band-stop and digital outputs).", "quantifier": "all zero and pole lists", "why_tests_cant": "all list lengths", "anchors": ["sci-rs/src/signal/filter/design/relative_degree.rs", "sci-rs/src/signal/filter/design/lp2hp_zpk.rs"]}
{"id": "C45", "title": "buttap_dyn is the Butterworth prototype", "statement": "For every order N the prototype has N poles, all in the open left half plane and on the unit circle, and |H(i w)|^2 = 1/(1+w^(2N)) for every real w.", "quantifier": "all orders, all real frequencies", "why_tests_cant": "all orders; a continuum of frequencies", "anchors": ["sci-rs/src/signal/filter/design/iirfilter.rs: buttap_dyn"]}
{"id": "C46", "title": "cheb1ap_dyn is the Chebyshev I prototype", "statement": "For every order N>=1 and ripple rp>0, all poles are in the open left half plane and |H(i w)|^2 = 1/(1+eps^2 T_N(w)^2) with eps^2=10^(rp/10)-1; so the pass-band gain stays within the ripple.", "quantifier": "all orders, ripples, real frequencies", "why_tests_cant": "all orders; continuum", "anchors": ["sci-rs/src/signal/filter/design/iirfilter.rs: cheb1ap_dyn"]}
{"id": "C47", "title": "cheb2ap_dyn is the Chebyshev II prototype", "statement": "For every order N>=1 and attenuation rs>0, all poles are in the open left half plane, zeros are on the imaginary axis, and |H(i w)|^2 = 1/(1+1/(eps^2 T_N(1/w)^2)); so the stop-band attenuation is at least rs.", "quantifier": "all orders, attenuations, real frequencies", "why_tests_cant": "all orders; continuum", "anchors": ["sci-rs/src/signal/filter/design/iirfilter.rs: cheb2ap_dyn"]}
{"id": "C48", "title": "poly_dyn expands the product of root factors", "statement": "The returned list is the descending coefficient list of prod (X - z_i), has length n+1 and leading coefficient 1; when the roots are closed under conjugation the coefficients are real.", "quantifier": "all root lists", "why_tests_cant": "all lengths and multiplicities", "anchors": ["sci-rs/src/signal/filter/design/zpk2tf.rs: poly_dyn"]}
{"id": "C49", "title": "zpk2tf_dyn preserves the transfer function", "statement": "The returned numerator and denominator, read as scipy does, evaluate to the zpk transfer function at every point. (Holds when the requested order equals the pole count and there are as many zeros as poles; with fewer zeros the numerator is padded on the wrong side, with a counterexample.)", "quantifier": "all z,p,k,order and evaluation points", "why_tests_cant": "all configurations", "anchors": ["sci-rs/src/signal/filter/design/zpk2tf.rs: zpk2tf_dyn"]}
{"id": "C50", "title": "cplxreal_dyn splits roots into conjugate pairs and reals", "statement": "For every list closed under conjugation (with exactly real or clearly complex entries) the function does not panic and returns one upper-half-plane representative for each conjugate pair and all the reals, so the original multiset is recovered; if the numbers of upper and lower half-plane roots differ it panics.", "quantifier": "all conjugation-closed root lists in any order, any valid sort", "why_tests_cant": "all permutations, multiplicities and ties", "anchors": ["sci-rs/src/signal/filter/design/cplx.rs: cplxreal_dyn, sort_cplx_dyn"]}
{"id": "C51", "title": "zpk2sos_dyn factors the transfer function", "statement": "For every digital zpk with conjugation-closed zeros and poles (each exactly real or clearly complex) zpk2sos_dyn returns ceil(max(#z,#p)/2) sections with a0 = 1 whose numerators multiply to k*prod(x-z_i) and whose denominators multiply to prod(x-p_i), each completed to degree 2n by a power of x; with as many zeros as poles the product of the sections is the zpk transfer function, and otherwise the missing zeros or poles are put at the origin, as scipy does.", "quantifier": "all conjugation-closed zeros/poles of every count, default pairing", "why_tests_cant": "greedy pairing over unbounded lists", "anchors": ["sci-rs/src/signal/filter/design/zpk2sos.rs: zpk2sos_dyn"]}
{"id": "C52", "title": "zpk2sos_dyn does not panic on conjugation-closed input", "statement": "For every digital zpk with conjugation-closed zeros and poles (each exactly real or clearly complex), in default pairing, none of the assertions, index lookups or unwraps inside the pairing loop fails. (A pair that is complex but within the tolerance of the real axis makes it panic, with a witness.)", "quantifier": "all conjugation-closed zeros/poles of every count", "why_tests_cant": "greedy pairing: reachability of each assert over unbounded lists", "anchors": ["sci-rs/src/signal/filter/design/zpk2sos.rs: zpk2sos_dyn, nearest_real_complex_idx_dyn"]}
{"id": "C53", "title": "Sos::from_scipy_dyn reads rows of six", "statement": "In a build with overflow checks, from_scipy_dyn(order, data) panics iff 6*order differs from the data length; otherwise it returns order sections, section i built from entries 6i..6i+5 with zero state, and flattening recovers the data. Without overflow checks the product 6*order wraps, so a huge order is accepted for a short table (witness).", "quantifier": "all orders and data", "why_tests_cant": "all lengths", "anchors": ["sci-rs/src/signal/filter/design/sos.rs: Sos::from_scipy_dyn, Sos::new"]}
{"id": "C54", "title": "iirfilter_dyn accepts exactly the valid specifications", "statement": "iirfilter_dyn panics for every invalid combination of arguments (more than two edges, non-positive or non-increasing edges, negative ripple, fs with analog, digital edges outside (0,1), wrong edge count for the band type, missing ripple) and for every valid request in the zero-pole-gain or coefficient format it returns a filter.", "quantifier": "all argument combinations", "why_tests_cant": "large product of options and a continuum of edges", "anchors": ["sci-rs/src/signal/filter/design/iirfilter.rs: iirfilter_dyn"]}
{"id": "C55", "title": "cheby2_dyn returns a filter for valid arguments", "statement": "A valid Chebyshev II request returns a filter. (Violated: cheby2_dyn panics on every input, because the validation requires the pass-band ripple that it never passes.)", "quantifier": "all argument combinations", "why_tests_cant": "a universally failing entry point is only visible by proving it fails for all inputs", "anchors": ["sci-rs/src/signal/filter/design/iirfilter.rs: cheby2_dyn, iirfilter_dyn"]}
{"id": "C56", "title": "butter_dyn digital low-pass has the Butterworth response", "statement": "For every order N and every 0<Wn<1 the returned zpk filter satisfies |H(e^{iw})|^2 = 1/(1+(tan(w/2)/tan(pi*Wn/2))^(2N)) for all w in (-pi,pi): unit gain at DC, half power at Wn, zero at Nyquist, monotone.", "quantifier": "all orders, cut-offs and frequencies", "why_tests_cant": "continuum of cut-offs and frequencies, all orders", "anchors": ["sci-rs/src/signal/filter/design/butter.rs", "sci-rs/src/signal/filter/design/iirfilter.rs"]}
{"id": "C57", "title": "butter_dyn digital high-pass has the Butterworth response", "statement": "For every order N and every 0<Wn<1 the returned zpk filter satisfies |H(e^{iw})|^2 = 1/(1+(tan(pi*Wn/2)/tan(w/2))^(2N)) for all w in (-pi,pi), w != 0.", "quantifier": "all orders, cut-offs and frequencies", "why_tests_cant": "continuum, all orders", "anchors": ["sci-rs/src/signal/filter/design/butter.rs", "sci-rs/src/signal/filter/design/iirfilter.rs"]}
{"id": "C58", "title": "designed filters are stable", "statement": "Every pole of a digital low-pass, high-pass, band-pass or band-stop design (Butterworth, Chebyshev I with positive ripple, Chebyshev II with positive attenuation) lies strictly inside the unit circle, and every pole of an analog design strictly in the left half plane.", "quantifier": "all orders, families, band types and valid edges", "why_tests_cant": "continuum, all orders", "anchors": ["sci-rs/src/signal/filter/design/butter.rs", "sci-rs/src/signal/filter/design/iirfilter.rs"]}
{"id": "C59", "title": "the three output formats describe the same filter", "statement": "For the same digital request, the Zpk, Ba and Sos outputs evaluate to the same transfer function; the sections are stable, normalised and at rest.", "quantifier": "all orders, families, bands, edges and evaluation points (Chebyshev II high-pass and band-stop: except the edges for which the bilinear transform divides by zero); for Sos, roots that are real or further than the pairing tolerance from the real axis", "why_tests_cant": "all orders", "anchors": ["sci-rs/src/signal/filter/design/iirfilter.rs: iirfilter_dyn", "sci-rs/src/signal/filter/design/zpk2tf.rs", "sci-rs/src/signal/filter/design/zpk2sos.rs"]}
{"id": "C60", "title": "zero-phase low-pass filtering preserves constants", "statement": "Designing a digital Butterworth low-pass as SOS and applying sosfiltfilt_dyn to a constant signal longer than the padding returns that constant signal; a high-pass returns zeros.", "quantifier": "all orders, cut-offs, constants and lengths", "why_tests_cant": "composition of the whole pipeline", "anchors": ["sci-rs/src/signal/filter/design/butter.rs", "sci-rs/src/signal/filter/sosfiltfilt.rs"]}
{"id": "C61", "title": "Savitzky-Golay output is the least-squares fit of each window", "statement": "With a minimum-norm least-squares solver, every output sample (including those near the ends, where the signal is extended by its end values) equals the requested derivative at the window centre of any polynomial of degree at most polyorder that fits the window's samples best in the least-squares sense, divided by delta to the derivative order.", "quantifier": "all signals, odd windows, orders, derivatives, deltas, output positions", "why_tests_cant": "a claim about the optimum over all polynomials for all signals", "anchors": ["sci-rs/src/signal/filter/savgol_filter.rs: savgol_filter_dyn, savgol_coeffs_dyn"]}
{"id": "C62", "title": "zpk2sos_dyn on analog filters", "statement": "For every analog zpk with conjugation-closed zeros and poles and at least as many poles as zeros, the product of the returned sections is the analog transfer function. (Holds for equally many zeros and poles, an even number; violated for every filter without zeros: it panics for an odd number of poles, and for an even number the sections have the transfer function s^(#p) H(s).)", "quantifier": "all conjugation-closed zeros/poles of every count, analog mode", "why_tests_cant": "greedy pairing over unbounded lists; the wrong alignment affects every frequency differently", "anchors": ["sci-rs/src/signal/filter/design/zpk2sos.rs: zpk2sos_dyn, single_zpksos_dyn", "sci-rs/src/signal/filter/design/zpk2tf.rs: zpk2tf_dyn"]}
{"id": "C63", "title": "cheby1_dyn digital designs have the Chebyshev I response", "statement": "For every order N>=1, ripple rp>0 and valid edges, the returned zpk filter satisfies |H(e^{iw})|^2 = 1/(1+(10^(rp/10)-1) T_N(v)^2) where v is the pre-warped frequency of the band (tan(w/2)/tan(pi W/2) for low-pass, its inverse for high-pass, the usual quotients for band-pass and band-stop).", "quantifier": "all orders, ripples, edges and frequencies, four bands", "why_tests_cant": "continuum of ripples, edges and frequencies, all orders", "anchors": ["sci-rs/src/signal/filter/design/iirfilter.rs: cheby1_dyn, iirfilter_dyn"]}
{"id": "C64", "title": "butter_dyn digital band-pass has the Butterworth response", "statement": "For every order N>=1 and 0<A<B<1, with t=tan(w/2), a=tan(pi A/2), b=tan(pi B/2): |H(e^{iw})|^2 = 1/(1+((t^2-ab)/(t(b-a)))^(2N)) for w != 0 in (-pi,pi), zero at DC and Nyquist, half power at both edges.", "quantifier": "all orders, edges and frequencies", "why_tests_cant": "continuum, all orders", "anchors": ["sci-rs/src/signal/filter/design/butter.rs", "sci-rs/src/signal/filter/design/iirfilter.rs"]}
{"id": "C65", "title": "butter_dyn digital band-stop has the Butterworth response", "statement": "For every order N>=1 and 0<A<B<1, with t, a, b as in C64: |H(e^{iw})|^2 = 1/(1+(t(b-a)/(ab-t^2))^(2N)) where t^2 != ab, zero where t^2 = ab, unit gain at DC and Nyquist, half power at both edges.", "quantifier": "all orders, edges and frequencies", "why_tests_cant": "continuum, all orders", "anchors": ["sci-rs/src/signal/filter/design/butter.rs", "sci-rs/src/signal/filter/design/iirfilter.rs"]}
{"id": "C66", "title": "analog Butterworth designs have the Butterworth response in every format", "statement": "With analog=true the returned filter satisfies |H(iw)|^2 = 1/(1+v^(2N)) with v = w/wn, wn/w, (w^2-ab)/(w(b-a)) or w(b-a)/(ab-w^2) for low-pass, high-pass, band-pass and band-stop, in the requested format. (Violated for the coefficient and section formats.)", "quantifier": "all orders, edges and frequencies, four bands", "why_tests_cant": "continuum, all orders", "anchors": ["sci-rs/src/signal/filter/design/butter.rs", "sci-rs/src/signal/filter/design/iirfilter.rs"]}
{"id": "C67", "title": "i0 and i0e compute the modified Bessel function", "statement": "For every real x, i0(x) is within a relative error of 6e-15 of I0(x) = sum (x^2/4)^k/(k!)^2, and i0e(x) of exp(-|x|) I0(x); for |x| <= 8 within 5e-17. (Exact arithmetic on the decimal coefficients; rounding comes on top.)", "quantifier": "all real x", "why_tests_cant": "continuum; tests compare a few points with a reference", "anchors": ["sci-rs/src/special/xsf/i0.rs", "sci-rs/src/special/xsf/chbevl.rs", "sci-rs/src/special/bessel.rs"]}
{"id": "C68", "title": "mean and variance are accurate in floating point", "statement": "In any rounding arithmetic with unit roundoff u and underflow unit t (binary32, binary64 without overflow), the computed mean of n samples is within ((1+u)^(n+1)-1)*avg|y| plus an underflow term of the exact mean, and the computed variance has an error of relative size (1+u)^(n+4)-1 plus the square of the error of the mean: a large offset does not destroy it. The count returned is exact.", "quantifier": "all non-empty sample lists whose length is representable, all rounding arithmetics", "why_tests_cant": "tests compare a few short inputs with a tolerance; the bound is over all lengths and values", "anchors": ["sci-rs/src/stats.rs mean", "sci-rs/src/stats.rs variance"]}
{"id": "C69", "title": "computed variances are never negative", "statement": "In any rounding arithmetic variance returns a value >= 0, so stdev and rmssd never take the square root of a negative number, and the variance of constant samples whose computed mean is that constant is exactly 0. The autocorrelation at lag zero is exactly 1 when the computed variance is not 0. (In f64 the mean of three samples 0.1 exceeds 0.1, so their variance is not 0 and their z-scores are -1.)", "quantifier": "all sample lists, all rounding arithmetics", "why_tests_cant": "rounding-dependent, all lengths and values", "anchors": ["sci-rs/src/stats.rs variance", "sci-rs/src/stats.rs stdev", "sci-rs/src/stats.rs rmssd", "sci-rs/src/stats.rs autocorr", "sci-rs/src/stats.rs zscore"]}
{"id": "C70", "title": "rms_fast32 is accurate in floating point", "statement": "The computed root mean square has a relative error of at most (1+u)^(n+5)-1 plus an underflow term, for every length, also when the length is no multiple of the tile size.", "quantifier": "all non-empty sample lists, all rounding arithmetics", "why_tests_cant": "all lengths modulo the tile size and all values", "anchors": ["sci-rs/src/stats.rs rms_fast32"]}
{"id": "C71", "title": "the floating-point median lies between the two middle samples", "statement": "For an even number of f64 samples (no overflow) the computed median is at least the lower and at most the upper of the two middle samples, although their sum is rounded.", "quantifier": "all non-empty even-length lists of representable numbers", "why_tests_cant": "rounding of every pair of middle values", "anchors": ["sci-rs/src/stats.rs median"]}
{"id": "C72", "title": "the rounding error of a stable cascade does not grow with the signal", "statement": "For sections that are stable there are K and u0 that depend on the sections only such that in every arithmetic with unit roundoff u <= u0 each output of sosfilt_dyn is within K*(u*L+t) of the exact output, for all signals of level L, of any length. The computed outputs of signals of one level have one bound.", "quantifier": "all stable section lists, all signals of any length, all sufficiently precise arithmetics", "why_tests_cant": "a bound uniform in the length of the signal", "anchors": ["sci-rs/src/signal/filter/sosfilt.rs sosfilt_dyn", "sci-rs/src/signal/filter/sosfilt.rs sosfilt_dyn_state"]}
{"id": "C73", "title": "savgol_coeffs differentiates polynomials exactly with least noise", "statement": "For every window length (odd or even), order, derivative and spacing the coefficients applied to samples of a polynomial of degree <= polyorder give the derivative at the centre of the window; among all weights that do, they have the least sum of squares. The function panics exactly when polyorder >= window_length, or with overflow checks when the factorial of the derivative order does not fit in usize.", "quantifier": "all window lengths, orders, derivatives, spacings; any solver that minimises the residual (with least norm)", "why_tests_cant": "all window lengths and orders; tests use odd windows of few sizes", "anchors": ["sci-rs/src/signal/filter/savgol_filter.rs savgol_coeffs_dyn"]}
{"id": "C74", "title": "median of integer samples", "statement": "For an odd number of integers median is the middle sample in every build. For an even number it is the average of the two middle samples rounded towards zero whenever their sum is representable; with overflow checks it panics exactly otherwise. (Without checks it can lie outside the samples.)", "quantifier": "all primitive integer types, all sample lists, both build modes", "why_tests_cant": "overflow boundary of every type", "anchors": ["sci-rs/src/stats.rs median"]}
{"id": "C75", "title": "mean of integer samples", "statement": "If all partial sums and the count are representable, mean is the exact mean rounded towards zero; with overflow checks it panics exactly otherwise. (Hence the result depends on the order of the samples, and 128 samples of type i8 always panic.)", "quantifier": "all primitive integer types, all sample lists, both build modes", "why_tests_cant": "overflow boundary of every type, all lengths", "anchors": ["sci-rs/src/stats.rs mean"]}
{"id": "C76", "title": "filtering a sinusoid settles to the frequency response", "statement": "For sections with a0 = 1 whose poles lie inside the unit circle, sosfilt_dyn of a sinusoid A cos(w n + phi), from any initial state, differs at sample i by at most K(1+|A|) rho^i, rho < 1, from the sinusoid of the same frequency with amplitude A|H(e^{iw})| and phase phi + arg H(e^{iw}); K and rho depend only on the sections. End to end: a designed Butterworth low-pass or high-pass filter settles to the amplitude A times the square root of the Butterworth power.", "quantifier": "all stable section lists, amplitudes, frequencies, phases, signal lengths and sample indices; for the end-to-end form all orders and edges that meet the pairing condition", "why_tests_cant": "a bound uniform in length, frequency and phase; tests compare a few signals with recorded output", "anchors": ["sci-rs/src/signal/filter/sosfilt.rs sosfilt_dyn", "sci-rs/src/signal/filter/design/butter.rs butter_dyn"]}
{"id": "C77", "title": "sosfiltfilt_dyn has zero phase", "statement": "For sections with a0 = 1 whose poles lie inside the unit circle, sosfiltfilt_dyn of a sinusoid returns |H(e^{iw})|^2 times the same sinusoid, without shift, with an error of at most K|A|(rho^i + rho^(N-1-i)) at sample i; K and rho < 1 depend only on the sections. End to end: with a designed Butterworth low-pass or high-pass filter the factor is the Butterworth power.", "quantifier": "all stable section lists, amplitudes, frequencies, phases and lengths above the padding length", "why_tests_cant": "a bound uniform in length, frequency and phase", "anchors": ["sci-rs/src/signal/filter/sosfiltfilt.rs sosfiltfilt_dyn", "sci-rs/src/signal/filter/design/butter.rs butter_dyn"]}
{"id": "C78", "title": "square in floating point", "statement": "In any rounding arithmetic in which the constant 2 pi of the type is representable, square panics exactly when duty is outside [0,1] (its debug assertion never fires) and otherwise returns +1 or -1 for each time. The value is that of the exact wave whenever the phase is further from the edges than twice the rounding error, for f64 further than (n+4) 2^-51 at a time in period n >= 0. Duty 0 gives -1 everywhere; duty 1 gives +1 for times >= 0 (a negative time above -2^-52 gives -1).", "quantifier": "all finite times, all duties, all rounding arithmetics", "why_tests_cant": "the wrong values lie in an interval of width 1e-16; the guarantee is over all times", "anchors": ["sci-rs/src/signal/wave/mod.rs square"]}
{"id": "C79", "title": "resample interpolates and is linear", "statement": "Upsampling a signal of even length by an integer factor keeps the original samples; resampling is linear in the signal; resampling a signal of even length to a larger length and back returns it exactly when its alternating component is zero (in general the alternating component comes back halved).", "quantifier": "all signals, all target lengths, all factors", "why_tests_cant": "all lengths and all signals", "anchors": ["sci-rs/src/signal/resample.rs resample"]}
{"id": "C80", "title": "i0 and i0e are accurate in floating point", "statement": "In every arithmetic with unit roundoff u <= 2^-20 (f32 and f64 are instances), without overflow, i0e(x) differs from exp(-|x|) I0(x) by at most the fraction 367 u + 6e-15 of it plus the underflow unit, and i0(x) from I0(x) by at most the fraction 400 u + 2 kappa + 6.1e-15, where kappa is the relative error of the platform's exponential. For f64: below 5e-14 and 6e-14.", "quantifier": "all finite arguments for which nothing overflows, all rounding arithmetics of sufficient precision", "why_tests_cant": "a bound for every argument; the rounded coefficients, the recurrence of 30 steps and the change of branch at 8 all contribute", "anchors": ["sci-rs/src/special/xsf/i0.rs i0", "sci-rs/src/special/xsf/i0.rs i0e", "sci-rs/src/special/xsf/chbevl.rs chbevl"]}
{"id": "C81", "title": "Overflow, infinities and NaN in sosfilt", "statement": "On IEEE 754 numbers with infinities and NaN: an input sample that is infinite or NaN makes its own output sample and every later one infinite or NaN, also across successive calls that carry the state; the outputs before it are those of the input without it. Conversely, if the last output sample is finite then no operation overflowed, every output is finite and the outputs are exactly those of the rounding arithmetic with unbounded exponents, so the error bound proved for that arithmetic applies. For stable sections there is a constant K, independent of the length, such that inputs and states of magnitude at most L never overflow when K (L + underflow unit) is below the largest finite number.", "quantifier": "all sections, states and input sequences of IEEE 754 data, both formats; all rounding formats", "why_tests_cant": "the claim ranges over all histories and positions of the non-finite sample", "anchors": ["sci-rs/src/signal/filter/sosfilt.rs sosfilt_dyn", "sci-rs/src/signal/filter/sosfilt.rs sosfilt_item"]}
{"id": "C82", "title": "Overflow, infinities and NaN in the statistics", "statement": "On IEEE 754 numbers with infinities and NaN: a NaN anywhere in the data makes mean, variance, standard deviation, z-scores and rmssd NaN; an infinite datum makes the mean non-finite and the variance NaN. If the returned mean, variance or deviation is finite then nothing overflowed and it is the value of the rounding arithmetic with unbounded exponents, so the error bounds proved there apply. The median of any data, NaN included, terminates without panic, and of data without NaN it is the middle of the sorted data. The mean, median and z-scores of finite data are finite and correct whenever the exact ones are representable (this is false: sums overflow).", "quantifier": "all lists of IEEE 754 data, all formats", "why_tests_cant": "the claim ranges over all data and all positions of the special values", "anchors": ["sci-rs/src/stats.rs mean", "sci-rs/src/stats.rs variance", "sci-rs/src/stats.rs stdev", "sci-rs/src/stats.rs median", "sci-rs/src/stats.rs zscore", "sci-rs/src/stats.rs rmssd"]}
{"id": "C83", "title": "i0 and i0e at overflow, infinities and NaN", "statement": "On IEEE 754 numbers: i0e of every finite argument is finite and accurate to the fraction 367 u + 6e-15 plus the underflow unit (nothing overflows on the way); i0e of either infinity is a zero; NaN gives NaN. i0 of a finite argument is infinite if the platform's exponential of |x| overflows and otherwise finite and accurate to the fraction 400 u + 2 kappa + 6.1e-15. i0 returns infinity for infinite arguments and a finite number whenever I0(x) is representable (both are false).", "quantifier": "all IEEE 754 data, every format of sufficient precision and range (f32 and f64 are instances), every exponential", "why_tests_cant": "the claim ranges over all arguments; the largest ones are where the intermediate exponential overflows first", "anchors": ["sci-rs/src/special/xsf/i0.rs i0", "sci-rs/src/special/xsf/i0.rs i0e", "sci-rs/src/special/xsf/chbevl.rs chbevl"]}
{"id": "C84", "title": "when a design is returned as sections", "statement": "For a valid digital request of any implemented family and band, asking for sections returns exactly when every zero and pole of the design, as reported by the zero-pole-gain format, is real or further from the real axis than 100 epsilon times its real part, and panics otherwise; whenever sections are returned they number half the poles rounded up, have a0 = 1, are at rest and stable, and have the design's transfer function. For Butterworth low-pass and high-pass filters of order N and edge W this is: N = 1 or 100 eps |cos(pi W)| < sin(pi W) sin(theta), theta the least non-zero pole angle (pi/(2N) or pi/N); for band filters a sufficient condition of the same kind. So in f32 a second-order 0.1 Hz filter at 48 kHz panics.", "quantifier": "all orders, edges, ripples, sampling rates, families and bands; every epsilon and every correct sort (Chebyshev II high-pass and band-stop: except the edges for which the bilinear transform divides by zero)", "why_tests_cant": "the boundary depends on the order, edges and precision together; tests use designs far from it", "anchors": ["sci-rs/src/signal/filter/design/iirfilter.rs iirfilter_dyn", "sci-rs/src/signal/filter/design/zpk2sos.rs zpk2sos_dyn", "sci-rs/src/signal/filter/design/cplx.rs cplxreal_dyn"]}
{"id": "C85", "title": "designing and filtering, for every family and band", "statement": "Whenever a valid digital request returns sections: sosfilt_dyn of a sinusoid settles exponentially to the amplitude and phase of the design's response, sosfiltfilt_dyn multiplies the sinusoid by the power of the response without shifting it away from the ends, and multiplies constants by the power at frequency zero. For Butterworth and Chebyshev I filters of all four bands the power is the textbook function of the pre-warped frequency, so constants are kept by Butterworth low-pass and band-stop filters, removed by high-pass and band-pass ones, and scaled by 10^(-rp/10) by Chebyshev I low-pass and band-stop ones of even order.", "quantifier": "all requests that return, all amplitudes, frequencies below Nyquist, phases, lengths above the padding and constants", "why_tests_cant": "ranges over all designs and all signals of the class", "anchors": ["sci-rs/src/signal/filter/design/iirfilter.rs iirfilter_dyn", "sci-rs/src/signal/filter/sosfilt.rs sosfilt_dyn", "sci-rs/src/signal/filter/sosfiltfilt.rs sosfiltfilt_dyn"]}
{"id": "C86", "title": "filter design in floating-point arithmetic", "statement": "In f32 and f64 arithmetic (rounding to nearest, the complex formulas of num_complex, any mathematical library with the usual symmetries; no overflow), iirfilter_dyn answers a request for zeros, poles and gain or for transfer-function coefficients exactly when the request makes sense and panics otherwise; the zeros and poles come in conjugate pairs that are exact, bit for bit, as many poles as asked for and, for digital filters, as many zeros as poles; sections are returned exactly when no computed zero or pole is within 100 epsilon of the real axis without being on it, and are then half as many as the poles rounded up, use every zero and pole exactly once, have a leading denominator coefficient of exactly one, and carry the gain in the first section. First-order filters are always returned as sections.", "quantifier": "all orders, edges, ripples, sampling rates, bands, Butterworth and Chebyshev families (Chebyshev II: low-pass and band-pass), every rounding to nearest, every library and every correct sort", "why_tests_cant": "ranges over all requests and all rounding errors; tests compare a few designs with printed digits", "anchors": ["sci-rs/src/signal/filter/design/iirfilter.rs iirfilter_dyn", "sci-rs/src/signal/filter/design/zpk2sos.rs zpk2sos_dyn", "sci-rs/src/signal/filter/design/zpk2tf.rs zpk2tf_dyn", "sci-rs/src/signal/filter/design/cplx.rs cplxreal_dyn"]}
{"id": "C87", "title": "coefficients and stability of designs computed in floating point", "statement": "In f32 and f64 arithmetic every coefficient of the sections returned by a digital design is an explicit rounded function of the zeros and poles returned for the same request: a section is built from two zeros and two poles that are conjugate or both real, -(z1+z2), z1 z2, -(p1+p2), p1 p2 rounded as num_complex does. For conjugate pairs the linear coefficients are exactly minus twice the real part. Butterworth and Chebyshev I zeros are exactly 1 and -1, so low-pass and high-pass sections vanish exactly at the Nyquist frequency, respectively at frequency zero. If all computed poles are inside the disc of radius 1 - d with d^2 > 5u + 4t (u the unit roundoff, t the underflow threshold) then every section returned is stable and running it in floating point stays close to running it exactly. The unconditional claim, that valid requests give stable sections, is false: a first-order f32 low-pass at 2^-30 of the Nyquist frequency has its pole exactly at one.", "quantifier": "all orders, edges, ripples, sampling rates, every rounding to nearest, every library and every correct sort", "why_tests_cant": "ranges over all requests and all rounding errors; tests compare a few designs with printed digits", "anchors": ["sci-rs/src/signal/filter/design/iirfilter.rs iirfilter_dyn", "sci-rs/src/signal/filter/design/zpk2sos.rs zpk2sos_dyn", "sci-rs/src/signal/filter/design/zpk2tf.rs zpk2tf_dyn", "sci-rs/src/signal/filter/design/bilinear_zpk.rs bilinear_zpk_dyn"]}
{"id": "C88", "title": "sections with the Minimal pairing, and analog designs in every format", "statement": "Whenever zpk2sos_dyn returns sections with the Minimal pairing (asked for, or the default of analog filters), there are ceil(#p/2) of them, normalised and at rest, and their product is x^(#p-#z) times the transfer function: right exactly when there are as many zeros as poles. It returns when the numbers of zeros and poles are even, when the number of poles is even and all zeros are real, and when there are as many zeros as poles and exactly one real pole. It panics when the number of poles is odd and no zero is real, and for some filters with as many zeros as poles. Consequently analog Butterworth and Chebyshev I designs returned as coefficients or sections are right for high-pass and band-stop, x^N times too large for low-pass and band-pass, and odd-order low-pass sections panic; analog Butterworth high-pass sections have the Butterworth response for every order.", "quantifier": "all conjugation-closed zeros and poles away from the tolerance, all orders, edges, ripples, bands, correct sorts", "why_tests_cant": "continuum of filters; the greedy pairing depends on their geometry", "anchors": ["sci-rs/src/signal/filter/design/zpk2sos.rs zpk2sos_dyn", "sci-rs/src/signal/filter/design/iirfilter.rs iirfilter_dyn", "sci-rs/src/signal/filter/design/butter.rs butter_dyn"]}
{"id": "C89", "title": "order of the sections and pairing of zeros with poles", "statement": "Each section zpk2sos_dyn returns for a digital filter (default pairing, non-zero gain) has a pole q and a zero w such that, of all poles of this section and the ones before it, q is the closest to the unit circle, and of all their zeros w is the closest to q. The second pole is the conjugate of q, or if q is real the closest to the circle of the real poles of the earlier sections; the second zero is the conjugate of w, or if w is real the closest to q of the remaining real ones. So the poles closest to instability come last. With the Minimal pairing and equal even counts the same holds, with the distance from the imaginary axis for analog filters.", "quantifier": "all conjugation-closed zeros and poles away from the tolerance, in any order, all correct sorts, all positions in the cascade", "why_tests_cant": "continuum of filters; ties and orders of the input", "anchors": ["sci-rs/src/signal/filter/design/zpk2sos.rs zpk2sos_dyn, nearest_real_complex_idx_dyn"]}
{"id": "C90", "title": "Butterworth low-pass and high-pass designs in floating point are accurate and stable", "statement": "In f32 or f64 with a mathematical library accurate to h, a Butterworth low-pass or high-pass request of any order n>=1 whose edge is a fraction e of the Nyquist frequency (not within 1024 h of it) is answered, and every computed pole is within 60 h/(1-e) of the pole of the filter designed without rounding. If moreover 1000 h <= (e(1-e)/n)^2, the request for sections does not panic, returns ceil(n/2) sections, and every section is stable, so that filtering a bounded signal has a bounded rounding error. For f64 with a library accurate to 2^-50 this covers every n <= 2^20 e(1-e); for f32 with 2^-22 every n <= 64 e(1-e).", "quantifier": "all orders, edges, sampling rates and libraries within the accuracy; both bands; all correct sorts", "why_tests_cant": "continuum of edges and unbounded orders; rounding errors accumulate differently for each", "anchors": ["sci-rs/src/signal/filter/design/butter.rs butter_dyn", "sci-rs/src/signal/filter/design/iirfilter.rs iirfilter_dyn, buttap_dyn", "sci-rs/src/signal/filter/design/lp2lp_zpk.rs", "sci-rs/src/signal/filter/design/lp2hp_zpk.rs", "sci-rs/src/signal/filter/design/bilinear_zpk.rs"]}
{"id": "C91", "title": "Butterworth low-pass and high-pass designs in floating point have the Butterworth response", "statement": "In f32 or f64 with a mathematical library accurate to h, a Butterworth low-pass or high-pass request of order n>=1 with edge e (fraction of the Nyquist frequency) whose gain does not underflow returns a gain with relative error at most 125 n h/(1-e). If 2000 n^2 h <= e(1-e)^2, the frequency response of the returned zeros, poles and gain is at every frequency that of the filter designed without rounding, up to a relative error of 180 n^2 h/(e(1-e)^2). If 3000 n^3 h <= (e(1-e))^2, the returned sections are stable and have that response up to a relative error of 250 n^3 h/(e(1-e))^2; in particular their amplitude is 1/sqrt(1+(tan(w/2)/tan(pi e/2))^(2n)) for low-pass (the inverse ratio for high-pass) up to that error. A 4th-order 10 Hz low-pass at 1 kHz in f64 is within 4e-8.", "quantifier": "all orders, edges, sampling rates, frequencies and libraries within the accuracy; both bands; all correct sorts", "why_tests_cant": "continuum of edges and frequencies and unbounded orders; the errors of poles, gain and coefficients accumulate differently for each", "anchors": ["sci-rs/src/signal/filter/design/butter.rs butter_dyn", "sci-rs/src/signal/filter/design/iirfilter.rs iirfilter_dyn, buttap_dyn", "sci-rs/src/signal/filter/design/lp2lp_zpk.rs", "sci-rs/src/signal/filter/design/lp2hp_zpk.rs", "sci-rs/src/signal/filter/design/bilinear_zpk.rs", "sci-rs/src/signal/filter/design/zpk2sos.rs"]}
{"id": "C92", "title": "The energy of a filtered signal is bounded by the peak of the frequency response; designed filters never amplify energy", "statement": "Filtering a signal with sosfilt_dyn through stable sections at rest multiplies its energy (sum of squares) by at most M^2 when M bounds the frequency response below the Nyquist frequency, and no smaller M works for all signals. Two such cascades whose responses differ by at most eps give outputs whose difference has at most eps^2 times the energy of the input. The sections of every valid digital Butterworth or Chebyshev I design of any band, and of Chebyshev II low-pass and band-pass designs, never increase the energy of a signal. The sections of a Butterworth low-pass or high-pass filter computed in floating point give an output that differs from that of the design without rounding by at most (250 n^3 h/(e(1-e))^2)^2 times the energy of the input (4e-8 relative for a 4th-order 10 Hz low-pass at 1 kHz in f64).", "quantifier": "all signals of every length, all lists of stable sections, all valid digital requests", "why_tests_cant": "quantifies over all signals of every length and over the continuum of filters and frequencies", "anchors": ["sci-rs/src/signal/filter/sosfilt.rs sosfilt_dyn", "sci-rs/src/signal/filter/design/iirfilter.rs iirfilter_dyn", "sci-rs/src/signal/filter/design/butter.rs butter_dyn"]}
{"id": "C93", "title": "stdev, rmssd, lag_diff, zscore, autocorr, median, MAD and mod_zscore are accurate in floating point", "statement": "In floating-point arithmetic without overflow, with unit roundoff u and underflow error t: stdev and rmssd have a relative error that grows with the number of samples only through (1+u)^(n+5), plus (for stdev) the error bound of the mean and an underflow term; lag_diff rounds each difference once; the computed median is within ((1+u)^2-1)|c| of the exact median c and equals it for an odd number of samples; the computed median absolute deviation is within (1+u)^3-1 relative plus a multiple of u times the median; and every entry of zscore and mod_zscore, and every value of autocorr, is within an explicit bound, computed from the data, of the exact value whenever the error bound of the divisor is below the divisor.", "quantifier": "all roundings (f32, f64), all non-empty samples, all lags, all entries", "why_tests_cant": "quantifies over all samples of every length and all roundings", "anchors": ["sci-rs/src/stats.rs stdev", "sci-rs/src/stats.rs rmssd", "sci-rs/src/stats.rs lag_diff", "sci-rs/src/stats.rs zscore", "sci-rs/src/stats.rs autocorr", "sci-rs/src/stats.rs median", "sci-rs/src/stats.rs median_abs_deviation", "sci-rs/src/stats.rs mod_zscore"]}
{"id": "C94", "title": "sosfiltfilt, sosfilt_zi and lfilter_zi are accurate in floating point", "statement": "In floating-point arithmetic without overflow, with unit roundoff u and underflow error t <= u: if the denominator coefficients do not sum to zero, the states computed by lfilter_zi_dyn and sosfilt_zi_dyn are within a constant times u of the exact ones; and for stable sections there are a constant K and a precision u0, depending on the sections only, such that in every arithmetic at least that precise, for every level L and every signal of that level that is long enough, sosfiltfilt_dyn returns and each of its samples is within K(uL+t) of the exact result, for any length of the signal. A constant signal comes back, times the square of the DC gain, up to K(u|c|+t).", "quantifier": "all section lists, all roundings (f32, f64), all signals of every length and level", "why_tests_cant": "quantifies over all signals of unbounded length and all roundings; error accumulation over both passes", "anchors": ["sci-rs/src/signal/filter/sosfiltfilt.rs: sosfiltfilt_dyn", "sci-rs/src/signal/filter/sosfilt_zi.rs: sosfilt_zi_dyn", "sci-rs/src/signal/filter/lfilter_zi.rs: lfilter_zi_dyn"]}
{"id": "C95", "title": "Savitzky-Golay filtering is accurate in floating point", "statement": "In floating-point arithmetic without overflow, with unit roundoff u and underflow error t, for whatever coefficients savgol_coeffs_dyn returned: every output sample of savgol_filter_dyn, the ends included, differs from the exact weighted sum of the w samples around it (signal continued by its end values) by at most ((1+u)^(w+1)-1) times the sum of the absolute products, plus 2wt(1+u)^w. If moreover the coefficients meet their moment equations up to eps, then samples (known up to sigma) of a polynomial of degree at most polyorder come back as the requested derivative at every position half a window from the ends, up to eps times the Taylor coefficients, sigma times the filter coefficients and the rounding of the sum; and constants come back everywhere.", "quantifier": "all signals, odd windows, orders, derivatives, spacings, solvers and roundings (f32, f64)", "why_tests_cant": "a rounding-error bound for all signals and all window lengths", "anchors": ["sci-rs/src/signal/filter/savgol_filter.rs: savgol_filter_dyn, savgol_coeffs_dyn"]}
{"id": "C96", "title": "Convolution, correlation and resampling are accurate in floating point", "statement": "In floating-point arithmetic without overflow, with Fourier transforms whose error on buffers of length N is at most eps relative to the Euclidean norm of the exact transform plus tau for underflow: every sample of convolve and correlate, in every mode, differs from the exact one by at most (8+2*sqrt N) eps |x||y| + (1+sqrt N)(10+2(|x|+|y|)) tau, N being the power of two the product is computed at; panics and output lengths are those of the exact computation. Every sample of resample(x, n) differs from the exact one by at most 5 eps sqrt(n/L)|x| + 3(1+sqrt(n/L)) tau, L being the length of x.", "quantifier": "all signals, lengths, modes, target lengths, roundings (f32, f64), and all transforms with the stated error", "why_tests_cant": "a rounding-error bound for all signals and all lengths", "anchors": ["sci-rs/src/signal/convolve.rs: fftconvolve, convolve, correlate", "sci-rs/src/signal/resample.rs: resample"]}
{"id": "C97", "title": "Chebyshev I low-pass and high-pass filters designed in floating point are accurate and stable", "statement": "With a nearest rounding (f32, f64) and a mathematical library accurate to a relative h, without overflow: a Chebyshev I low-pass or high-pass request of order n, ripple rp dB and edge e (as a fraction of the Nyquist frequency) is answered, and every computed pole is within 220 n k^2 h/(1-e) of the pole of the exactly designed filter, k = (1+rp)/(1-10^(-rp/10)) being the condition of the ripple, provided that 4096 n k^2 h <= 1-e. If moreover 4000 n k^2 h <= X^2 with X = e(1-e)10^(-rp/20)/(n^2 k), the design is returned as (n+1)/2 sections, all of them stable, and filtering bounded signals with them in floating point has a bounded error.", "quantifier": "all orders, ripples, edges and sampling rates within the stated conditions, all accurate libraries, all roundings to nearest", "why_tests_cant": "a rounding-error bound and stability for a continuum of requests", "anchors": ["sci-rs/src/signal/filter/design/iirfilter.rs: cheb1ap_dyn, cheby1_dyn, iirfilter_dyn", "sci-rs/src/signal/filter/design/lp2lp_zpk.rs", "sci-rs/src/signal/filter/design/lp2hp_zpk.rs", "sci-rs/src/signal/filter/design/bilinear_zpk.rs", "sci-rs/src/signal/filter/design/zpk2sos.rs"]}
{"id": "C98", "title": "Chebyshev I filters designed in floating point have the Chebyshev response", "statement": "With a nearest rounding (f32, f64) and a mathematical library accurate to a relative h, without overflow and without underflow of the gain: the zeros of a computed Chebyshev I low-pass or high-pass filter of order n, ripple rp dB and edge e are exact, its gain has a relative error of at most 640 n^2 k^2 h/(1-e), its frequency response as zeros, poles and gain has a relative error of at most 740 n^2 k^2 h/((1-e)X) at every frequency, and its response as second-order sections one of at most 800 n^2 k^2 h/X^2, with k and X as in C97. So the amplitude response of the computed sections is 1/sqrt(1 + (10^(rp/10)-1) T_n(v)^2), v = tan(w/2)/tan(pi e/2) (inverted for high-pass), up to that relative error.", "quantifier": "all orders, ripples, edges, sampling rates and frequencies within the stated conditions, all accurate libraries, all roundings to nearest", "why_tests_cant": "an error bound for a continuum of requests and frequencies", "anchors": ["sci-rs/src/signal/filter/design/iirfilter.rs: cheb1ap_dyn, cheby1_dyn, iirfilter_dyn", "sci-rs/src/signal/filter/design/lp2lp_zpk.rs", "sci-rs/src/signal/filter/design/lp2hp_zpk.rs", "sci-rs/src/signal/filter/design/bilinear_zpk.rs", "sci-rs/src/signal/filter/design/zpk2sos.rs"]}
{"id": "C99", "title": "infinities and NaN in zero-phase and Savitzky-Golay filtering", "statement": "In IEEE 754 arithmetic, one NaN in the signal makes every sample of the zero-phase output NaN, earlier ones included, and one infinite sample leaves no finite sample in it. Savitzky-Golay filtering is local: in any arithmetic an output sample depends only on the input samples inside its window, a NaN makes the outputs NaN whose windows contain it, and an infinite sample leaves none of those finite.", "quantifier": "all signals, sections, windows, degrees, positions of the bad sample, formats", "why_tests_cant": "all signals and filters, every position of the bad sample", "anchors": ["sci-rs/src/signal/filter/sosfiltfilt.rs: sosfiltfilt_dyn", "sci-rs/src/signal/filter/savgol_filter.rs: savgol_filter_dyn"]}
{"id": "C100", "title": "infinities and NaN in filter design requests", "statement": "In IEEE 754 arithmetic, iirfilter_dyn rejects infinite critical frequencies but accepts NaN ones: a digital Butterworth request returns zeros, poles and gain exactly when every critical frequency, in units of the Nyquist frequency, is NaN or strictly between 0 and 1, their number fits the band and the second is not at most the first. With a NaN edge (or sampling rate, or 0/0) every pole and the gain of the answer are NaN, for every family and band. The same happens for a Chebyshev I request whose ripple is NaN or zero.", "quantifier": "all orders, edges, rates, bands, families, formats, libraries that return NaN for NaN", "why_tests_cant": "all requests", "anchors": ["sci-rs/src/signal/filter/design/iirfilter.rs: iirfilter_dyn, buttap_dyn, cheb1ap_dyn", "sci-rs/src/signal/filter/design/lp2lp_zpk.rs", "sci-rs/src/signal/filter/design/lp2hp_zpk.rs", "sci-rs/src/signal/filter/design/lp2bp_zpk.rs", "sci-rs/src/signal/filter/design/lp2bs_zpk.rs", "sci-rs/src/signal/filter/design/bilinear_zpk.rs"]}
{"id": "C101", "title": "Butterworth band-pass and band-stop designs in floating point are accurate and stable", "statement": "With a nearest rounding (f32, f64) and a mathematical library accurate to h, without overflow: a Butterworth band-pass or band-stop request of order n with edges e0 < e1 (as fractions of the Nyquist frequency) is answered, and every computed pole is within 310 h/((1-e1)^2 k) of the pole of the filter designed without rounding, where k^2 <= 1/n and, for odd n, k measures how far the two roots belonging to the real prototype pole are apart, provided that 4000 h <= (k(e1-e0)(1-e1))^2. If moreover k <= 1/n and 4000 h <= (k^2 e0 (1-e1)^2 (e1-e0))^2, the request for sections does not panic, returns n sections, every one of them stable, and filtering bounded signals with them in floating point has a bounded error. For f64 with a library accurate to 2^-50 this covers every even order with n^2 <= 2^19 e0 (1-e1)^2 (e1-e0).", "quantifier": "all orders, edges and sampling rates within the stated conditions, both bands, all accurate libraries, all roundings to nearest, all correct sorts", "why_tests_cant": "a rounding-error bound and stability for a continuum of requests; the complex square root has a branch cut that rounding could cross", "anchors": ["sci-rs/src/signal/filter/design/butter.rs butter_dyn", "sci-rs/src/signal/filter/design/iirfilter.rs iirfilter_dyn, buttap_dyn", "sci-rs/src/signal/filter/design/lp2bp_zpk.rs", "sci-rs/src/signal/filter/design/lp2bs_zpk.rs", "sci-rs/src/signal/filter/design/bilinear_zpk.rs", "sci-rs/src/signal/filter/design/zpk2sos.rs"]}
{"id": "C102", "title": "overflow in Butterworth low-pass and high-pass designs", "statement": "In IEEE 754 arithmetic with a library that is accurate to h and returns finite values where they fit: a digital Butterworth low-pass or high-pass request of order n with edge e returns finite zeros, poles and gain, equal to those of the design computed without a bound on exponents, whenever 64 (8/(1-e))^(2n) is at most the largest finite number and 1024 n h <= 1-e; in f64 for every order up to 46 and edge up to 1-1/256, in f32 for every order up to 8 and edge up to 1-1/16. When 0.6*16^n exceeds the largest finite number, however, every such request is answered, without a panic, by a filter whose gain is zero or NaN, because the division by the product of n numbers of size at least 4 squares that product: for edges in the lower half of the frequencies in f32 from order 33 to 2048, in f64 from order 257 to 2^32.", "quantifier": "all orders, edges, sampling rates within the stated conditions, both bands, all formats rounding to nearest, all accurate libraries", "why_tests_cant": "absence of overflow is a statement about a continuum of requests; the failure holds for every request of high order", "anchors": ["sci-rs/src/signal/filter/design/iirfilter.rs iirfilter_dyn, buttap_dyn", "sci-rs/src/signal/filter/design/lp2lp_zpk.rs", "sci-rs/src/signal/filter/design/lp2hp_zpk.rs", "sci-rs/src/signal/filter/design/bilinear_zpk.rs"]}
{"id": "C103", "title": "Chebyshev II high-pass and band-stop designs are not high-pass and band-stop filters", "statement": "A digital Chebyshev II request should give gain one in the pass band. It does for low-pass filters (C58). But every band-stop request of order at least two is answered, without a panic, with gain zero, so that its sections turn every signal into zeros; and every high-pass request of order N at least two is answered with a filter whose gain at the Nyquist frequency is the square root of the product of 1 + sin^2(pi m/2N) over m = 1-N, 3-N, ..., N-1 instead of one, which is at least 1.5 (in exact arithmetic).", "quantifier": "all orders from two on, edges, sampling rates, ripples and attenuations accepted (except those that send a zero to infinity); all signals", "why_tests_cant": "the failure holds for every request, not for particular ones", "anchors": ["sci-rs/src/signal/filter/design/iirfilter.rs iirfilter_dyn, cheb2ap_dyn", "sci-rs/src/signal/filter/design/lp2hp_zpk.rs", "sci-rs/src/signal/filter/design/lp2bs_zpk.rs"]}
{"id": "C104", "title": "designs in floating point converge to the exact designs", "statement": "For every request the library implements correctly (all Butterworth and Chebyshev I filters, Chebyshev II low-pass and band-pass filters) and every tolerance there is a precision from which on the design, computed in floating point with that precision or more, returns; the zeros, poles and gain, the coefficients of the transfer function, and (digital filters) the frequency response of the second-order sections at all frequencies are within the tolerance of those of the design in exact arithmetic; and the sections are stable. For the sections of band-pass and band-stop filters of odd order the real poles must be simple.", "quantifier": "all orders, edges, ripples, sampling rates, tolerances; every rounding to nearest and every library of sufficient accuracy, in particular binary numbers with enough bits; every correct sort", "why_tests_cant": "a statement about all precisions and requests; tests run f32 and f64 on a few designs", "anchors": ["sci-rs/src/signal/filter/design/iirfilter.rs iirfilter_dyn", "sci-rs/src/signal/filter/design/zpk2sos.rs zpk2sos_dyn", "sci-rs/src/signal/filter/design/zpk2tf.rs zpk2tf_dyn"]}
{"id": "C105", "title": "sections and coefficients with infinities and NaN", "statement": "A request that is accepted although an edge is NaN, or the Chebyshev I ripple zero or NaN, and that is answered with NaN poles when zeros, poles and gain are asked for, panics when second-order sections are asked for, and when coefficients are asked for and there are two or more poles. A filter whose gain was lost to overflow becomes sections and coefficients whose (first) numerator holds only zeros and NaN. Finite zeros, poles and gain of moderate size are converted without overflow: the sections and coefficients are finite and are those of the model without infinities. In particular, Butterworth low-pass and high-pass sections in f64 up to order 46, with edges between 1/256 and 255/256 of the Nyquist frequency, are returned, finite, stable and have the Butterworth response up to an explicit relative error.", "quantifier": "all orders, edges, families and bands (NaN); all zeros, poles and gains within the range (conversion); all frequencies (response); every IEEE format, every correct sort, every library that agrees with one of the stated accuracy", "why_tests_cant": "NaN, infinities and overflow on all inputs; a sort whose behaviour is only specified; a bound at all frequencies and for all orders", "anchors": ["sci-rs/src/signal/filter/design/iirfilter.rs iirfilter_dyn", "sci-rs/src/signal/filter/design/zpk2sos.rs zpk2sos_dyn", "sci-rs/src/signal/filter/design/zpk2tf.rs zpk2tf_dyn", "sci-rs/src/signal/filter/design/cplx.rs cplxreal_dyn, sort_cplx_dyn"]}
{"id": "C106", "title": "the median and MAD resist outliers and small errors", "statement": "If more than half of the samples lie in an interval, median returns a value of that interval and median_abs_deviation at most its width, whatever the other samples are; with exactly half of the samples replaced any median can be obtained, so the bound is sharp. Raising samples never lowers the median; changing every sample by at most d changes the median by at most d and the median absolute deviation by at most 2d. The mean has no such protection: one sample decides it.", "quantifier": "every finite sequence of samples, every interval, every corruption of fewer than half of the samples, every pair of sequences of equal length", "why_tests_cant": "the corrupted samples are arbitrary; tests try a few outliers", "anchors": ["sci-rs/src/stats.rs: median, quickselect, median_abs_deviation, mean"]}
{"id": "C107", "title": "the algebra of convolution, and convolution against the other modules", "statement": "Full convolution is associative and linear in each input, a unit impulse at position k delays by k samples, a centred impulse in Same mode returns the signal, exchanging the inputs of a full correlation reverses it, sums multiply and absolute sums are submultiplicative. sosfilt from rest returns the beginning of the full convolution of its input with its own impulse response; autocorr is the normalised centre-right half of correlate of the centred samples; savgol_filter_dyn is the Valid convolution of the edge-padded signal with savgol_coeffs_dyn.", "quantifier": "every pair or triple of signals (of sizes that fit into memory), every cascade at rest, every Savitzky-Golay window, order, derivative and spacing; exact arithmetic", "why_tests_cant": "laws between results of several calls, and between modules, for all signals and lengths", "anchors": ["sci-rs/src/signal/convolve.rs: fftconvolve, convolve, correlate", "sci-rs/src/signal/filter/sosfilt.rs: sosfilt_dyn", "sci-rs/src/signal/filter/savgol_filter.rs: savgol_filter_dyn, savgol_coeffs_dyn", "sci-rs/src/stats.rs: autocorr"]}
{"id": "C108", "title": "with enough precision and range, designs on IEEE numbers stay finite and approach the exact design", "statement": "On numbers with a largest finite value, infinities, NaN and signed zeros: for every valid filter request whose exact design is determined there are an accuracy and a range such that every number format and math library at least that good returns a design without overflow or NaN; its zeros and poles (in some order), gain and coefficients are within any prescribed distance of the exact ones, the poles of digital designs are inside the unit circle, and the sections are stable with a frequency response within the prescribed distance of the exact one at every frequency.", "quantifier": "every order, band type, family with positive ripple, valid edges, sampling rate; every rounding, range, math library and sort that are good enough; digital and analog (sections: digital, real poles of odd-order band filters simple)", "why_tests_cant": "a statement about all requests, all sufficiently accurate arithmetics and all frequencies", "anchors": ["sci-rs/src/signal/filter/design/iirfilter.rs: iirfilter_dyn", "sci-rs/src/signal/filter/design/bilinear_zpk.rs", "sci-rs/src/signal/filter/design/lp2bs_zpk.rs", "sci-rs/src/signal/filter/design/zpk2sos.rs", "sci-rs/src/signal/filter/design/zpk2tf.rs"]}
{"id": "C109", "title": "each design step on IEEE numbers panics only on more zeros than poles and approaches the exact step", "statement": "Called with any zeros, poles and gain, on numbers with infinities, NaN and signed zeros, lp2lp_zpk_dyn, lp2hp_zpk_dyn, lp2bp_zpk_dyn, lp2bs_zpk_dyn and bilinear_zpk_dyn panic exactly if there are more zeros than poles. Otherwise, where the exact step divides by nothing that is zero, for every eps there are an accuracy and a range such that every number format and math library at least that good returns finite zeros, poles and gain within eps of those of the exact step, apart from order.", "quantifier": "every filter (zeros, poles, gain) with at most as many zeros as poles, every positive frequency and bandwidth, every rounding, range and math library that are good enough; the panic: every input whatever", "why_tests_cant": "a statement about all filters and all sufficiently accurate arithmetics", "anchors": ["sci-rs/src/signal/filter/design/lp2bp_zpk.rs", "sci-rs/src/signal/filter/design/lp2bs_zpk.rs", "sci-rs/src/signal/filter/design/bilinear_zpk.rs", "sci-rs/src/signal/filter/design/relative_degree.rs"]}
{"id": "C110", "title": "the statistics are consistent with each other", "statement": "In exact arithmetic: the mean is the one number with the least sum of squared distances from the samples, the median has the least sum of distances. The mean and variance of joined data follow from those of the parts. The mean lies between the bounds of the samples and the standard deviation is at most half their distance; mean and median differ by at most one standard deviation; the median absolute deviation is at most two. rms^2 = mean^2 + variance. At most n/t^2 samples have |z-score| >= t, no z-score of n samples exceeds sqrt(n-1) (attained), and at least half of the modified z-scores are at most 0.6745. The cosine series of autocorr is the power spectrum of the centred signal, so it is never negative and the autocorrelations at lags 1, 2, ... add up to -1/2; reversing the signal does not change them; rmssd and autocorr(1) satisfy von Neumann's identity.", "quantifier": "every non-empty (for scores and autocorrelation: non-constant) sequence of reals, every threshold, frequency and lag", "why_tests_cant": "relations between several functions that must hold for all data", "anchors": ["sci-rs/src/stats.rs: mean, variance, stdev, median, median_abs_deviation, mod_zscore, zscore, autocorr, rmssd, rms_fast32"]}
{"id": "C111", "title": "reflected requests give reflected filters", "statement": "With frequencies as fractions of the Nyquist frequency: the transfer function of the high-pass design with edge 1-e at -z is that of the low-pass design with edge e at z, and likewise for band-pass and band-stop designs with edges (a,b) and (1-b,1-a). So sosfilt of the signal (-1)^n x_n with the reflected sections is (-1)^n times sosfilt of x with the original ones. Multiplying all critical frequencies and the sampling rate by the same number changes nothing, and no sampling rate means the sampling rate 2.", "quantifier": "every order, every valid digital request of Butterworth or Chebyshev I (and Chebyshev II band-pass), every point on or outside the unit circle, every signal; for the units every request", "why_tests_cant": "an identity between two designs for all edges, orders and signals", "anchors": ["sci-rs/src/signal/filter/design/iirfilter.rs: iirfilter_dyn", "sci-rs/src/signal/filter/sosfilt.rs: sosfilt_dyn"]}
{"id": "C112", "title": "Butterworth crossovers preserve energy", "statement": "The powers of the Butterworth low-pass and high-pass designs of one order and edge (and of band-pass and band-stop with the same edges) add up to 1 at every frequency, and the responses of the first pair differ by the factor (i tan(w/2)/tan(pi e/2))^N. Filtering a signal with both sets of sections splits its energy: together the outputs have at most the energy of the signal, and as close to it as one likes if enough silence follows. Filtering twice with each and adding (subtracting for odd orders) preserves the energy in the same sense. Forward-backward filtering with both and adding gives the signal back: exactly for constants, up to exponentially small terms away from the ends for sinusoids.", "quantifier": "every order, edge or pair of edges, frequency below Nyquist, signal", "why_tests_cant": "equalities over all signals, frequencies and orders", "anchors": ["sci-rs/src/signal/filter/design/iirfilter.rs: iirfilter_dyn", "sci-rs/src/signal/filter/sosfilt.rs: sosfilt_dyn", "sci-rs/src/signal/filter/sosfiltfilt.rs: sosfiltfilt_dyn"]}
{"id": "C113", "title": "symmetries of the Savitzky-Golay filter", "statement": "The coefficients of savgol_coeffs_dyn are symmetric about the centre of the window for even derivatives and antisymmetric for odd ones. Raising the order by one changes nothing when order and derivative have the same parity. A sampling interval delta divides the coefficients by delta^deriv. For smoothing with an odd window the coefficient at the centre is the sum of the squares of all coefficients, lies between 1/w and 1 and grows with the order; order 0 or 1 is the moving average; order w-1 returns the sample at the centre. savgol_filter_dyn is linear, and filtering the reversed signal gives the reversed output, negated for odd derivatives.", "quantifier": "every window length, order, derivative, sampling interval, signal and build for which the call returns, every solver that returns the least-squares solution of least norm", "why_tests_cant": "identities over all windows, orders and signals; the coefficients come from a numerical solver", "anchors": ["sci-rs/src/signal/filter/savgol_filter.rs: savgol_filter_dyn", "sci-rs/src/signal/filter/savgol_filter.rs: savgol_coeffs_dyn"]}
{"id": "C114", "title": "change of units and change of sign in floating point", "statement": "If all samples are multiplied by a power of two or its negative, and nothing overflows or underflows, the results change by exactly that factor: sosfilt_dyn, sosfiltfilt_dyn, savgol_filter_dyn, mean, median and lag_diff by the factor c, stdev, median_abs_deviation, rms_fast32 and rmssd by |c|, variance by c squared; autocorr does not change; zscore and mod_zscore change by the sign of c. A change of sign of all samples does so even under overflow, underflow, infinities and NaN, up to the sign of a zero: variance and stdev are the same floating-point numbers, filters, mean, zscore and lag_diff change sign.", "quantifier": "every signal, cascade, filter state, window, order and lag; every factor that commutes with rounding (all powers of two and their negatives for numbers with p bits, -1 for every rounding to nearest); every IEEE format, infinities and NaN included, for the change of sign", "why_tests_cant": "bit-exact equalities over all signals, filters and factors; tests compare floating-point results only up to a tolerance", "anchors": ["sci-rs/src/signal/filter/sosfilt.rs: sosfilt_dyn", "sci-rs/src/signal/filter/sosfiltfilt.rs: sosfiltfilt_dyn", "sci-rs/src/signal/filter/savgol_filter.rs: savgol_filter_dyn", "sci-rs/src/stats.rs: mean, variance, stdev, median, median_abs_deviation, zscore, mod_zscore, autocorr, lag_diff, rms_fast32, rmssd"]}
{"id": "C115", "title": "the combinatorial functions are consistent with each other", "statement": "In builds with overflow checks the identities hold between the values returned: Pascal's rule for comb, perm = comb * factorial, n.perm(n) = n!, the coefficients comb(n, k) of a row add up to 2^n, (n+1)! = (n+1)!! n!!, factorialk(1) = factorial, factorialk(2) = factorial2, the recurrence of stirling2, and x^n is the sum of n.stirling2(k) * x.perm(k). Where the larger side is returned instead of panicking, so are the parts; smaller factorials are returned where a larger one is. In every build n.comb(k) and n.comb(n-k) are the same, panics included, and comb_rep(n,k) is comb(n+k-1,k).", "quantifier": "every integer type, pointer width and argument", "why_tests_cant": "identities between different functions over all arguments and integer types, including which calls panic", "anchors": ["sci-rs/src/special/combinatorics.rs: comb, comb_rep, perm, stirling2", "sci-rs/src/special/factorial.rs: factorial, factorial2, factorialk"]}
{"id": "C116", "title": "order, ripple, edges and family change a design the way a user expects", "statement": "A Butterworth design passes at least half the power exactly at the frequencies inside the requested pass band (edges included), and a Chebyshev I design with ripple rp at least 10^(-rp/10) of it exactly there, for low-pass, high-pass, band-pass and band-stop. Outside the pass band a higher order never passes more, in both families; inside it a Butterworth design of higher order never passes less. A larger ripple never passes more at any frequency. Outside the pass band a Chebyshev I design with a ripple of at least 10 log10 2 dB never passes more than the Butterworth design with the same order and edges. Moving the edge of a Butterworth low-pass up, or of a high-pass down, never passes less at any frequency. Widening the band of a band-pass design never passes less outside the wider band.", "quantifier": "every order, valid request of the two families, sampling rate, and frequency below Nyquist; exact arithmetic", "why_tests_cant": "compares two designs at every frequency for every order and every pair of edges", "anchors": ["sci-rs/src/signal/filter/design/iirfilter.rs: iirfilter_dyn", "sci-rs/src/signal/filter/design/butter.rs: butter_dyn"]}
{"id": "C117", "title": "stable filters forget, and zero-phase filtering is local", "statement": "For stable sections there are constants K and rho < 1, depending on the coefficients only, such that: two copies of the filter in states at most M apart, fed the same signal, differ by at most K M rho^i at sample i, and so do their states; after different pasts (at most D apart) the outputs differ by at most K D rho^i at the i-th sample of a common future; if two signals agree at distance less than d of a sample, sosfiltfilt_dyn differs there by at most K D rho^d; and filtering a piece of a signal with sosfiltfilt_dyn instead of the whole gives the same result up to K D rho^d at distance d from the ends of the piece. In floating point the same holds up to the rounding error K (u D + t), which does not depend on the length. Every section list that the design functions return for a valid digital request qualifies.", "quantifier": "every list of stable sections, every pair of states, every signal, length and position; exact arithmetic and every rounding precise enough", "why_tests_cant": "a uniform bound over all signals, lengths and positions, with constants depending on the filter only", "anchors": ["sci-rs/src/signal/filter/sosfilt.rs: sosfilt_dyn", "sci-rs/src/signal/filter/sosfiltfilt.rs: sosfiltfilt_dyn"]}
{"id": "C118", "title": "zero-phase filtering is convolution with a symmetric kernel away from the ends", "statement": "For stable sections let h be the response of the cascade to a unit impulse from rest and phi(d) the sum over k of h(k) h(k+d). Then |phi(d)| <= K rho^d with rho < 1, phi is largest at 0, and for every signal bounded by D a successful sosfiltfilt_dyn returns at sample i the sum over j of phi(|i-j|) y(j), up to K D (rho^i + rho^(len-1-i)). Hence filtering the reversed signal and reversing gives the same result up to such an amount; exactly it does not. In floating point the same holds up to the rounding error. K and rho depend on the coefficients only.", "quantifier": "every list of stable sections, every signal, length and position; exact arithmetic and every rounding precise enough", "why_tests_cant": "a uniform bound over all signals, lengths and positions, with a kernel that depends on the filter only", "anchors": ["sci-rs/src/signal/filter/sosfiltfilt.rs: sosfiltfilt_dyn", "sci-rs/src/signal/filter/sosfilt.rs: sosfilt_dyn"]}
{"id": "C119", "title": "odd extension, padding and zero-phase filtering are memory-safe in every build", "statement": "For elements of two bytes or more and inputs that fit in memory, odd_ext_dyn, pad and sosfiltfilt_dyn behave in every build (with or without overflow checks, any pointer width) as with exact sizes, and never access memory out of bounds. For one-byte elements odd_ext_dyn, called from safe code without overflow checks, writes out of bounds exactly when len + 2n exceeds usize::MAX; with checks it panics. Such inputs exist for every pointer width.", "quantifier": "every build configuration, matrix, n, axis, pad type and length, signal and list of sections that fit in memory", "why_tests_cant": "quantifies over builds, pointer widths and sizes up to the address space", "anchors": ["sci-rs/src/signal/filter/ext.rs: odd_ext_dyn, pad", "sci-rs/src/signal/filter/sosfiltfilt.rs: sosfiltfilt_dyn"]}
{"id": "C120", "title": "frequency response and impulse response determine each other; zero-phase filtering depends on the magnitude response only", "statement": "For stable sections the frequency response is the Fourier series of the impulse response, and each sample of the impulse response is the mean over one period of the response times a complex exponential. The kernel of zero-phase filtering (C118) has the squared magnitude response as its spectrum and is recovered from it; its value at zero, the sum of the squares of the impulse response, is the mean of the squared magnitude response. Hence two stable cascades with the same frequency response give the same output for every input from rest, and two with the same magnitude response give the same result of sosfiltfilt_dyn up to an amount that decays geometrically with the distance to the ends. For designed Butterworth low-pass and high-pass filters the spectrum of the kernel is the Butterworth power.", "quantifier": "every list of stable sections with leading denominator coefficient 1, every frequency, signal, length and position; exact arithmetic", "why_tests_cant": "equalities of infinite series and integrals, and a uniform bound over all signals", "anchors": ["sci-rs/src/signal/filter/sosfilt.rs: sosfilt_dyn", "sci-rs/src/signal/filter/sosfiltfilt.rs: sosfiltfilt_dyn", "sci-rs/src/signal/filter/design/butter.rs: butter_dyn"]}
{"id": "C121", "title": "stability is exactly bounded output, and the peak gain is the sum of the absolute impulse response", "statement": "From rest, no output of sosfilt_dyn exceeds the sum of the absolute values of the impulse response times the largest input, and for every n some input of size at most one reaches the sum of the first n values. Outputs of bounded inputs are bounded exactly when that sum is finite. If no zero cancels a pole on or outside the unit circle this is exactly when all sections are stable, so an unstable section makes outputs unbounded for some bounded inputs. With zero input the delay values of all sections die out from every initial state exactly when all sections are stable. The assumption on zeros is needed: a cancelled unstable pole does not show from rest, but any state in that section makes the output grow as 2^n.", "quantifier": "every list of sections, every signal and length, every initial state; exact arithmetic", "why_tests_cant": "a supremum over all inputs and the necessity of stability over all filters", "anchors": ["sci-rs/src/signal/filter/sosfilt.rs: sosfilt_dyn, sosfilt_item", "sci-rs/src/signal/filter/design/sos.rs: Sos"]}
{"id": "C122", "title": "coefficients of transfer functions computed in floating point", "statement": "In f32 and f64 arithmetic (no overflow) poly_dyn returns, for n roots, coefficients that differ from those of prod (X - z_i) by at most the fraction (1+5u)^n - 1 of the coefficients of prod (X + |z_i|), plus an underflow term; for roots in the unit disc that is the fraction of the binomial coefficients. zpk2tf_dyn and designs asked for as transfer function have these errors, the numerator one rounding more. On and outside the unit circle the computed denominator differs from the product of x - p_i by at most the sum of those errors; if that sum is smaller than the product of the distances 1 - |p_i|, the computed transfer function is stable. Without the margin it need not be: the double pole 1 - 2^-20 gives in f32 a denominator that vanishes at one.", "quantifier": "every rounding to nearest with unit roundoff at most 1/64 (f32, f64 and others), every list of roots, gain and order, every design request whose roots come in conjugate pairs", "why_tests_cant": "error bounds over all roots, orders and number formats", "anchors": ["sci-rs/src/signal/filter/design/zpk2tf.rs: poly_dyn, zpk2tf_dyn", "sci-rs/src/signal/filter/design/iirfilter.rs: iirfilter_dyn"]}
{"id": "C123", "title": "frequency response of Butterworth band-pass filters designed in floating point", "statement": "In f64 arithmetic (no overflow, elementary functions accurate to h) a Butterworth band-pass request of order n with edges e0 < e1 (fractions of the Nyquist frequency) whose gain does not underflow is answered with a gain whose relative error is at most 17 n h / ((1-e1)(e1-e0)) + 400 n h / ((1-e1)^2 k), and with zeros, poles and gain whose frequency response has at every frequency a relative error of at most 820 n h / (k^2 e0 (1-e1)^3 (e1-e0)) to the filter designed without rounding, where k <= 1/n is a separation constant of the request. The second-order sections are n stable ones and their response has a relative error of at most 820 n h / (k (1-e1)^2 D) + 8 n h / D^2 with D = k e0 (1-e1)(e1-e0); so the amplitude response is the Butterworth band-pass response 1/sqrt(1 + ((t^2-ab)/(t(b-a)))^(2n)) up to that, and exactly zero at DC and at the Nyquist frequency. For order 4 from 8 Hz to 12 Hz at 1 kHz in f64 the error is below 3e-5.", "quantifier": "every rounding to nearest and library of the stated accuracy, every order and pair of edges that meets the stated margin, every frequency", "why_tests_cant": "a bound over all frequencies, orders, edges and number formats", "anchors": ["sci-rs/src/signal/filter/design/butter.rs: butter_dyn", "sci-rs/src/signal/filter/design/iirfilter.rs: iirfilter_dyn", "sci-rs/src/signal/filter/design/lp2bp_zpk.rs: lp2bp_zpk_dyn", "sci-rs/src/signal/filter/design/bilinear_zpk.rs: bilinear_zpk_dyn", "sci-rs/src/signal/filter/design/zpk2sos.rs: zpk2sos_dyn"]}
{"id": "C124", "title": "explicit rounding error of section filtering, alone and after a floating-point Butterworth design", "statement": "Filtering a signal of level L with a cascade of second-order sections whose poles have modulus at most 1 - d gives an output of level at most the product of (|b0|+|b1|+|b2|)/d^2 over the sections, times L, for every signal of every length. In floating point with unit roundoff u (206 u <= d^2, no overflow) every computed output sample is within ((1 + 15 u/d^2)^N - 1) times that bound, plus an explicit underflow term, of the exact output, however long the signal is. For a Butterworth low-pass or high-pass filter that is both designed and run in floating point, every output sample is within 250 n^3 h/(e(1-e))^2 sqrt(energy of the signal) + ((1 + 15 u/d^2)^N - 1) 1.02 k (4/d^2)^N L, plus an underflow term, of the exact output of the exactly designed filter, where d = 0.87 M/(1+M), M = sin(pi e) sin(pi/(2n)) and k is the gain of the filter.", "quantifier": "all cascades of sections at rest with poles of modulus at most 1 - d, all d, all rounding arithmetics with 206 u <= d^2, all signals of every length; for the design all orders, both bands, all edge frequencies and all accurate elementary functions within the stated size conditions", "why_tests_cant": "Rounding errors are fed back for the whole length of the signal and depend on every coefficient and sample; tests compare a few filters on short signals with a loose tolerance and cannot show that the error stays bounded for all lengths.", "anchors": ["sci-rs/src/signal/filter/sosfilt.rs: sosfilt_dyn, sosfilt_item", "sci-rs/src/signal/filter/design/butter.rs: butter_dyn", "sci-rs/src/signal/filter/design/zpk2sos.rs: zpk2sos_dyn"]}
{"id": "C125", "title": "infinite and NaN times and duty cycles in the square wave", "statement": "A release build of square panics exactly when the duty cycle is not a number from 0 to 1 (NaN and infinities are refused, negative zero is accepted), whatever the times; a build with debug assertions panics also when some time is NaN or infinite. A release build returns one value per time, each 1 or -1, and -1 at every NaN or infinite time; a finite time gives the same value in both builds, whatever the other times are, and nothing overflows in the calculation.", "quantifier": "all arrays of times and all duty cycles, including NaN, infinities and signed zeros; every format in which the constant 2 pi is representable and finite; builds with and without debug assertions", "why_tests_cant": "The tests use finite times in debug builds only; the behaviour of the build users ship, on every mixture of special and finite values, is a claim over all arrays.", "anchors": ["sci-rs/src/signal/wave/mod.rs: square"]}
{"id": "C126", "title": "closed form, symmetries and power of resampling", "statement": "Sample m of resample(x, n) is the value at m/n of the periodic function (1/N) sum_j x_j D(t - j/N), where N is the length of x and D(t) = 1 + 2 cos 2 pi t + ... + 2 cos 2 pi (K-1) t + cos 2 pi K t with K = floor(min(N, n)/2). So a circular shift of the signal by s samples shifts the result by s' samples whenever s/N = s'/n; running the signal backwards around its first sample does the same to the result; the mean square of the result is at most that of the signal, and two signals resampled are at most as far apart, in mean square, as they were; and resampling to m samples by way of n samples gives the same as resampling at once, if n is large enough (floor(min(N, m)/2) < floor(n/2)) and floor(N/2) differs from floor(m/2).", "quantifier": "all real signals, all lengths of signal, intermediate and final result, all shifts", "why_tests_cant": "Equations between results for every signal and every pair of lengths, of both parities; a test compares a few fixed signals.", "anchors": ["sci-rs/src/signal/resample.rs: resample"]}
{"id": "C127", "title": "frequency response of Butterworth band-stop filters designed in floating point", "statement": "In f64 arithmetic (no overflow, elementary functions accurate to h) a Butterworth band-stop request of order n with edges e0 < e1 (fractions of the Nyquist frequency) whose gain does not underflow is answered with a gain whose relative error is at most 800 n h / ((1-e1)^2 k), where k <= 1/n is a separation constant of the request. At every frequency the response of the zeros, poles and gain differs from that of the filter designed without rounding by at most 1600 n h / (k^2 e0 (1-e1)^3 (e1-e0)) of full scale. The second-order sections are n stable ones and their response differs by at most 1600 n h / (k (1-e1)^2 D) + 9 n h / D^2 with D = k e0 (1-e1)(e1-e0); so the amplitude response is the Butterworth band-stop response 1/sqrt(1 + (t(b-a)/(ab-t^2))^(2n)) up to that, and at the centre of the stop band at most that. For order 4 from 8 Hz to 12 Hz at 1 kHz in f64 the error is below 5e-5.", "quantifier": "every rounding to nearest and library of the stated accuracy, every order and pair of edges that meets the stated margin, every frequency", "why_tests_cant": "a bound over all frequencies, orders, edges and number formats", "anchors": ["sci-rs/src/signal/filter/design/butter.rs: butter_dyn", "sci-rs/src/signal/filter/design/iirfilter.rs: iirfilter_dyn", "sci-rs/src/signal/filter/design/lp2bs_zpk.rs: lp2bs_zpk_dyn", "sci-rs/src/signal/filter/design/bilinear_zpk.rs: bilinear_zpk_dyn", "sci-rs/src/signal/filter/design/zpk2sos.rs: zpk2sos_dyn"]}
{"id": "C128", "title": "signals filtered with band-pass and band-stop filters designed in floating point", "statement": "Filter any signal with the second-order sections of a Butterworth band-pass or band-stop filter designed in f64 arithmetic (no overflow, elementary functions accurate to h, gain not underflowing), and with the sections the same request gives without rounding. With B = 1600 n h / (k (1-e1)^2 D) + 9 n h / D^2 and D = k e0 (1-e1)(e1-e0), the difference of the two outputs has at most B^2 times the energy (sum of squares) of the signal, and the output of the filter designed in floating point has at most (1+B)^2 times that energy. For order 4 from 8 Hz to 12 Hz at 1 kHz in f64, B is below 5e-5.", "quantifier": "every rounding to nearest and library of the stated accuracy, every order and pair of edges that meets the stated margin, every finite signal", "why_tests_cant": "a bound over all signals, orders, edges and number formats", "anchors": ["sci-rs/src/signal/filter/design/butter.rs: butter_dyn", "sci-rs/src/signal/filter/design/iirfilter.rs: iirfilter_dyn", "sci-rs/src/signal/filter/design/zpk2sos.rs: zpk2sos_dyn", "sci-rs/src/signal/filter/sosfilt.rs: sosfilt_dyn"]}
{"id": "C129", "title": "Chebyshev II low-pass filters designed in floating point are accurate and stable", "statement": "Ask iirfilter_dyn for a digital Chebyshev II low-pass filter of any order n, stop-band attenuation rs > 0 dB and edge e (a fraction of the Nyquist frequency), in a floating-point type without overflow whose elementary functions are accurate to h. Let mu be the parameter with cosh(n mu) = 10^(rs/20), kappa = (1+rs)/(1-10^(-rs/10)) (1+mu) and X = e(1-e) sinh(mu)/(n cosh(mu)^2). If h <= 10^(-rs/20) and 12288 n kappa h <= X^2, the request is answered; every pole and every zero is within 660 n kappa h/(1-e) of that of the filter designed without rounding; the second-order sections are returned, there are (n+1)/2 of them, all are stable, and filtering any bounded signal with them in sufficient precision has a bounded error. For f64 with a library accurate to 2^-50 the conditions are rs <= 300 and n kappa <= 2^36 X^2.", "quantifier": "every order, attenuation, edge, rounding to nearest and library of the stated accuracy for which the precision suffices", "why_tests_cant": "ranges over all orders, attenuations, edges, number formats and library implementations, and the sections' stability must hold for all of them", "anchors": ["sci-rs/src/signal/filter/design/iirfilter.rs: iirfilter_dyn, cheb2ap_dyn", "sci-rs/src/signal/filter/design/bilinear_zpk.rs: bilinear_zpk_dyn", "sci-rs/src/signal/filter/design/lp2lp_zpk.rs: lp2lp_zpk_dyn", "sci-rs/src/signal/filter/design/zpk2sos.rs: zpk2sos_dyn"]}
{"id": "C130", "title": "Chebyshev II low-pass filters designed in floating point have the Chebyshev II response up to a small relative error", "statement": "Take a digital Chebyshev II low-pass request in zero-pole-gain format to iirfilter_dyn under the hypotheses of C129 and such that the gain does not underflow. Let rho = 660 n kappa h/(1-e) be the bound of C129 for the errors of poles and zeros and X the margin. Then the computed gain has a relative error of at most 4 n rho. At every point of the unit circle that is at least d >= 20 n rho away from the zeros of the exact filter, the response of the computed filter has a relative error of at most E = 4 n rho (1/X + 1/d). Hence its amplitude there is that of the Chebyshev II response |T_n(1/v)|/sqrt(T_n(1/v)^2 + eps^2), v = tan(omega/2)/tan(pi e/2), up to the relative error E; in the stop band it is at most (1+E) 10^(-rs/20); and at frequency zero the response is within 12 n rho/X of 1 (if 40 n rho <= X). For order 4, 40 dB, 10 Hz of 1 kHz in f64 the response at zero is within 1e-5 of 1.", "quantifier": "every order, attenuation, edge, frequency, rounding to nearest and library of the stated accuracy for which the precision suffices", "why_tests_cant": "ranges over all orders, attenuations, edges, frequencies, number formats and library implementations", "anchors": ["sci-rs/src/signal/filter/design/iirfilter.rs: iirfilter_dyn, cheb2ap_dyn", "sci-rs/src/signal/filter/design/bilinear_zpk.rs: bilinear_zpk_dyn", "sci-rs/src/signal/filter/design/lp2lp_zpk.rs: lp2lp_zpk_dyn"]}
{"id": "C131", "title": "Chebyshev I band-pass and band-stop filters designed in floating point are accurate and stable", "statement": "Take a digital Chebyshev I band-pass or band-stop request of order n, ripple rp and edges 0 < e0 < e1 < 1 (fractions of the Nyquist frequency) to cheby1_dyn, computed in a floating-point type with rounding to nearest and a mathematical library of relative accuracy h. Let c be the condition of the ripple, Lambda a bound for cosh(mu) and 1/sinh(mu), where sinh(n mu) is the inverse of the ripple factor, and kappa a measure of how far the two roots for each prototype pole are apart. If h is small enough in terms of n, c, Lambda, kappa and the edges, the request is answered, and every computed pole is within 1240 n c^2 Lambda^2 h/(kappa (1-e1)^2) of the pole of the filter designed without any rounding. If in addition h is small compared with the distance of the poles from the unit circle, the request for sections is answered with n sections, every section is stable, and filtering any bounded signal with them in a rounded arithmetic of sufficient precision has a bounded error. For order 4, 1 dB, 50 Hz to 100 Hz of 1 kHz in f64 the poles are within 1e-7.", "quantifier": "every order, ripple, pair of edges, rounding to nearest and library of the stated accuracy for which the precision suffices", "why_tests_cant": "ranges over all orders, ripples, edges, number formats, library implementations and input signals", "anchors": ["sci-rs/src/signal/filter/design/iirfilter.rs: cheby1_dyn, iirfilter_dyn, cheb1ap_dyn", "sci-rs/src/signal/filter/design/lp2bp_zpk.rs: lp2bp_zpk_dyn", "sci-rs/src/signal/filter/design/lp2bs_zpk.rs: lp2bs_zpk_dyn", "sci-rs/src/signal/filter/design/bilinear_zpk.rs: bilinear_zpk_dyn", "sci-rs/src/signal/filter/design/zpk2sos.rs: zpk2sos_dyn"]}
{"id": "C132", "title": "Chebyshev I low-pass and high-pass filters designed and run in floating point, from end to end", "statement": "Take a digital Chebyshev I low-pass or high-pass request of order n, ripple rp and edge e to cheby1_dyn, computed in a floating-point type with rounding to nearest and a mathematical library of relative accuracy h, such that h is small enough for the margin X of C97. Then the request for sections is answered, and so is the request without rounding. Filter any signal with the computed sections and with the exact sections through sosfilt_dyn: the difference of the outputs has at most E^2 times the energy of the signal, and the first output at most (1+E)^2 times that energy, where E = 800 n^2 c^2 h/X^2 and c is the condition of the ripple. If also the filtering is done in floating point, then for a signal of level L every sample of the output is within E sqrt(energy) + ((1+15u/delta^2)^N - 1) k (4/delta^2)^N L, plus an explicit underflow term, of the output of the exact filter in exact arithmetic, with delta = 0.39 X, N = (n+1)/2 sections and the computed gain k, which is at most 1.1. For order 2, 1 dB, 250 Hz of 1 kHz in f64 this is 1e-5 sqrt(energy) + 1e-3 L + 1e-60.", "quantifier": "every order, ripple, edge, signal, rounding to nearest and library of the stated accuracy for which the precision suffices", "why_tests_cant": "ranges over all orders, ripples, edges, signals, number formats and library implementations", "anchors": ["sci-rs/src/signal/filter/design/iirfilter.rs: cheby1_dyn, iirfilter_dyn, cheb1ap_dyn", "sci-rs/src/signal/filter/design/zpk2sos.rs: zpk2sos_dyn", "sci-rs/src/signal/filter/sosfilt.rs: sosfilt_dyn"]}
{"id": "C133", "title": "Frequency response of Chebyshev I band-pass filters designed in floating point", "statement": "Take a digital Chebyshev I band-pass request of order n, ripple rp and edges e0 < e1 to cheby1_dyn, computed in a floating-point type with rounding to nearest and a mathematical library of relative accuracy h, as in C131, such that the gain does not underflow and h is small enough for the margin X = kappa e0 (1-e1)(e1-e0)/Lambda^3. Then the computed gain has a relative error of at most 20 n h/((1-e1)(e1-e0)) + 1800 n^2 c^2 Lambda^2 h/(kappa (1-e1)^2), the zeros are those of the exact design, and at every frequency the zeros, poles and gain have the response of the exact design up to the relative error 3280 n^2 c^2 Lambda^2 h/(kappa (1-e1)^2 X); the sections are stable and have it up to 8 n h/X^2 more. So the amplitude response of the computed sections is 1/sqrt(1 + eps^2 T_n((t^2 - alpha beta)/(t (beta - alpha)))^2) up to that error, with t = tan(omega/2), and it is exactly 0 at frequency 0 and at the Nyquist frequency. For order 2, 1 dB, 125 Hz to 250 Hz of 1 kHz in f64 the error is at most 3e-4.", "quantifier": "every order, ripple, pair of edges, frequency, rounding to nearest and library of the stated accuracy for which the precision suffices", "why_tests_cant": "ranges over all orders, ripples, edges, frequencies, number formats and library implementations", "anchors": ["sci-rs/src/signal/filter/design/iirfilter.rs: cheby1_dyn, iirfilter_dyn, cheb1ap_dyn", "sci-rs/src/signal/filter/design/lp2bp_zpk.rs: lp2bp_zpk_dyn", "sci-rs/src/signal/filter/design/bilinear_zpk.rs: bilinear_zpk_dyn", "sci-rs/src/signal/filter/design/zpk2sos.rs: zpk2sos_dyn"]}
{"id": "C134", "title": "Designing band-pass filters and filtering with them in floating point", "statement": "Design a Butterworth or Chebyshev I band-pass filter of order n in floating point (butter_dyn, cheby1_dyn with sections as output) under the conditions of C123 or C133, and filter a signal of level L with its n sections in the same arithmetic (sosfilt_dyn). Let E be the error of the design (that of C128 for Butterworth, that of C133 for Chebyshev I) and delta 0.8 times the margin of the request. Every sample of the output is within E sqrt(energy of the signal) + ((1 + 15 u/delta^2)^n - 1) k (4/delta^2)^n L, plus an underflow term, of the output of the exactly designed filter run in exact arithmetic; the computed gain k is at most 1.1. In exact arithmetic the outputs of the two Chebyshev I filters differ by at most E^2 times the energy of the signal. For the Butterworth filter of order 2 from 125 Hz to 250 Hz of 1 kHz in f64 the error of a sample is at most 2e-9 sqrt(energy) + L/50 + 1e-50.", "quantifier": "every order, ripple, pair of edges, signal, rounding to nearest and library of the stated accuracy for which the precision suffices", "why_tests_cant": "ranges over all signals, orders, ripples, edges, number formats and library implementations", "anchors": ["sci-rs/src/signal/filter/design/iirfilter.rs: butter_dyn, cheby1_dyn, iirfilter_dyn", "sci-rs/src/signal/filter/design/zpk2sos.rs: zpk2sos_dyn", "sci-rs/src/signal/filter/sosfilt.rs: sosfilt_dyn"]}
{"id": "C135", "title": "Frequency response of Chebyshev I band-stop filters designed in floating point", "statement": "Design a Chebyshev I band-stop filter of order n, ripple rp and edges e0 < e1 (fractions of the Nyquist frequency) in floating point (cheby1_dyn). Let kappa, Lambda and c be the spread, size and ripple condition of the request as in C131, h the accuracy of the arithmetic and library, and X = kappa e0 (1 - e1) (e1 - e0) / Lambda^3. If the precision suffices and the gain does not underflow, the computed gain has relative error at most 3320 n^2 c^2 Lambda^2 h / (kappa (1 - e1)^2); at every frequency the response of the computed zeros, poles and gain is within 4080 n^2 c^2 Lambda^2 h / (kappa (1 - e1)^2 X) of that of the exactly designed filter, and that of the n computed sections, all stable, within 8 n h / X^2 more. So the amplitude response of the sections is the Chebyshev band-stop response 1/sqrt(1 + eps^2 T_n(t (beta - alpha)/(alpha beta - t^2))^2) up to that error and at the centre of the stop band it is at most the error: 4e-4 for order 2, ripple 1 dB and the band from 125 Hz to 250 Hz of 1 kHz in f64.", "quantifier": "every order, ripple, pair of edges, frequency, rounding to nearest and library of the stated accuracy for which the precision suffices", "why_tests_cant": "ranges over all frequencies, orders, ripples, edges, number formats and library implementations", "anchors": ["sci-rs/src/signal/filter/design/iirfilter.rs: cheby1_dyn, iirfilter_dyn", "sci-rs/src/signal/filter/design/lp2bs_zpk.rs: lp2bs_zpk_dyn", "sci-rs/src/signal/filter/design/bilinear_zpk.rs: bilinear_zpk_dyn", "sci-rs/src/signal/filter/design/zpk2sos.rs: zpk2sos_dyn"]}
{"id": "C136", "title": "Designing band-stop filters and filtering with them in floating point", "statement": "Design a Butterworth or Chebyshev I band-stop filter of order n in floating point (butter_dyn, cheby1_dyn with sections as output) under the conditions of C127 or C135, and filter a signal of level L with its n sections in the same arithmetic (sosfilt_dyn). Let E be the error of the response that C127 or C135 gives and delta 0.8 times the margin of the request. Every sample of the output is within E sqrt(energy of the signal) + ((1 + 15 u/delta^2)^n - 1) k (4.2/delta^2)^n L, plus an underflow term, of the output of the exactly designed filter run in exact arithmetic; the computed gain k is at most 1.2. In exact arithmetic the outputs of the two Chebyshev I filters differ by at most E^2 times the energy of the signal. For the Butterworth filter of order 2 that stops 125 Hz to 250 Hz of 1 kHz in f64 the error of a sample is at most 2e-9 sqrt(energy) + L/40 + 1e-50.", "quantifier": "every order, ripple, pair of edges, signal, rounding to nearest and library of the stated accuracy for which the precision suffices", "why_tests_cant": "ranges over all signals, orders, ripples, edges, number formats and library implementations", "anchors": ["sci-rs/src/signal/filter/design/iirfilter.rs: butter_dyn, cheby1_dyn, iirfilter_dyn", "sci-rs/src/signal/filter/design/zpk2sos.rs: zpk2sos_dyn", "sci-rs/src/signal/filter/sosfilt.rs: sosfilt_dyn"]}
{"id": "C137", "title": "Zero-phase filtering with a filter designed in floating point", "statement": "Design a Butterworth or Chebyshev I low-pass, high-pass, band-pass or band-stop filter in floating point (butter_dyn, cheby1_dyn with sections as output) under the conditions of C91, C98, C123, C127, C133 or C135, and let E be the error of the frequency response given there. Every sample of its impulse response is within E of that of the filter designed without rounding, however late the sample is. Filter a signal forwards and backwards (sosfiltfilt_dyn) in exact arithmetic with the two filters: sample i of the outputs differs by at most E (2 + E) sqrt(energy of the signal), plus K D (rho^i + rho^(N-1-i)) for the padding of the ends, where D bounds the signal, N is its length, and K and rho < 1 depend on the filters only. If the computed filter is also run in floating point, in a format with unit roundoff u and underflow error t that is fine enough for it, and the signal is longer than the padding, both calls succeed and the rounding adds K (u D + t). Both bounds hold for any two stable cascades whose responses differ by at most E, the second with gain at most 1. For the Butterworth filter of order 2 for 125 Hz to 250 Hz of 1 kHz in f64 the bounds are 2e-9 and 5e-9 sqrt(energy), for that of order 4 for low-pass at 10 Hz 4e-8 and 8e-8 sqrt(energy).", "quantifier": "every order, ripple, pair of edges, signal, rounding to nearest and library of the stated accuracy for which the precision suffices; in the general form every pair of stable cascades", "why_tests_cant": "ranges over all signals of all lengths, and over all filters, number formats and library implementations", "anchors": ["sci-rs/src/signal/filter/design/iirfilter.rs: butter_dyn, cheby1_dyn, iirfilter_dyn", "sci-rs/src/signal/filter/design/zpk2sos.rs: zpk2sos_dyn", "sci-rs/src/signal/filter/sosfiltfilt.rs: sosfiltfilt_dyn"]}

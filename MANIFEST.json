{
 "claims": [
  {
   "property": "C01",
   "status": "proved",
   "theorems": [
    "SciRs.Props.C01_median",
    "SciRs.Props.C01_empty",
    "SciRs.Props.C01_total"
   ],
   "note": "median is the true order-statistic median"
  },
  {
   "property": "C02",
   "status": "proved",
   "theorems": [
    "SciRs.Props.C02_perm",
    "SciRs.Props.C02_nan_order_dependent"
   ],
   "note": "median does not depend on the order of the samples"
  },
  {
   "property": "C03",
   "status": "proved",
   "theorems": [
    "SciRs.Props.C03_mean",
    "SciRs.Props.C03_variance",
    "SciRs.Props.C03_variance_alt",
    "SciRs.Props.C03_stdev",
    "SciRs.Props.C03_empty",
    "SciRs.Props.C03_variance_nonneg",
    "SciRs.Props.C03_affine",
    "SciRs.Props.C03_count"
   ],
   "note": "mean, variance and stdev are the population statistics"
  },
  {
   "property": "C04",
   "status": "proved",
   "theorems": [
    "SciRs.Props.C04_value",
    "SciRs.Props.C04_lag_zero",
    "SciRs.Props.C04_large_lag",
    "SciRs.Props.C04_bounded",
    "SciRs.Props.C04_affine"
   ],
   "note": "autocorr is a normalised autocorrelation"
  },
  {
   "property": "C05",
   "status": "partial",
   "theorems": [
    "SciRs.Props.C05_value",
    "SciRs.Props.C05_exact_partial",
    "SciRs.Props.C05_wrong",
    "SciRs.Props.C05_panics_iff"
   ],
   "note": "The claim is false of the code: the products beyond the last full tile of four are overwritten. Proved: the exact value of every output entry, correctness when 4 divides N - lag, a counterexample, the variance and the in-place centring, and the exact panic set."
  },
  {
   "property": "C06",
   "status": "proved",
   "theorems": [
    "SciRs.Props.C06_rms"
   ],
   "note": "rms_fast32 is the root mean square"
  },
  {
   "property": "C07",
   "status": "proved",
   "theorems": [
    "SciRs.Props.C07_length",
    "SciRs.Props.C07_entry",
    "SciRs.Props.C07_reconstruct",
    "SciRs.Props.C07_rmssd",
    "SciRs.Props.C07_shift"
   ],
   "note": "lag_diff and rmssd are first differences"
  },
  {
   "property": "C08",
   "status": "proved",
   "theorems": [
    "SciRs.Props.C08_entry",
    "SciRs.Props.C08_standard",
    "SciRs.Props.C08_affine"
   ],
   "note": "zscore standardises"
  },
  {
   "property": "C09",
   "status": "proved",
   "theorems": [
    "SciRs.Props.C09_mad",
    "SciRs.Props.C09_mad_nonneg",
    "SciRs.Props.C09_mad_affine",
    "SciRs.Props.C09_mod_zscore",
    "SciRs.Props.C09_mod_zscore_affine"
   ],
   "note": "median_abs_deviation and mod_zscore are the robust statistics"
  },
  {
   "property": "C10",
   "status": "proved",
   "theorems": [
    "SciRs.Props.C10_negative",
    "SciRs.Props.C10_exact",
    "SciRs.Props.C10_panics_iff"
   ],
   "note": "factorial is exact or panics"
  },
  {
   "property": "C11",
   "status": "proved",
   "theorems": [
    "SciRs.Props.C11_negative",
    "SciRs.Props.C11_exact",
    "SciRs.Props.C11_panics_iff"
   ],
   "note": "factorial2 is the exact double factorial or panics"
  },
  {
   "property": "C12",
   "status": "partial",
   "theorems": [
    "SciRs.Props.C12_edge",
    "SciRs.Props.C12_exact_partial",
    "SciRs.Props.C12_panics_iff",
    "SciRs.Props.C12_spurious_panic",
    "SciRs.Props.C12_wrong_value",
    "SciRs.Props.C12_diverges"
   ],
   "note": "The claim is false of the code: the loop counter can overflow. Proved: exactness on the exact checked success set, the exact panic set, and witnesses for a spurious panic, a wrong value and a non-terminating call in an unchecked build."
  },
  {
   "property": "C13",
   "status": "partial",
   "theorems": [
    "SciRs.Props.C13_outside",
    "SciRs.Props.C13_exact_partial",
    "SciRs.Props.C13_panics_iff",
    "SciRs.Props.C13_spurious_panic",
    "SciRs.Props.C13_wrong_value",
    "SciRs.Props.C13_counts_subsets_partial"
   ],
   "note": "The claim is false of the code (10u8.comb(5) panics though 252 fits). Proved: zero outside the range, exactness in every build whenever min(k,n-k)*C(n,k) fits and n is below the maximum, the exact panic set of a checked build, and witnesses."
  },
  {
   "property": "C14",
   "status": "proved",
   "theorems": [
    "SciRs.Props.C14_exact",
    "SciRs.Props.C14_zero",
    "SciRs.Props.C14_negative",
    "SciRs.Props.C14_panics_iff",
    "SciRs.Props.C14_counts_multisets"
   ],
   "note": "comb_rep counts multisets"
  },
  {
   "property": "C15",
   "status": "proved",
   "theorems": [
    "SciRs.Props.C15_outside",
    "SciRs.Props.C15_exact",
    "SciRs.Props.C15_panics_iff",
    "SciRs.Props.C15_counts_injections"
   ],
   "note": "perm counts injections, exactly or panics"
  },
  {
   "property": "C16",
   "status": "proved",
   "theorems": [
    "SciRs.Props.C16_outside",
    "SciRs.Props.C16_exact",
    "SciRs.Props.C16_panics_iff",
    "SciRs.Props.C16_counts_partitions"
   ],
   "note": "stirling2 counts set partitions"
  },
  {
   "property": "C17",
   "status": "proved",
   "theorems": [
    "SciRs.Props.C17_even",
    "SciRs.Props.C17_scaled",
    "SciRs.Props.C17_regimes",
    "SciRs.Props.C17_vec"
   ],
   "note": "i0 and i0e are even and consistent"
  },
  {
   "property": "C18",
   "status": "partial",
   "theorems": [
    "SciRs.Props.C18_value_partial",
    "SciRs.Props.C18_wrong",
    "SciRs.Props.C18_error",
    "SciRs.Props.C18_i0e_error"
   ],
   "note": "The claim is false of the code: the first coefficient is consumed twice. Proved: the exact value returned for every list and point, a counterexample, the error bound |c0| on [-2,2], and that the effect on i0e is below 1e-17 for every argument."
  },
  {
   "property": "C19",
   "status": "proved",
   "theorems": [
    "SciRs.Props.C19_companion",
    "SciRs.Props.C19_safety",
    "SciRs.Props.C19_eigenvalues",
    "SciRs.Props.C19_safety_builds"
   ],
   "note": "Finding: undefined behaviour of order-zero filters in unchecked builds (C19_safety_builds, C27_builds)."
  },
  {
   "property": "C20",
   "status": "proved",
   "theorems": [
    "SciRs.Props.C20_sosfilt_dyn_eq_cascade",
    "SciRs.Props.C20_sosfilt_st_eq_cascade",
    "SciRs.Props.C20_sosfilt_item_eq_dyn",
    "SciRs.Props.C20_sosfilt_st_eq_dyn"
   ],
   "note": "all cascade implementations compute the same floating-point result"
  },
  {
   "property": "C21",
   "status": "proved",
   "theorems": [
    "SciRs.Props.C21_chunked"
   ],
   "note": "filtering can be chunked and resumed"
  },
  {
   "property": "C22",
   "status": "proved",
   "theorems": [
    "SciRs.Props.C22_fast32",
    "SciRs.Props.C22_ifast32",
    "SciRs.Props.C22_panics_iff"
   ],
   "note": "the fast 32-bit kernels equal the reference cascade"
  },
  {
   "property": "C23",
   "status": "proved",
   "theorems": [
    "SciRs.Props.C23_transfer",
    "SciRs.Props.C23_difference_equation"
   ],
   "note": "sosfilt realises the product transfer function"
  },
  {
   "property": "C24",
   "status": "proved",
   "theorems": [
    "SciRs.Props.C24_linear",
    "SciRs.Props.C24_shift",
    "SciRs.Props.C24_length",
    "SciRs.Props.C24_causal",
    "SciRs.Props.C24_coeffs_unchanged"
   ],
   "note": "sosfilt is linear, causal, shift-invariant and length-preserving"
  },
  {
   "property": "C25",
   "status": "proved",
   "theorems": [
    "SciRs.Props.C25_permute"
   ],
   "note": "section order does not matter in exact arithmetic"
  },
  {
   "property": "C26",
   "status": "proved",
   "theorems": [
    "SciRs.Props.C26_bibo",
    "SciRs.Props.C26_decay"
   ],
   "note": "stable sections give bounded output"
  },
  {
   "property": "C27",
   "status": "proved",
   "theorems": [
    "SciRs.Props.C27_builds",
    "SciRs.Props.C27_steady_state",
    "SciRs.Props.C27_panics_iff"
   ],
   "note": "Finding: undefined behaviour of order-zero filters in unchecked builds (C19_safety_builds, C27_builds)."
  },
  {
   "property": "C28",
   "status": "proved",
   "theorems": [
    "SciRs.Props.C28_no_transient",
    "SciRs.Props.C28_needs_normalised"
   ],
   "note": "sosfilt_zi_dyn removes the start-up transient"
  },
  {
   "property": "C29",
   "status": "proved",
   "theorems": [
    "SciRs.Props.C29_odd_ext",
    "SciRs.Props.C29_panics_iff",
    "SciRs.Props.C29_pad",
    "SciRs.Props.C29_point_symmetric"
   ],
   "note": "odd extension is in bounds and point-symmetric"
  },
  {
   "property": "C30",
   "status": "proved",
   "theorems": [
    "SciRs.Props.C30_panics_iff",
    "SciRs.Props.C30_length",
    "SciRs.Props.C30_states_irrelevant"
   ],
   "note": "sosfiltfilt_dyn keeps the length and panics exactly on short input"
  },
  {
   "property": "C31",
   "status": "proved",
   "theorems": [
    "SciRs.Props.C31_constant",
    "SciRs.Props.C31_linear",
    "SciRs.Props.C31_forward_backward"
   ],
   "note": "sosfiltfilt_dyn has squared DC gain and is linear"
  },
  {
   "property": "C32",
   "status": "proved",
   "theorems": [
    "SciRs.Props.C32_panics_iff",
    "SciRs.Props.C32_length"
   ],
   "note": "savgol_filter_dyn validates and preserves length"
  },
  {
   "property": "C33",
   "status": "proved",
   "theorems": [
    "SciRs.Props.C33_polynomial_exact",
    "SciRs.Props.C33_constant_exact",
    "SciRs.Props.C33_derivative_overflow_false"
   ],
   "note": "Savitzky-Golay reproduces polynomials"
  },
  {
   "property": "C34",
   "status": "proved",
   "theorems": [
    "SciRs.Props.C34_value",
    "SciRs.Props.C34_periodic",
    "SciRs.Props.C34_panics_iff",
    "SciRs.Props.C34_extremes"
   ],
   "note": "square is a 2*pi-periodic pulse of the given duty"
  },
  {
   "property": "C35",
   "status": "proved",
   "theorems": [
    "SciRs.Props.C35_full_is_convolution",
    "SciRs.Props.C35_full_panics_iff",
    "SciRs.Props.C35_full_empty_unchecked",
    "SciRs.Props.C35_full_comm",
    "SciRs.Props.C35_convolve_eq"
   ],
   "note": "fftconvolve Full is the discrete convolution"
  },
  {
   "property": "C36",
   "status": "proved",
   "theorems": [
    "SciRs.Props.C36_valid",
    "SciRs.Props.C36_same",
    "SciRs.Props.C36_valid_shorter_empty",
    "SciRs.Props.C36_valid_documented_length_false",
    "SciRs.Props.C36_empty_second_panics"
   ],
   "note": "Valid and Same windows, for every pair of lengths; the empty result of Valid for n1<n2 contradicts the doc comment and is proved with a witness; an empty second input panics in every build."
  },
  {
   "property": "C37",
   "status": "proved",
   "theorems": [
    "SciRs.Props.C37_correlate_full",
    "SciRs.Props.C37_correlate_eq",
    "SciRs.Props.C37_correlate_valid",
    "SciRs.Props.C37_autocorrelation_symmetric",
    "SciRs.Props.C37_autocorrelation_peak"
   ],
   "note": "correlate is cross-correlation"
  },
  {
   "property": "C38",
   "status": "partial",
   "theorems": [
    "SciRs.Props.C38_length",
    "SciRs.Props.C38_identity_even_partial",
    "SciRs.Props.C38_identity_odd_loss",
    "SciRs.Props.C38_identity_odd_false",
    "SciRs.Props.C38_mean_preserved",
    "SciRs.Props.C38_bandlimited_exact",
    "SciRs.Props.C38_constant"
   ],
   "note": "The claim is false of the code for odd lengths: the middle spectral bin is dropped (resample([1],1) = [0]). Proved: length, identity for even lengths, the exact loss for odd lengths, exact resampling of every signal band-limited below half of both lengths, and preservation of the mean. The external FFT is modelled by its exact mathematical definition."
  },
  {
   "property": "C39",
   "status": "proved",
   "theorems": [
    "SciRs.Props.C39_lp2lp",
    "SciRs.Props.C39_lp2lp_default"
   ],
   "note": "lp2lp_zpk_dyn rescales frequency"
  },
  {
   "property": "C40",
   "status": "partial",
   "theorems": [
    "SciRs.Props.C40_lp2hp_partial",
    "SciRs.Props.C40_lp2hp_finite_zero_wrong"
   ],
   "note": "lp2hp: proved for prototypes without finite zeros; with finite zeros the code is wrong (C40_lp2hp_finite_zero_wrong gives a witness)."
  },
  {
   "property": "C41",
   "status": "proved",
   "theorems": [
    "SciRs.Props.C41_lp2bp"
   ],
   "note": "lp2bp_zpk_dyn is the band-pass substitution"
  },
  {
   "property": "C42",
   "status": "partial",
   "theorems": [
    "SciRs.Props.C42_lp2bs_partial",
    "SciRs.Props.C42_lp2bs_finite_zero_wrong"
   ],
   "note": "lp2bs: proved for prototypes without finite zeros; with finite zeros the code is wrong (C42_lp2bs_finite_zero_wrong gives a witness)."
  },
  {
   "property": "C43",
   "status": "proved",
   "theorems": [
    "SciRs.Props.C43_bilinear",
    "SciRs.Props.C43_stability",
    "SciRs.Props.C43_real_filters"
   ],
   "note": "bilinear_zpk_dyn is the bilinear substitution"
  },
  {
   "property": "C44",
   "status": "proved",
   "theorems": [
    "SciRs.Props.C44_panics_iff",
    "SciRs.Props.C44_degrees"
   ],
   "note": "relative degree is checked"
  },
  {
   "property": "C45",
   "status": "proved",
   "theorems": [
    "SciRs.Props.C45_poles",
    "SciRs.Props.C45_response",
    "SciRs.Props.C45_dc"
   ],
   "note": "buttap_dyn is the Butterworth prototype"
  },
  {
   "property": "C46",
   "status": "proved",
   "theorems": [
    "SciRs.Props.C46_poles",
    "SciRs.Props.C46_response",
    "SciRs.Props.C46_ripple",
    "SciRs.Props.C46_dc",
    "SciRs.Props.C46_order_zero"
   ],
   "note": "cheb1ap_dyn is the Chebyshev I prototype"
  },
  {
   "property": "C47",
   "status": "proved",
   "theorems": [
    "SciRs.Props.C47_poles_zeros",
    "SciRs.Props.C47_response",
    "SciRs.Props.C47_attenuation",
    "SciRs.Props.C47_order_zero"
   ],
   "note": "cheb2ap_dyn is the Chebyshev II prototype"
  },
  {
   "property": "C48",
   "status": "proved",
   "theorems": [
    "SciRs.Props.C48_poly",
    "SciRs.Props.C48_real",
    "SciRs.Props.C48_sorted"
   ],
   "note": "poly_dyn expands the product of root factors"
  },
  {
   "property": "C49",
   "status": "partial",
   "theorems": [
    "SciRs.Props.C49_polynomials",
    "SciRs.Props.C49_zpk2tf_partial",
    "SciRs.Props.C49_fewer_zeros_wrong",
    "SciRs.Props.C49_real_output"
   ],
   "note": "The claim is false with fewer zeros than poles (C49_fewer_zeros_wrong gives a witness: short numerators are padded at the wrong end). Proved: the exact polynomials returned, for every order that is large enough, and the full claim when there are as many zeros as poles."
  },
  {
   "property": "C50",
   "status": "proved",
   "theorems": [
    "SciRs.Props.C50_sorts_exist",
    "SciRs.Props.C50_cplxreal",
    "SciRs.Props.C50_panics"
   ],
   "note": "cplxreal_dyn splits roots into conjugate pairs and reals"
  },
  {
   "property": "C51",
   "status": "proved",
   "theorems": [
    "SciRs.Props.C51_sections",
    "SciRs.Props.C51_transfer",
    "SciRs.Props.C51_missing_zeros_at_origin"
   ],
   "note": "zpk2sos_dyn factors the transfer function"
  },
  {
   "property": "C52",
   "status": "proved",
   "theorems": [
    "SciRs.Props.C52_returns_iff",
    "SciRs.Props.C52_no_panic",
    "SciRs.Props.C52_near_real_panics"
   ],
   "note": "Proved for roots that are exactly real or further than the tolerance from the real axis; C52_near_real_panics shows that the code panics for a pair that is closer."
  },
  {
   "property": "C53",
   "status": "proved",
   "theorems": [
    "SciRs.Props.C53_panics_iff",
    "SciRs.Props.C53_rows",
    "SciRs.Props.C53_unchecked_wraps"
   ],
   "note": "Sos::from_scipy_dyn reads rows of six"
  },
  {
   "property": "C54",
   "status": "proved",
   "theorems": [
    "SciRs.Props.C54_returns_iff",
    "SciRs.Props.C54_invalid_panics",
    "SciRs.Props.C54_butter"
   ],
   "note": "iirfilter_dyn accepts exactly the valid specifications"
  },
  {
   "property": "C55",
   "status": "partial",
   "theorems": [
    "SciRs.Props.C55_lowpass_partial",
    "SciRs.Props.C55_cheby2_always_panics",
    "SciRs.Props.C55_cheby1_accepts"
   ],
   "note": "The claim is false of the code: cheby2_dyn panics for every argument (C55_cheby2_always_panics). Proved besides: through iirfilter_dyn, with an unused ripple supplied, the digital Chebyshev II low-pass filter has the right response and attenuation."
  },
  {
   "property": "C56",
   "status": "proved",
   "theorems": [
    "SciRs.Props.C56_response",
    "SciRs.Props.C56_half_power_monotone"
   ],
   "note": "butter_dyn digital low-pass has the Butterworth response"
  },
  {
   "property": "C57",
   "status": "proved",
   "theorems": [
    "SciRs.Props.C57_response"
   ],
   "note": "butter_dyn digital high-pass has the Butterworth response"
  },
  {
   "property": "C58",
   "status": "proved",
   "theorems": [
    "SciRs.Props.C58_stable",
    "SciRs.Props.C58_butter"
   ],
   "note": "designed filters are stable"
  },
  {
   "property": "C59",
   "status": "proved",
   "theorems": [
    "SciRs.Props.C59_zpk_ba",
    "SciRs.Props.C59_zpk_sos",
    "SciRs.Props.C59_butter_sections"
   ],
   "note": "Zpk and Ba for every family and band (Chebyshev II: low-pass and band-pass); Sos for roots that are real or further than cplxreal's tolerance from the real axis, which is derived from the arguments for Butterworth low-pass and high-pass filters."
  },
  {
   "property": "C60",
   "status": "proved",
   "theorems": [
    "SciRs.Props.C60_constants"
   ],
   "note": "Under the explicit condition 100 eps |cos(pi W)| < sin(pi W) sin(pi/(2N)), which keeps the poles further from the real axis than the pairing tolerance."
  },
  {
   "property": "C61",
   "status": "proved",
   "theorems": [
    "SciRs.Props.C61_is_best_fit"
   ],
   "note": "Savitzky-Golay output is the least-squares fit of each window"
  },
  {
   "property": "C62",
   "status": "partial",
   "theorems": [
    "SciRs.Props.C62_analog_partial",
    "SciRs.Props.C62_analog_all_pole_wrong",
    "SciRs.Props.C62_analog_all_pole_odd_panics"
   ],
   "note": "The claim is false of the code for analog filters without zeros: with an even number of poles the sections have the transfer function x^(#p) H(x), with an odd number the call panics (both proved for every such filter). Proved: correctness for equally many zeros and poles, an even number of each. C88 says exactly what is returned."
  },
  {
   "property": "C63",
   "status": "proved",
   "theorems": [
    "SciRs.Props.C63_lowpass_highpass",
    "SciRs.Props.C63_bandpass_bandstop"
   ],
   "note": "cheby1_dyn digital designs have the Chebyshev I response"
  },
  {
   "property": "C64",
   "status": "proved",
   "theorems": [
    "SciRs.Props.C64_bandpass_response"
   ],
   "note": "butter_dyn digital band-pass has the Butterworth response"
  },
  {
   "property": "C65",
   "status": "proved",
   "theorems": [
    "SciRs.Props.C65_bandstop_response"
   ],
   "note": "butter_dyn digital band-stop has the Butterworth response"
  },
  {
   "property": "C66",
   "status": "partial",
   "theorems": [
    "SciRs.Props.C66_low_high_partial",
    "SciRs.Props.C66_band_partial",
    "SciRs.Props.C66_analog_ba_wrong"
   ],
   "note": "Proved for the zero-pole-gain format of all four Butterworth bands. The coefficient format is wrong for analog filters with fewer zeros than poles (C66_analog_ba_wrong), the sections by C62. C88 says exactly what is returned."
  },
  {
   "property": "C67",
   "status": "proved",
   "theorems": [
    "SciRs.Props.C67_i0e_accuracy",
    "SciRs.Props.C67_i0_accuracy",
    "SciRs.Props.C67_spec_sane"
   ],
   "note": "i0 and i0e compute the modified Bessel function"
  },
  {
   "property": "C68",
   "status": "proved",
   "theorems": [
    "SciRs.Props.C68_counts_exact",
    "SciRs.Props.C68_mean",
    "SciRs.Props.C68_variance"
   ],
   "note": "Rounding model of Spec/Rounding.lean: |rnd x - x| <= u|x|+t, monotone, rnd 0 = 0; Spec/BinaryRounding.lean shows binary32 and binary64 without overflow are instances."
  },
  {
   "property": "C69",
   "status": "proved",
   "theorems": [
    "SciRs.Props.C69_variance_nonneg",
    "SciRs.Props.C69_rmssd_nonneg",
    "SciRs.Props.C69_constant",
    "SciRs.Props.C69_constant_false",
    "SciRs.Props.C69_zscore_constant_false",
    "SciRs.Props.C69_autocorr_zero"
   ],
   "note": "Rounding model of Spec/Rounding.lean: |rnd x - x| <= u|x|+t, monotone, rnd 0 = 0; Spec/BinaryRounding.lean shows binary32 and binary64 without overflow are instances. Findings: C69_constant_false, C69_zscore_constant_false."
  },
  {
   "property": "C70",
   "status": "proved",
   "theorems": [
    "SciRs.Props.C70_rms"
   ],
   "note": "Rounding model of Spec/Rounding.lean: |rnd x - x| <= u|x|+t, monotone, rnd 0 = 0; Spec/BinaryRounding.lean shows binary32 and binary64 without overflow are instances."
  },
  {
   "property": "C71",
   "status": "proved",
   "theorems": [
    "SciRs.Props.C71_median_between",
    "SciRs.Props.C71_median_between_f64"
   ],
   "note": "Rounding model of Spec/Rounding.lean: |rnd x - x| <= u|x|+t, monotone, rnd 0 = 0; Spec/BinaryRounding.lean shows binary32 and binary64 without overflow are instances."
  },
  {
   "property": "C72",
   "status": "proved",
   "theorems": [
    "SciRs.Props.C72_error_bounded",
    "SciRs.Props.C72_bibo"
   ],
   "note": "Rounding model of Spec/Rounding.lean: |rnd x - x| <= u|x|+t, monotone, rnd 0 = 0; Spec/BinaryRounding.lean shows binary32 and binary64 without overflow are instances."
  },
  {
   "property": "C73",
   "status": "proved",
   "theorems": [
    "SciRs.Props.C73_panics_iff",
    "SciRs.Props.C73_coeffs_differentiate",
    "SciRs.Props.C73_least_noise"
   ],
   "note": ""
  },
  {
   "property": "C74",
   "status": "proved",
   "theorems": [
    "SciRs.Props.C74_median_odd",
    "SciRs.Props.C74_median_even",
    "SciRs.Props.C74_median_panics_iff",
    "SciRs.Props.C74_median_wraps_false"
   ],
   "note": "The unrepresentable case in unchecked builds is shown wrong by C74_median_wraps_false."
  },
  {
   "property": "C75",
   "status": "proved",
   "theorems": [
    "SciRs.Props.C75_mean",
    "SciRs.Props.C75_mean_panics_iff",
    "SciRs.Props.C75_order_matters_false",
    "SciRs.Props.C75_count_false",
    "SciRs.Props.C75_wraps_false"
   ],
   "note": "Findings: C75_order_matters_false, C75_count_false, C75_wraps_false."
  },
  {
   "property": "C76",
   "status": "proved",
   "theorems": [
    "SciRs.Props.C76_steady_state",
    "SciRs.Props.C76_butter"
   ],
   "note": "Exact arithmetic."
  },
  {
   "property": "C77",
   "status": "proved",
   "theorems": [
    "SciRs.Props.C77_zero_phase",
    "SciRs.Props.C77_butter"
   ],
   "note": "Exact arithmetic."
  },
  {
   "property": "C78",
   "status": "partial",
   "theorems": [
    "SciRs.Props.C78_total",
    "SciRs.Props.C78_value",
    "SciRs.Props.C78_nonneg_times",
    "SciRs.Props.C78_duty_zero",
    "SciRs.Props.C78_exact_wave",
    "SciRs.Props.C78_duty_one_negative_false"
   ],
   "note": "The claim for duty 1 is false in f64 for negative times above -2^-52 (C78_duty_one_negative_false); everything else is proved. The remainder operation is exact, as IEEE 754 prescribes."
  },
  {
   "property": "C79",
   "status": "partial",
   "theorems": [
    "SciRs.Props.C79_interpolates",
    "SciRs.Props.C79_linear",
    "SciRs.Props.C79_roundtrip_loss",
    "SciRs.Props.C79_roundtrip_partial",
    "SciRs.Props.C79_roundtrip_false"
   ],
   "note": "The round trip is false for signals with an alternating component (C79_roundtrip_false); the exact loss is proved (C79_roundtrip_loss)."
  },
  {
   "property": "C80",
   "status": "proved",
   "theorems": [
    "SciRs.Props.C80_i0e",
    "SciRs.Props.C80_i0",
    "SciRs.Props.C80_precise",
    "SciRs.Props.C80_f64"
   ],
   "note": "Rounding to nearest with gradual underflow; overflow is excluded; the exponential is a parameter with a given relative error."
  },
  {
   "property": "C81",
   "status": "proved",
   "theorems": [
    "SciRs.Props.C81_nonfinite_poisons",
    "SciRs.Props.C81_nonfinite_poisons_stream",
    "SciRs.Props.C81_nan",
    "SciRs.Props.C81_before",
    "SciRs.Props.C81_finite_value",
    "SciRs.Props.C81_finite_accurate",
    "SciRs.Props.C81_no_overflow",
    "SciRs.Props.C81_overflow_example"
   ],
   "note": "IEEE 754 data with overflow, infinities and NaN (NaN payloads are not modelled)."
  },
  {
   "property": "C82",
   "status": "partial",
   "theorems": [
    "SciRs.Props.C82_nan",
    "SciRs.Props.C82_rmssd_nan",
    "SciRs.Props.C82_infinite",
    "SciRs.Props.C82_finite_value",
    "SciRs.Props.C82_mean_accurate",
    "SciRs.Props.C82_mean_no_overflow",
    "SciRs.Props.C82_median_total",
    "SciRs.Props.C82_median",
    "SciRs.Props.C82_mean_overflow_false",
    "SciRs.Props.C82_zscore_overflow_false",
    "SciRs.Props.C82_median_overflow_false",
    "SciRs.Props.C82_median_infinities"
   ],
   "note": "All parts are proved except the last, which the code violates: C82_mean_overflow_false, C82_median_overflow_false and C82_zscore_overflow_false."
  },
  {
   "property": "C83",
   "status": "partial",
   "theorems": [
    "SciRs.Props.C83_i0e",
    "SciRs.Props.C83_nan",
    "SciRs.Props.C83_i0e_infinity",
    "SciRs.Props.C83_i0_infinity_false",
    "SciRs.Props.C83_i0",
    "SciRs.Props.C83_wide",
    "SciRs.Props.C83_i0_overflow_false"
   ],
   "note": "All parts are proved except the last sentence, which the code violates: C83_i0_infinity_false and C83_i0_overflow_false."
  },
  {
   "property": "C84",
   "status": "proved",
   "theorems": [
    "SciRs.Props.C84_returns_iff",
    "SciRs.Props.C84_format",
    "SciRs.Props.C84_sound",
    "SciRs.Props.C84_butter_iff",
    "SciRs.Props.C84_low_edge_panics",
    "SciRs.Props.C84_butter_band",
    "SciRs.Props.C84_doc_bandpass"
   ],
   "note": "Exact criterion for every family and band (C84_returns_iff), in terms of the request for Butterworth low-pass and high-pass (C84_butter_iff), sufficient for band filters (C84_butter_band); correctness of what is returned (C84_sound); witness of a panic in f32 (C84_low_edge_panics)."
  },
  {
   "property": "C85",
   "status": "proved",
   "theorems": [
    "SciRs.Props.C85_response",
    "SciRs.Props.C85_filtering",
    "SciRs.Props.C85_request",
    "SciRs.Props.C85_dc"
   ],
   "note": "C85_filtering for every family in terms of the zero-pole-gain response; C85_request and C85_dc in terms of the request for Butterworth and Chebyshev I."
  },
  {
   "property": "C86",
   "status": "proved",
   "theorems": [
    "SciRs.Props.C86_exact",
    "SciRs.Props.C86_lawful",
    "SciRs.Props.C86_returns_iff",
    "SciRs.Props.C86_conjugate_pairs",
    "SciRs.Props.C86_sections",
    "SciRs.Props.C86_first_order"
   ],
   "note": "For every arithmetic obeying the laws of Spec/ArithLaws.lean; C86_lawful shows that f32, f64 and exact arithmetic do, C86_exact that in exact arithmetic the model is the one of C43-C59."
  },
  {
   "property": "C87",
   "status": "partial",
   "theorems": [
    "SciRs.Props.C87_coefficients",
    "SciRs.Props.C87_conjugate_coefficients",
    "SciRs.Props.C87_zeros",
    "SciRs.Props.C87_numerators",
    "SciRs.Props.C87_stable_partial",
    "SciRs.Props.C87_low_edge_false"
   ],
   "note": "Coefficients, zeros and numerators are proved for all designs; stability only with a margin between the computed poles and the unit circle (C87_stable_partial), because without a margin it is false (C87_low_edge_false). A condition on the request alone that guarantees the margin is C90 for Butterworth and C97 for Chebyshev I, low-pass and high-pass, C101 for Butterworth band-pass and band-stop, C129 for Chebyshev II low-pass and C131 for Chebyshev I band-pass and band-stop; missing for the other Chebyshev II filters."
  },
  {
   "property": "C88",
   "status": "proved",
   "theorems": [
    "SciRs.Props.C88_analog_ba",
    "SciRs.Props.C88_analog_sos",
    "SciRs.Props.C88_butter_highpass",
    "SciRs.Props.C88_sound",
    "SciRs.Props.C88_correct",
    "SciRs.Props.C88_returns",
    "SciRs.Props.C88_no_real_zero_panics",
    "SciRs.Props.C88_equal_counts_panics"
   ],
   "note": "C88_equal_counts_panics gives the filter with equal counts that cannot be converted. Completes C62 and C66, whose claims are false of the code."
  },
  {
   "property": "C89",
   "status": "proved",
   "theorems": [
    "SciRs.Props.C89_nearest",
    "SciRs.Props.C89_order",
    "SciRs.Props.C89_minimal"
   ],
   "note": "Added because edits of the selection rule (farthest instead of nearest, smallest modulus instead of closest to the circle) left every earlier theorem intact."
  },
  {
   "property": "C90",
   "status": "proved",
   "theorems": [
    "SciRs.Props.C90_poles",
    "SciRs.Props.C90_sections",
    "SciRs.Props.C90_library",
    "SciRs.Props.C90_f64",
    "SciRs.Props.C90_f32"
   ],
   "note": "No hypothesis on computed values: only on the request, the precision and the accuracy of the library (Spec/LibmAccuracy.lean; C90_library shows a correctly rounding library meets it). Overflow is excluded."
  },
  {
   "property": "C91",
   "status": "proved",
   "theorems": [
    "SciRs.Props.C91_gain",
    "SciRs.Props.C91_zpk_response",
    "SciRs.Props.C91_sections_response",
    "SciRs.Props.C91_lowpass",
    "SciRs.Props.C91_highpass",
    "SciRs.Props.C91_example"
   ],
   "note": "Hypotheses only on the request, the precision and the accuracy of the library. Overflow is excluded (the product of the factors 4-p overflows f64 from order 512 on)."
  },
  {
   "property": "C92",
   "status": "proved",
   "theorems": [
    "SciRs.Props.C92_designs",
    "SciRs.Props.C92_rounded_design",
    "SciRs.Props.C92_example",
    "SciRs.Props.C92_energy",
    "SciRs.Props.C92_distance",
    "SciRs.Props.C92_peak"
   ],
   "note": "Filtering itself in exact arithmetic; the last claim is about designs computed in floating point."
  },
  {
   "property": "C93",
   "status": "proved",
   "theorems": [
    "SciRs.Props.C93_stdev",
    "SciRs.Props.C93_lag_diff",
    "SciRs.Props.C93_rmssd",
    "SciRs.Props.C93_zscore",
    "SciRs.Props.C93_autocorr",
    "SciRs.Props.C93_example",
    "SciRs.Props.C93_median",
    "SciRs.Props.C93_mad",
    "SciRs.Props.C93_mod_zscore"
   ],
   "note": "Without overflow, infinities and NaN (see C82). The constant of mod_zscore is the one of the type."
  },
  {
   "property": "C94",
   "status": "proved",
   "theorems": [
    "SciRs.Props.C94_lfilter_zi",
    "SciRs.Props.C94_sosfilt_zi",
    "SciRs.Props.C94_filtfilt",
    "SciRs.Props.C94_constant"
   ],
   "note": "Without overflow, infinities and NaN. The constants exist for every list of stable sections; they are not computed."
  },
  {
   "property": "C95",
   "status": "proved",
   "theorems": [
    "SciRs.Props.C95_filter",
    "SciRs.Props.C95_polynomial",
    "SciRs.Props.C95_constant"
   ],
   "note": "Without overflow, infinities and NaN. The accuracy of the external solver enters as the size of the residual of the moment equations."
  },
  {
   "property": "C96",
   "status": "proved",
   "theorems": [
    "SciRs.Props.C96_full",
    "SciRs.Props.C96_convolve",
    "SciRs.Props.C96_correlate",
    "SciRs.Props.C96_resample"
   ],
   "note": "Without overflow, infinities and NaN. The accuracy of the external transforms is a hypothesis, met by transforms that round their exact result (transforms_rounded)."
  },
  {
   "property": "C97",
   "status": "proved",
   "theorems": [
    "SciRs.Props.C97_poles",
    "SciRs.Props.C97_sections",
    "SciRs.Props.C97_library",
    "SciRs.Props.C97_f64"
   ],
   "note": "Without overflow, infinities and NaN. The accuracy of the mathematical library is a hypothesis, met by the library that rounds its exact results (C97_library)."
  },
  {
   "property": "C98",
   "status": "proved",
   "theorems": [
    "SciRs.Props.C98_gain",
    "SciRs.Props.C98_zpk_response",
    "SciRs.Props.C98_sections_response",
    "SciRs.Props.C98_lowpass",
    "SciRs.Props.C98_highpass",
    "SciRs.Props.C98_example"
   ],
   "note": "Without overflow, infinities and NaN. The accuracy of the mathematical library is a hypothesis, met by the library that rounds its exact results (C97_library)."
  },
  {
   "property": "C99",
   "status": "proved",
   "theorems": [
    "SciRs.Props.C99_filtfilt_nan",
    "SciRs.Props.C99_filtfilt_nonfinite",
    "SciRs.Props.C99_savgol_local",
    "SciRs.Props.C99_savgol_nan",
    "SciRs.Props.C99_savgol_nonfinite"
   ],
   "note": "The least-squares solver is a parameter; the NaN theorem assumes that it returns as many numbers as asked for."
  },
  {
   "property": "C100",
   "status": "proved",
   "theorems": [
    "SciRs.Props.C100_accepts",
    "SciRs.Props.C100_nan_edge",
    "SciRs.Props.C100_nan_accepted",
    "SciRs.Props.C100_infinite_edge",
    "SciRs.Props.C100_zero_rate",
    "SciRs.Props.C100_ripple"
   ],
   "note": "Zero-pole-gain output of digital filters. What the mathematical library returns for NaN, zero and infinity is a hypothesis."
  },
  {
   "property": "C101",
   "status": "proved",
   "theorems": [
    "SciRs.Props.C101_poles",
    "SciRs.Props.C101_sections",
    "SciRs.Props.C101_library",
    "SciRs.Props.C101_f64",
    "SciRs.Props.C101_f64_even"
   ],
   "note": "No hypothesis on computed values: only on the request (Spec/BandRequest.lean), the precision and the accuracy of the library (Spec/LibmAccuracy.lean, Spec/LibmPolar.lean; C101_library shows that a correctly rounding library meets the latter). For odd orders the edges must not be too close to the proportion at which two poles coincide. Overflow is excluded."
  },
  {
   "property": "C102",
   "status": "proved",
   "theorems": [
    "SciRs.Props.C102_no_overflow",
    "SciRs.Props.C102_high_order_wrong",
    "SciRs.Props.C102_f64",
    "SciRs.Props.C102_f32",
    "SciRs.Props.C102_f32_order_33_wrong",
    "SciRs.Props.C102_f64_order_257_wrong"
   ],
   "note": "Spec/IeeeLib.lean says what it means that an IEEE datum is a given real number and that the IEEE library agrees with the one of C90/C91; libOf_agrees constructs such a library. Between the two thresholds nothing is claimed."
  },
  {
   "property": "C103",
   "status": "proved",
   "theorems": [
    "SciRs.Props.C103_bandstop_wrong",
    "SciRs.Props.C103_bandstop_silent",
    "SciRs.Props.C103_highpass_wrong"
   ],
   "note": "Negative results: the code is wrong for these requests. Spec.ZerosFinite excludes the edges for which a real zero of the analog filter equals 4, where the bilinear transform divides by zero."
  },
  {
   "property": "C104",
   "status": "proved",
   "theorems": [
    "SciRs.Props.C104_arithmetics",
    "SciRs.Props.C104_zpk",
    "SciRs.Props.C104_ba",
    "SciRs.Props.C104_sections",
    "SciRs.Props.C104_sections_simple",
    "SciRs.Props.C104_binary"
   ],
   "note": "C104_sections assumes simple real poles for band-pass and band-stop filters; C104_sections_simple shows that this is no condition for even orders. Complements C87 and C90, C97, C101, which give explicit precisions for Butterworth and Chebyshev I designs."
  },
  {
   "property": "C105",
   "status": "proved",
   "theorems": [
    "SciRs.Props.C105_sorts_exist",
    "SciRs.Props.C105_nan_root_panics",
    "SciRs.Props.C105_nan_edge_panics",
    "SciRs.Props.C105_ripple_panics",
    "SciRs.Props.C105_first_order_nan",
    "SciRs.Props.C105_lost_gain_sections",
    "SciRs.Props.C105_lost_gain_coefficients",
    "SciRs.Props.C105_f32_order_33_wrong",
    "SciRs.Props.C105_conversion",
    "SciRs.Props.C105_butterworth",
    "SciRs.Props.C105_f64_lowpass",
    "SciRs.Props.C105_f64_highpass"
   ],
   "note": "C105_butterworth states the finite case for every format; C105_f64_lowpass and C105_f64_highpass put it together with C91. The sorts are only assumed to panic when an element incomparable with all others is among two or more, and to permute by the results of the comparisons (SortOf)."
  },
  {
   "property": "C106",
   "status": "proved",
   "theorems": [
    "SciRs.Props.C106_median_breakdown",
    "SciRs.Props.C106_mad_breakdown",
    "SciRs.Props.C106_breakdown_tight",
    "SciRs.Props.C106_median_mono",
    "SciRs.Props.C106_median_lipschitz",
    "SciRs.Props.C106_mad_lipschitz",
    "SciRs.Props.C106_mean_not_robust"
   ],
   "note": "Exact arithmetic over any linearly ordered field; C71 and C93 bound the rounding errors."
  },
  {
   "property": "C107",
   "status": "proved",
   "theorems": [
    "SciRs.Props.C107_assoc",
    "SciRs.Props.C107_linear",
    "SciRs.Props.C107_impulse",
    "SciRs.Props.C107_impulse_same",
    "SciRs.Props.C107_correlate_swap",
    "SciRs.Props.C107_sum",
    "SciRs.Props.C107_young",
    "SciRs.Props.C107_sosfilt_is_convolution",
    "SciRs.Props.C107_autocorr_is_correlation",
    "SciRs.Props.C107_savgol_is_convolution"
   ],
   "note": "Exact arithmetic; C96 bounds the rounding errors. The transforms of rustfft are assumed exact."
  },
  {
   "property": "C108",
   "status": "proved",
   "theorems": [
    "SciRs.Props.C108_zpk",
    "SciRs.Props.C108_stable",
    "SciRs.Props.C108_ba",
    "SciRs.Props.C108_sections",
    "SciRs.Props.C108_binary"
   ],
   "note": "Existence of an accuracy and a range, without explicit values: C97, C98, C102 and C105 give explicit values for Butterworth low-pass and high-pass filters. Chebyshev II high-pass and band-stop filters excluded, as in C104 (the code loses their gain and pairs of zeros, C103)."
  },
  {
   "property": "C109",
   "status": "proved",
   "theorems": [
    "SciRs.Props.C109_lp2lp",
    "SciRs.Props.C109_lp2hp",
    "SciRs.Props.C109_lp2bp",
    "SciRs.Props.C109_lp2bs",
    "SciRs.Props.C109_bilinear",
    "SciRs.Props.C109_panics"
   ],
   "note": "The exact step is the code in exact arithmetic; where that differs from the intended transformation (lp2hp and lp2bs with zeros) see C40, C42 and C103."
  },
  {
   "property": "C110",
   "status": "proved",
   "theorems": [
    "SciRs.Props.C110_mean_least_squares",
    "SciRs.Props.C110_median_least_distance",
    "SciRs.Props.C110_joined",
    "SciRs.Props.C110_bounds",
    "SciRs.Props.C110_mean_median",
    "SciRs.Props.C110_mad_stdev",
    "SciRs.Props.C110_rms",
    "SciRs.Props.C110_zscore_count",
    "SciRs.Props.C110_zscore_max",
    "SciRs.Props.C110_zscore_max_attained",
    "SciRs.Props.C110_mod_zscore_half",
    "SciRs.Props.C110_power_spectrum",
    "SciRs.Props.C110_autocorr_sum",
    "SciRs.Props.C110_autocorr_reverse",
    "SciRs.Props.C110_rmssd_autocorr"
   ],
   "note": "Exact arithmetic; C68-C71 and C93 bound the rounding errors of the same functions."
  },
  {
   "property": "C111",
   "status": "proved",
   "theorems": [
    "SciRs.Props.C111_response",
    "SciRs.Props.C111_output",
    "SciRs.Props.C111_units",
    "SciRs.Props.C111_default_rate"
   ],
   "note": "Exact arithmetic. Sections: whenever both requests return sections (C84 says when)."
  },
  {
   "property": "C112",
   "status": "proved",
   "theorems": [
    "SciRs.Props.C112_energy",
    "SciRs.Props.C112_mix_energy",
    "SciRs.Props.C112_power",
    "SciRs.Props.C112_phase",
    "SciRs.Props.C112_split",
    "SciRs.Props.C112_twice",
    "SciRs.Props.C112_zero_phase"
   ],
   "note": "Exact arithmetic. Sections: whenever both requests return sections (C84 says when)."
  },
  {
   "property": "C113",
   "status": "proved",
   "theorems": [
    "SciRs.Props.C113_symmetric",
    "SciRs.Props.C113_next_order",
    "SciRs.Props.C113_interval",
    "SciRs.Props.C113_noise",
    "SciRs.Props.C113_moving_average",
    "SciRs.Props.C113_interpolation",
    "SciRs.Props.C113_reverse",
    "SciRs.Props.C113_linear",
    "SciRs.Props.C113_mean_of_window"
   ],
   "note": "Exact arithmetic; the SVD solver is a parameter that returns the least-squares solution of least norm, as for C61."
  },
  {
   "property": "C114",
   "status": "proved",
   "theorems": [
    "SciRs.Props.C114_powers_of_two",
    "SciRs.Props.C114_no_underflow",
    "SciRs.Props.C114_minus_one",
    "SciRs.Props.C114_mean",
    "SciRs.Props.C114_variance",
    "SciRs.Props.C114_stdev",
    "SciRs.Props.C114_lag_diff",
    "SciRs.Props.C114_autocorr",
    "SciRs.Props.C114_zscore",
    "SciRs.Props.C114_rms",
    "SciRs.Props.C114_rmssd",
    "SciRs.Props.C114_median",
    "SciRs.Props.C114_mad",
    "SciRs.Props.C114_mod_zscore",
    "SciRs.Props.C114_sosfilt",
    "SciRs.Props.C114_sosfiltfilt",
    "SciRs.Props.C114_savgol",
    "SciRs.Props.C114_ieee_mean",
    "SciRs.Props.C114_ieee_variance",
    "SciRs.Props.C114_ieee_stdev",
    "SciRs.Props.C114_ieee_zscore",
    "SciRs.Props.C114_ieee_lag_diff",
    "SciRs.Props.C114_ieee_autocorr",
    "SciRs.Props.C114_ieee_sosfilt",
    "SciRs.Props.C114_ieee_sosfiltfilt",
    "SciRs.Props.C114_ieee_savgol",
    "SciRs.Props.C114_formats"
   ],
   "note": "Two models of floating point: rounded arithmetic with unbounded exponents for powers of two, IEEE arithmetic with infinities and NaN for the change of sign. The medians are in the first model only (their behaviour on NaN is C82). Payloads of NaN are not modelled."
  },
  {
   "property": "C115",
   "status": "proved",
   "theorems": [
    "SciRs.Props.C115_comb_symmetric",
    "SciRs.Props.C115_pascal",
    "SciRs.Props.C115_perm_comb",
    "SciRs.Props.C115_perm_self",
    "SciRs.Props.C115_row",
    "SciRs.Props.C115_comb_rep",
    "SciRs.Props.C115_factorial_mono",
    "SciRs.Props.C115_factorial2",
    "SciRs.Props.C115_factorialk",
    "SciRs.Props.C115_stirling",
    "SciRs.Props.C115_power"
   ],
   "note": "Follows from the exact panic sets of C10-C16."
  },
  {
   "property": "C116",
   "status": "proved",
   "theorems": [
    "SciRs.Props.C116_pass_band",
    "SciRs.Props.C116_order",
    "SciRs.Props.C116_ripple",
    "SciRs.Props.C116_chebyshev_steeper",
    "SciRs.Props.C116_cutoff",
    "SciRs.Props.C116_wider"
   ],
   "note": "For the real-number instance of the design code (C85), sorting parameters arbitrary."
  },
  {
   "property": "C117",
   "status": "proved",
   "theorems": [
    "SciRs.Props.C117_design",
    "SciRs.Props.C117_states",
    "SciRs.Props.C117_past",
    "SciRs.Props.C117_filtfilt_local",
    "SciRs.Props.C117_filtfilt_piece",
    "SciRs.Props.C117_float_piece",
    "SciRs.Props.C117_float_states"
   ],
   "note": "Exact arithmetic, and floating point through C72 and C94."
  },
  {
   "property": "C118",
   "status": "proved",
   "theorems": [
    "SciRs.Props.C118_kernel",
    "SciRs.Props.C118_reverse",
    "SciRs.Props.C118_peak",
    "SciRs.Props.C118_reverse_false",
    "SciRs.Props.C118_float"
   ],
   "note": "The end effects are bounded, not zero: C118_reverse_false shows a signal for which reversal and filtering do not commute exactly."
  },
  {
   "property": "C119",
   "status": "proved",
   "theorems": [
    "SciRs.Props.C119_odd_ext_builds",
    "SciRs.Props.C119_odd_ext_safe",
    "SciRs.Props.C119_one_byte",
    "SciRs.Props.C119_one_byte_ub",
    "SciRs.Props.C119_pad_builds",
    "SciRs.Props.C119_pad_safe",
    "SciRs.Props.C119_sosfiltfilt_builds"
   ],
   "note": "Unconditional safety fails for one-byte elements: C119_one_byte characterises the failing calls and C119_one_byte_ub shows them for every pointer width."
  },
  {
   "property": "C120",
   "status": "proved",
   "theorems": [
    "SciRs.Props.C120_impulse",
    "SciRs.Props.C120_inverse",
    "SciRs.Props.C120_kernel",
    "SciRs.Props.C120_kernel_inverse",
    "SciRs.Props.C120_determines",
    "SciRs.Props.C120_magnitude",
    "SciRs.Props.C120_butter"
   ],
   "note": ""
  },
  {
   "property": "C121",
   "status": "proved",
   "theorems": [
    "SciRs.Props.C121_peak",
    "SciRs.Props.C121_peak_sharp",
    "SciRs.Props.C121_bibo_iff",
    "SciRs.Props.C121_stable_iff",
    "SciRs.Props.C121_decay_iff",
    "SciRs.Props.C121_cancelled_false"
   ],
   "note": ""
  },
  {
   "property": "C122",
   "status": "proved",
   "theorems": [
    "SciRs.Props.C122_poly",
    "SciRs.Props.C122_zpk2tf",
    "SciRs.Props.C122_binomial",
    "SciRs.Props.C122_denominator",
    "SciRs.Props.C122_stable",
    "SciRs.Props.C122_stable_false",
    "SciRs.Props.C122_design"
   ],
   "note": "C122_stable_false shows that the margin in C122_stable is needed."
  },
  {
   "property": "C123",
   "status": "proved",
   "theorems": [
    "SciRs.Props.C123_gain",
    "SciRs.Props.C123_zpk_response",
    "SciRs.Props.C123_sections_response",
    "SciRs.Props.C123_bandpass",
    "SciRs.Props.C123_example"
   ],
   "note": "Band-stop designs are not covered: their zeros are rounded, so there is no relative bound at the notch."
  },
  {
   "property": "C124",
   "status": "proved",
   "theorems": [
    "SciRs.Props.C124_butter",
    "SciRs.Props.C124_example",
    "SciRs.Props.C124_level",
    "SciRs.Props.C124_error"
   ],
   "note": "Overflow is excluded by the arithmetic model (see C102 and C108 for when it does not occur in f64)."
  },
  {
   "property": "C125",
   "status": "proved",
   "theorems": [
    "SciRs.Props.C125_panics",
    "SciRs.Props.C125_release",
    "SciRs.Props.C125_finite",
    "SciRs.Props.C125_f64"
   ],
   "note": "The remainder operation is exact on finite numbers and NaN for an infinite dividend, as IEEE 754 prescribes."
  },
  {
   "property": "C126",
   "status": "proved",
   "theorems": [
    "SciRs.Props.C126_formula",
    "SciRs.Props.C126_shift",
    "SciRs.Props.C126_reverse",
    "SciRs.Props.C126_power",
    "SciRs.Props.C126_close",
    "SciRs.Props.C126_two_steps"
   ],
   "note": "In exact arithmetic; see C96 for the rounding error. That floor(N/2) = floor(m/2) has to be excluded in the last part is C79_roundtrip_false."
  },
  {
   "property": "C127",
   "status": "proved",
   "theorems": [
    "SciRs.Props.C127_gain",
    "SciRs.Props.C127_zpk_response",
    "SciRs.Props.C127_sections_response",
    "SciRs.Props.C127_bandstop",
    "SciRs.Props.C127_example"
   ],
   "note": "The error is relative to full scale: rounding moves the zeros off the unit circle, so the response at the centre of the stop band is small but not zero and no relative bound holds there."
  },
  {
   "property": "C128",
   "status": "proved",
   "theorems": [
    "SciRs.Props.C128_band_energy",
    "SciRs.Props.C128_example"
   ],
   "note": "The filtering itself is in exact arithmetic; only the design is rounded. The rounding errors of filtering are the subject of C124."
  },
  {
   "property": "C129",
   "status": "proved",
   "theorems": [
    "SciRs.Props.C129_roots",
    "SciRs.Props.C129_sections",
    "SciRs.Props.C129_f64"
   ],
   "note": "Stated through iirfilter_dyn because cheby2_dyn always panics (C55). Low-pass only: the code maps the zeros of the other bands to wrong places (see the findings). The error of the gain is the subject of C130."
  },
  {
   "property": "C130",
   "status": "proved",
   "theorems": [
    "SciRs.Props.C130_response",
    "SciRs.Props.C130_lowpass",
    "SciRs.Props.C130_example"
   ],
   "note": "Zero-pole-gain format. The error is relative, so it holds at a distance from the zeros of the filter; the zero at -1 of odd orders is exact and needs no distance."
  },
  {
   "property": "C131",
   "status": "proved",
   "theorems": [
    "SciRs.Props.C131_poles",
    "SciRs.Props.C131_sections",
    "SciRs.Props.C131_example"
   ],
   "note": "For odd orders the roots for the real prototype pole must not coincide (measured by kappa). The error of the gain is not part of the claim."
  },
  {
   "property": "C132",
   "status": "proved",
   "theorems": [
    "SciRs.Props.C132_energy",
    "SciRs.Props.C132_filtering",
    "SciRs.Props.C132_example"
   ],
   "note": "The first claim is about filtering in exact arithmetic with rounded sections, the second about filtering in rounded arithmetic. Overflow is excluded by the arithmetic model (see C102 and C108)."
  },
  {
   "property": "C133",
   "status": "proved",
   "theorems": [
    "SciRs.Props.C133_gain",
    "SciRs.Props.C133_zpk_response",
    "SciRs.Props.C133_sections_response",
    "SciRs.Props.C133_bandpass",
    "SciRs.Props.C133_example"
   ],
   "note": "Overflow is excluded by the arithmetic model (see C102 and C108)."
  },
  {
   "property": "C134",
   "status": "proved",
   "theorems": [
    "SciRs.Props.C134_energy",
    "SciRs.Props.C134_cheby1",
    "SciRs.Props.C134_butter",
    "SciRs.Props.C134_example",
    "SciRs.Props.C134_cheby1_example"
   ],
   "note": "Overflow is excluded by the arithmetic model (see C102 and C108)."
  },
  {
   "property": "C135",
   "status": "proved",
   "theorems": [
    "SciRs.Props.C135_gain",
    "SciRs.Props.C135_zpk_response",
    "SciRs.Props.C135_sections_response",
    "SciRs.Props.C135_bandstop",
    "SciRs.Props.C135_example"
   ],
   "note": "Overflow is excluded by the arithmetic model (see C102 and C108)."
  },
  {
   "property": "C136",
   "status": "proved",
   "theorems": [
    "SciRs.Props.C136_energy",
    "SciRs.Props.C136_cheby1",
    "SciRs.Props.C136_butter",
    "SciRs.Props.C136_example",
    "SciRs.Props.C136_cheby1_example"
   ],
   "note": "Overflow is excluded by the arithmetic model (see C102 and C108)."
  },
  {
   "property": "C137",
   "status": "proved",
   "theorems": [
    "SciRs.Props.C137_impulse",
    "SciRs.Props.C137_kernel",
    "SciRs.Props.C137_filtfilt",
    "SciRs.Props.C137_computed",
    "SciRs.Props.C137_butter",
    "SciRs.Props.C137_cheby1",
    "SciRs.Props.C137_example",
    "SciRs.Props.C137_butter_edge",
    "SciRs.Props.C137_cheby1_edge",
    "SciRs.Props.C137_edge_example"
   ],
   "note": "The constant K and how fine the format has to be for the filtering are not explicit; the error E of the design is."
  }
 ]
}
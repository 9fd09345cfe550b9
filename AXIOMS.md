# Axioms each manifest theorem depends on

* `SciRs.Props.C01_empty`: propext, Quot.sound
* `SciRs.Props.C01_median`: propext, Classical.choice, Quot.sound
* `SciRs.Props.C01_total`: propext, Classical.choice, Quot.sound
* `SciRs.Props.C02_nan_order_dependent`: propext, Classical.choice, Quot.sound
* `SciRs.Props.C02_perm`: propext, Classical.choice, Quot.sound
* `SciRs.Props.C03_affine`: propext, Classical.choice, Quot.sound
* `SciRs.Props.C03_count`: propext, Quot.sound
* `SciRs.Props.C03_empty`: propext, Classical.choice, Quot.sound
* `SciRs.Props.C03_mean`: propext, Classical.choice, Quot.sound
* `SciRs.Props.C03_stdev`: propext, Classical.choice, Quot.sound
* `SciRs.Props.C03_variance`: propext, Classical.choice, Quot.sound
* `SciRs.Props.C03_variance_alt`: propext, Classical.choice, Quot.sound
* `SciRs.Props.C03_variance_nonneg`: propext, Classical.choice, Quot.sound
* `SciRs.Props.C04_affine`: propext, Classical.choice, Quot.sound
* `SciRs.Props.C04_bounded`: propext, Classical.choice, Quot.sound
* `SciRs.Props.C04_lag_zero`: propext, Classical.choice, Quot.sound
* `SciRs.Props.C04_large_lag`: propext, Classical.choice, Quot.sound
* `SciRs.Props.C04_value`: propext, Classical.choice, Quot.sound
* `SciRs.Props.C05_exact_partial`: propext, Classical.choice, Quot.sound
* `SciRs.Props.C05_panics_iff`: propext, Classical.choice, Quot.sound
* `SciRs.Props.C05_value`: propext, Classical.choice, Quot.sound
* `SciRs.Props.C05_wrong`: propext, Classical.choice, Quot.sound
* `SciRs.Props.C06_rms`: propext, Classical.choice, Quot.sound
* `SciRs.Props.C07_entry`: propext, Classical.choice, Quot.sound
* `SciRs.Props.C07_length`: propext, Classical.choice, Quot.sound
* `SciRs.Props.C07_reconstruct`: propext, Classical.choice, Quot.sound
* `SciRs.Props.C07_rmssd`: propext, Classical.choice, Quot.sound
* `SciRs.Props.C07_shift`: propext, Classical.choice, Quot.sound
* `SciRs.Props.C08_affine`: propext, Classical.choice, Quot.sound
* `SciRs.Props.C08_entry`: propext, Classical.choice, Quot.sound
* `SciRs.Props.C08_standard`: propext, Classical.choice, Quot.sound
* `SciRs.Props.C09_mad`: propext, Classical.choice, Quot.sound
* `SciRs.Props.C09_mad_affine`: propext, Classical.choice, Quot.sound
* `SciRs.Props.C09_mad_nonneg`: propext, Classical.choice, Quot.sound
* `SciRs.Props.C09_mod_zscore`: propext, Classical.choice, Quot.sound
* `SciRs.Props.C09_mod_zscore_affine`: propext, Classical.choice, Quot.sound
* `SciRs.Props.C100_accepts`: propext, Classical.choice, Quot.sound
* `SciRs.Props.C100_infinite_edge`: propext, Classical.choice, Quot.sound
* `SciRs.Props.C100_nan_accepted`: propext, Classical.choice, Quot.sound
* `SciRs.Props.C100_nan_edge`: propext, Classical.choice, Quot.sound
* `SciRs.Props.C100_ripple`: propext, Classical.choice, Quot.sound
* `SciRs.Props.C100_zero_rate`: propext, Classical.choice, Quot.sound
* `SciRs.Props.C101_f64`: propext, Classical.choice, Quot.sound
* `SciRs.Props.C101_f64_even`: propext, Classical.choice, Quot.sound
* `SciRs.Props.C101_library`: propext, Classical.choice, Quot.sound
* `SciRs.Props.C101_poles`: propext, Classical.choice, Quot.sound
* `SciRs.Props.C101_sections`: propext, Classical.choice, Quot.sound
* `SciRs.Props.C102_f32`: propext, Classical.choice, Quot.sound
* `SciRs.Props.C102_f32_order_33_wrong`: propext, Classical.choice, Quot.sound
* `SciRs.Props.C102_f64`: propext, Classical.choice, Quot.sound
* `SciRs.Props.C102_f64_order_257_wrong`: propext, Classical.choice, Quot.sound
* `SciRs.Props.C102_high_order_wrong`: propext, Classical.choice, Quot.sound
* `SciRs.Props.C102_no_overflow`: propext, Classical.choice, Quot.sound
* `SciRs.Props.C103_bandstop_silent`: propext, Classical.choice, Quot.sound
* `SciRs.Props.C103_bandstop_wrong`: propext, Classical.choice, Quot.sound
* `SciRs.Props.C103_highpass_wrong`: propext, Classical.choice, Quot.sound
* `SciRs.Props.C104_arithmetics`: propext, Classical.choice, Quot.sound
* `SciRs.Props.C104_ba`: propext, Classical.choice, Quot.sound
* `SciRs.Props.C104_binary`: propext, Classical.choice, Quot.sound
* `SciRs.Props.C104_sections`: propext, Classical.choice, Quot.sound
* `SciRs.Props.C104_sections_simple`: propext, Classical.choice, Quot.sound
* `SciRs.Props.C104_zpk`: propext, Classical.choice, Quot.sound
* `SciRs.Props.C105_butterworth`: propext, Classical.choice, Quot.sound
* `SciRs.Props.C105_conversion`: propext, Classical.choice, Quot.sound
* `SciRs.Props.C105_f32_order_33_wrong`: propext, Classical.choice, Quot.sound
* `SciRs.Props.C105_f64_highpass`: propext, Classical.choice, Quot.sound
* `SciRs.Props.C105_f64_lowpass`: propext, Classical.choice, Quot.sound
* `SciRs.Props.C105_first_order_nan`: propext, Classical.choice, Quot.sound
* `SciRs.Props.C105_lost_gain_coefficients`: propext, Classical.choice, Quot.sound
* `SciRs.Props.C105_lost_gain_sections`: propext, Classical.choice, Quot.sound
* `SciRs.Props.C105_nan_edge_panics`: propext, Classical.choice, Quot.sound
* `SciRs.Props.C105_nan_root_panics`: propext, Classical.choice, Quot.sound
* `SciRs.Props.C105_ripple_panics`: propext, Classical.choice, Quot.sound
* `SciRs.Props.C105_sorts_exist`: propext, Classical.choice, Quot.sound
* `SciRs.Props.C106_breakdown_tight`: propext, Classical.choice, Quot.sound
* `SciRs.Props.C106_mad_breakdown`: propext, Classical.choice, Quot.sound
* `SciRs.Props.C106_mad_lipschitz`: propext, Classical.choice, Quot.sound
* `SciRs.Props.C106_mean_not_robust`: propext, Classical.choice, Quot.sound
* `SciRs.Props.C106_median_breakdown`: propext, Classical.choice, Quot.sound
* `SciRs.Props.C106_median_lipschitz`: propext, Classical.choice, Quot.sound
* `SciRs.Props.C106_median_mono`: propext, Classical.choice, Quot.sound
* `SciRs.Props.C107_assoc`: propext, Classical.choice, Quot.sound
* `SciRs.Props.C107_autocorr_is_correlation`: propext, Classical.choice, Quot.sound
* `SciRs.Props.C107_correlate_swap`: propext, Classical.choice, Quot.sound
* `SciRs.Props.C107_impulse`: propext, Classical.choice, Quot.sound
* `SciRs.Props.C107_impulse_same`: propext, Classical.choice, Quot.sound
* `SciRs.Props.C107_linear`: propext, Classical.choice, Quot.sound
* `SciRs.Props.C107_savgol_is_convolution`: propext, Classical.choice, Quot.sound
* `SciRs.Props.C107_sosfilt_is_convolution`: propext, Classical.choice, Quot.sound
* `SciRs.Props.C107_sum`: propext, Classical.choice, Quot.sound
* `SciRs.Props.C107_young`: propext, Classical.choice, Quot.sound
* `SciRs.Props.C108_ba`: propext, Classical.choice, Quot.sound
* `SciRs.Props.C108_binary`: propext, Classical.choice, Quot.sound
* `SciRs.Props.C108_sections`: propext, Classical.choice, Quot.sound
* `SciRs.Props.C108_stable`: propext, Classical.choice, Quot.sound
* `SciRs.Props.C108_zpk`: propext, Classical.choice, Quot.sound
* `SciRs.Props.C109_bilinear`: propext, Classical.choice, Quot.sound
* `SciRs.Props.C109_lp2bp`: propext, Classical.choice, Quot.sound
* `SciRs.Props.C109_lp2bs`: propext, Classical.choice, Quot.sound
* `SciRs.Props.C109_lp2hp`: propext, Classical.choice, Quot.sound
* `SciRs.Props.C109_lp2lp`: propext, Classical.choice, Quot.sound
* `SciRs.Props.C109_panics`: propext, Classical.choice, Quot.sound
* `SciRs.Props.C10_exact`: propext, Classical.choice, Quot.sound
* `SciRs.Props.C10_negative`: propext
* `SciRs.Props.C10_panics_iff`: propext, Classical.choice, Quot.sound
* `SciRs.Props.C110_autocorr_reverse`: propext, Classical.choice, Quot.sound
* `SciRs.Props.C110_autocorr_sum`: propext, Classical.choice, Quot.sound
* `SciRs.Props.C110_bounds`: propext, Classical.choice, Quot.sound
* `SciRs.Props.C110_joined`: propext, Classical.choice, Quot.sound
* `SciRs.Props.C110_mad_stdev`: propext, Classical.choice, Quot.sound
* `SciRs.Props.C110_mean_least_squares`: propext, Classical.choice, Quot.sound
* `SciRs.Props.C110_mean_median`: propext, Classical.choice, Quot.sound
* `SciRs.Props.C110_median_least_distance`: propext, Classical.choice, Quot.sound
* `SciRs.Props.C110_mod_zscore_half`: propext, Classical.choice, Quot.sound
* `SciRs.Props.C110_power_spectrum`: propext, Classical.choice, Quot.sound
* `SciRs.Props.C110_rms`: propext, Classical.choice, Quot.sound
* `SciRs.Props.C110_rmssd_autocorr`: propext, Classical.choice, Quot.sound
* `SciRs.Props.C110_zscore_count`: propext, Classical.choice, Quot.sound
* `SciRs.Props.C110_zscore_max`: propext, Classical.choice, Quot.sound
* `SciRs.Props.C110_zscore_max_attained`: propext, Classical.choice, Quot.sound
* `SciRs.Props.C111_default_rate`: propext, Classical.choice, Quot.sound
* `SciRs.Props.C111_output`: propext, Classical.choice, Quot.sound
* `SciRs.Props.C111_response`: propext, Classical.choice, Quot.sound
* `SciRs.Props.C111_units`: propext, Classical.choice, Quot.sound
* `SciRs.Props.C112_energy`: propext, Classical.choice, Quot.sound
* `SciRs.Props.C112_mix_energy`: propext, Classical.choice, Quot.sound
* `SciRs.Props.C112_phase`: propext, Classical.choice, Quot.sound
* `SciRs.Props.C112_power`: propext, Classical.choice, Quot.sound
* `SciRs.Props.C112_split`: propext, Classical.choice, Quot.sound
* `SciRs.Props.C112_twice`: propext, Classical.choice, Quot.sound
* `SciRs.Props.C112_zero_phase`: propext, Classical.choice, Quot.sound
* `SciRs.Props.C113_interpolation`: propext, Classical.choice, Quot.sound
* `SciRs.Props.C113_interval`: propext, Classical.choice, Quot.sound
* `SciRs.Props.C113_linear`: propext, Classical.choice, Quot.sound
* `SciRs.Props.C113_mean_of_window`: propext, Classical.choice, Quot.sound
* `SciRs.Props.C113_moving_average`: propext, Classical.choice, Quot.sound
* `SciRs.Props.C113_next_order`: propext, Classical.choice, Quot.sound
* `SciRs.Props.C113_noise`: propext, Classical.choice, Quot.sound
* `SciRs.Props.C113_reverse`: propext, Classical.choice, Quot.sound
* `SciRs.Props.C113_symmetric`: propext, Classical.choice, Quot.sound
* `SciRs.Props.C114_autocorr`: propext, Classical.choice, Quot.sound
* `SciRs.Props.C114_formats`: propext, Classical.choice, Quot.sound
* `SciRs.Props.C114_ieee_autocorr`: propext, Classical.choice, Quot.sound
* `SciRs.Props.C114_ieee_lag_diff`: propext, Classical.choice, Quot.sound
* `SciRs.Props.C114_ieee_mean`: propext, Classical.choice, Quot.sound
* `SciRs.Props.C114_ieee_savgol`: propext, Classical.choice, Quot.sound
* `SciRs.Props.C114_ieee_sosfilt`: propext, Classical.choice, Quot.sound
* `SciRs.Props.C114_ieee_sosfiltfilt`: propext, Classical.choice, Quot.sound
* `SciRs.Props.C114_ieee_stdev`: propext, Classical.choice, Quot.sound
* `SciRs.Props.C114_ieee_variance`: propext, Classical.choice, Quot.sound
* `SciRs.Props.C114_ieee_zscore`: propext, Classical.choice, Quot.sound
* `SciRs.Props.C114_lag_diff`: propext, Classical.choice, Quot.sound
* `SciRs.Props.C114_mad`: propext, Classical.choice, Quot.sound
* `SciRs.Props.C114_mean`: propext, Classical.choice, Quot.sound
* `SciRs.Props.C114_median`: propext, Classical.choice, Quot.sound
* `SciRs.Props.C114_minus_one`: propext, Classical.choice, Quot.sound
* `SciRs.Props.C114_mod_zscore`: propext, Classical.choice, Quot.sound
* `SciRs.Props.C114_no_underflow`: propext, Classical.choice, Quot.sound
* `SciRs.Props.C114_powers_of_two`: propext, Classical.choice, Quot.sound
* `SciRs.Props.C114_rms`: propext, Classical.choice, Quot.sound
* `SciRs.Props.C114_rmssd`: propext, Classical.choice, Quot.sound
* `SciRs.Props.C114_savgol`: propext, Classical.choice, Quot.sound
* `SciRs.Props.C114_sosfilt`: propext, Classical.choice, Quot.sound
* `SciRs.Props.C114_sosfiltfilt`: propext, Classical.choice, Quot.sound
* `SciRs.Props.C114_stdev`: propext, Classical.choice, Quot.sound
* `SciRs.Props.C114_variance`: propext, Classical.choice, Quot.sound
* `SciRs.Props.C114_zscore`: propext, Classical.choice, Quot.sound
* `SciRs.Props.C115_comb_rep`: propext, Classical.choice, Quot.sound
* `SciRs.Props.C115_comb_symmetric`: propext, Classical.choice, Quot.sound
* `SciRs.Props.C115_factorial2`: propext, Classical.choice, Quot.sound
* `SciRs.Props.C115_factorial_mono`: propext, Classical.choice, Quot.sound
* `SciRs.Props.C115_factorialk`: propext, Classical.choice, Quot.sound
* `SciRs.Props.C115_pascal`: propext, Classical.choice, Quot.sound
* `SciRs.Props.C115_perm_comb`: propext, Classical.choice, Quot.sound
* `SciRs.Props.C115_perm_self`: propext, Classical.choice, Quot.sound
* `SciRs.Props.C115_power`: propext, Classical.choice, Quot.sound
* `SciRs.Props.C115_row`: propext, Classical.choice, Quot.sound
* `SciRs.Props.C115_stirling`: propext, Classical.choice, Quot.sound
* `SciRs.Props.C116_chebyshev_steeper`: propext, Classical.choice, Quot.sound
* `SciRs.Props.C116_cutoff`: propext, Classical.choice, Quot.sound
* `SciRs.Props.C116_order`: propext, Classical.choice, Quot.sound
* `SciRs.Props.C116_pass_band`: propext, Classical.choice, Quot.sound
* `SciRs.Props.C116_ripple`: propext, Classical.choice, Quot.sound
* `SciRs.Props.C116_wider`: propext, Classical.choice, Quot.sound
* `SciRs.Props.C117_design`: propext, Classical.choice, Quot.sound
* `SciRs.Props.C117_filtfilt_local`: propext, Classical.choice, Quot.sound
* `SciRs.Props.C117_filtfilt_piece`: propext, Classical.choice, Quot.sound
* `SciRs.Props.C117_float_piece`: propext, Classical.choice, Quot.sound
* `SciRs.Props.C117_float_states`: propext, Classical.choice, Quot.sound
* `SciRs.Props.C117_past`: propext, Classical.choice, Quot.sound
* `SciRs.Props.C117_states`: propext, Classical.choice, Quot.sound
* `SciRs.Props.C118_float`: propext, Classical.choice, Quot.sound
* `SciRs.Props.C118_kernel`: propext, Classical.choice, Quot.sound
* `SciRs.Props.C118_peak`: propext, Classical.choice, Quot.sound
* `SciRs.Props.C118_reverse`: propext, Classical.choice, Quot.sound
* `SciRs.Props.C118_reverse_false`: propext, Classical.choice, Quot.sound
* `SciRs.Props.C119_odd_ext_builds`: propext, Classical.choice, Quot.sound
* `SciRs.Props.C119_odd_ext_safe`: propext, Classical.choice, Quot.sound
* `SciRs.Props.C119_one_byte`: propext, Classical.choice, Quot.sound
* `SciRs.Props.C119_one_byte_ub`: propext, Classical.choice, Quot.sound
* `SciRs.Props.C119_pad_builds`: propext, Classical.choice, Quot.sound
* `SciRs.Props.C119_pad_safe`: propext, Classical.choice, Quot.sound
* `SciRs.Props.C119_sosfiltfilt_builds`: propext, Classical.choice, Quot.sound
* `SciRs.Props.C11_exact`: propext, Classical.choice, Quot.sound
* `SciRs.Props.C11_negative`: propext
* `SciRs.Props.C11_panics_iff`: propext, Classical.choice, Quot.sound
* `SciRs.Props.C120_butter`: propext, Classical.choice, Quot.sound
* `SciRs.Props.C120_determines`: propext, Classical.choice, Quot.sound
* `SciRs.Props.C120_impulse`: propext, Classical.choice, Quot.sound
* `SciRs.Props.C120_inverse`: propext, Classical.choice, Quot.sound
* `SciRs.Props.C120_kernel`: propext, Classical.choice, Quot.sound
* `SciRs.Props.C120_kernel_inverse`: propext, Classical.choice, Quot.sound
* `SciRs.Props.C120_magnitude`: propext, Classical.choice, Quot.sound
* `SciRs.Props.C121_bibo_iff`: propext, Classical.choice, Quot.sound
* `SciRs.Props.C121_cancelled_false`: propext, Classical.choice, Quot.sound
* `SciRs.Props.C121_decay_iff`: propext, Classical.choice, Quot.sound
* `SciRs.Props.C121_peak`: propext, Classical.choice, Quot.sound
* `SciRs.Props.C121_peak_sharp`: propext, Classical.choice, Quot.sound
* `SciRs.Props.C121_stable_iff`: propext, Classical.choice, Quot.sound
* `SciRs.Props.C122_binomial`: propext, Classical.choice, Quot.sound
* `SciRs.Props.C122_denominator`: propext, Classical.choice, Quot.sound
* `SciRs.Props.C122_design`: propext, Classical.choice, Quot.sound
* `SciRs.Props.C122_poly`: propext, Classical.choice, Quot.sound
* `SciRs.Props.C122_stable`: propext, Classical.choice, Quot.sound
* `SciRs.Props.C122_stable_false`: propext, Classical.choice, Quot.sound
* `SciRs.Props.C122_zpk2tf`: propext, Classical.choice, Quot.sound
* `SciRs.Props.C123_bandpass`: propext, Classical.choice, Quot.sound
* `SciRs.Props.C123_example`: propext, Classical.choice, Quot.sound
* `SciRs.Props.C123_gain`: propext, Classical.choice, Quot.sound
* `SciRs.Props.C123_sections_response`: propext, Classical.choice, Quot.sound
* `SciRs.Props.C123_zpk_response`: propext, Classical.choice, Quot.sound
* `SciRs.Props.C124_butter`: propext, Classical.choice, Quot.sound
* `SciRs.Props.C124_error`: propext, Classical.choice, Quot.sound
* `SciRs.Props.C124_example`: propext, Classical.choice, Quot.sound
* `SciRs.Props.C124_level`: propext, Classical.choice, Quot.sound
* `SciRs.Props.C125_f64`: propext, Classical.choice, Quot.sound
* `SciRs.Props.C125_finite`: propext, Classical.choice, Quot.sound
* `SciRs.Props.C125_panics`: propext, Classical.choice, Quot.sound
* `SciRs.Props.C125_release`: propext, Classical.choice, Quot.sound
* `SciRs.Props.C126_close`: propext, Classical.choice, Quot.sound
* `SciRs.Props.C126_formula`: propext, Classical.choice, Quot.sound
* `SciRs.Props.C126_power`: propext, Classical.choice, Quot.sound
* `SciRs.Props.C126_reverse`: propext, Classical.choice, Quot.sound
* `SciRs.Props.C126_shift`: propext, Classical.choice, Quot.sound
* `SciRs.Props.C126_two_steps`: propext, Classical.choice, Quot.sound
* `SciRs.Props.C127_bandstop`: propext, Classical.choice, Quot.sound
* `SciRs.Props.C127_example`: propext, Classical.choice, Quot.sound
* `SciRs.Props.C127_gain`: propext, Classical.choice, Quot.sound
* `SciRs.Props.C127_sections_response`: propext, Classical.choice, Quot.sound
* `SciRs.Props.C127_zpk_response`: propext, Classical.choice, Quot.sound
* `SciRs.Props.C128_band_energy`: propext, Classical.choice, Quot.sound
* `SciRs.Props.C128_example`: propext, Classical.choice, Quot.sound
* `SciRs.Props.C129_f64`: propext, Classical.choice, Quot.sound
* `SciRs.Props.C129_roots`: propext, Classical.choice, Quot.sound
* `SciRs.Props.C129_sections`: propext, Classical.choice, Quot.sound
* `SciRs.Props.C12_diverges`: propext, Quot.sound
* `SciRs.Props.C12_edge`: propext, Quot.sound
* `SciRs.Props.C12_exact_partial`: propext, Classical.choice, Quot.sound
* `SciRs.Props.C12_panics_iff`: propext, Classical.choice, Quot.sound
* `SciRs.Props.C12_spurious_panic`: propext, Classical.choice, Quot.sound
* `SciRs.Props.C12_wrong_value`: propext, Quot.sound
* `SciRs.Props.C130_example`: propext, Classical.choice, Quot.sound
* `SciRs.Props.C130_lowpass`: propext, Classical.choice, Quot.sound
* `SciRs.Props.C130_response`: propext, Classical.choice, Quot.sound
* `SciRs.Props.C131_example`: propext, Classical.choice, Quot.sound
* `SciRs.Props.C131_poles`: propext, Classical.choice, Quot.sound
* `SciRs.Props.C131_sections`: propext, Classical.choice, Quot.sound
* `SciRs.Props.C132_energy`: propext, Classical.choice, Quot.sound
* `SciRs.Props.C132_example`: propext, Classical.choice, Quot.sound
* `SciRs.Props.C132_filtering`: propext, Classical.choice, Quot.sound
* `SciRs.Props.C133_bandpass`: propext, Classical.choice, Quot.sound
* `SciRs.Props.C133_example`: propext, Classical.choice, Quot.sound
* `SciRs.Props.C133_gain`: propext, Classical.choice, Quot.sound
* `SciRs.Props.C133_sections_response`: propext, Classical.choice, Quot.sound
* `SciRs.Props.C133_zpk_response`: propext, Classical.choice, Quot.sound
* `SciRs.Props.C134_butter`: propext, Classical.choice, Quot.sound
* `SciRs.Props.C134_cheby1`: propext, Classical.choice, Quot.sound
* `SciRs.Props.C134_cheby1_example`: propext, Classical.choice, Quot.sound
* `SciRs.Props.C134_energy`: propext, Classical.choice, Quot.sound
* `SciRs.Props.C134_example`: propext, Classical.choice, Quot.sound
* `SciRs.Props.C135_bandstop`: propext, Classical.choice, Quot.sound
* `SciRs.Props.C135_example`: propext, Classical.choice, Quot.sound
* `SciRs.Props.C135_gain`: propext, Classical.choice, Quot.sound
* `SciRs.Props.C135_sections_response`: propext, Classical.choice, Quot.sound
* `SciRs.Props.C135_zpk_response`: propext, Classical.choice, Quot.sound
* `SciRs.Props.C136_butter`: propext, Classical.choice, Quot.sound
* `SciRs.Props.C136_cheby1`: propext, Classical.choice, Quot.sound
* `SciRs.Props.C136_cheby1_example`: propext, Classical.choice, Quot.sound
* `SciRs.Props.C136_energy`: propext, Classical.choice, Quot.sound
* `SciRs.Props.C136_example`: propext, Classical.choice, Quot.sound
* `SciRs.Props.C137_butter`: propext, Classical.choice, Quot.sound
* `SciRs.Props.C137_butter_edge`: propext, Classical.choice, Quot.sound
* `SciRs.Props.C137_cheby1`: propext, Classical.choice, Quot.sound
* `SciRs.Props.C137_cheby1_edge`: propext, Classical.choice, Quot.sound
* `SciRs.Props.C137_computed`: propext, Classical.choice, Quot.sound
* `SciRs.Props.C137_edge_example`: propext, Classical.choice, Quot.sound
* `SciRs.Props.C137_example`: propext, Classical.choice, Quot.sound
* `SciRs.Props.C137_filtfilt`: propext, Classical.choice, Quot.sound
* `SciRs.Props.C137_impulse`: propext, Classical.choice, Quot.sound
* `SciRs.Props.C137_kernel`: propext, Classical.choice, Quot.sound
* `SciRs.Props.C13_counts_subsets_partial`: propext, Classical.choice, Quot.sound
* `SciRs.Props.C13_exact_partial`: propext, Classical.choice, Quot.sound
* `SciRs.Props.C13_outside`: propext, Quot.sound
* `SciRs.Props.C13_panics_iff`: propext, Classical.choice, Quot.sound
* `SciRs.Props.C13_spurious_panic`: propext, Classical.choice, Quot.sound
* `SciRs.Props.C13_wrong_value`: propext
* `SciRs.Props.C14_counts_multisets`: propext, Classical.choice, Quot.sound
* `SciRs.Props.C14_exact`: propext, Classical.choice, Quot.sound
* `SciRs.Props.C14_negative`: propext, Classical.choice, Quot.sound
* `SciRs.Props.C14_panics_iff`: propext, Classical.choice, Quot.sound
* `SciRs.Props.C14_zero`: propext, Classical.choice, Quot.sound
* `SciRs.Props.C15_counts_injections`: propext, Classical.choice, Quot.sound
* `SciRs.Props.C15_exact`: propext, Classical.choice, Quot.sound
* `SciRs.Props.C15_outside`: propext, Quot.sound
* `SciRs.Props.C15_panics_iff`: propext, Classical.choice, Quot.sound
* `SciRs.Props.C16_counts_partitions`: propext, Classical.choice, Quot.sound
* `SciRs.Props.C16_exact`: propext, Classical.choice, Quot.sound
* `SciRs.Props.C16_outside`: propext, Quot.sound
* `SciRs.Props.C16_panics_iff`: propext, Classical.choice, Quot.sound
* `SciRs.Props.C17_even`: propext
* `SciRs.Props.C17_regimes`: propext, Classical.choice, Quot.sound
* `SciRs.Props.C17_scaled`: propext, Classical.choice, Quot.sound
* `SciRs.Props.C17_vec`: propext
* `SciRs.Props.C18_error`: propext, Classical.choice, Quot.sound
* `SciRs.Props.C18_i0e_error`: propext, Classical.choice, Quot.sound
* `SciRs.Props.C18_value_partial`: propext, Classical.choice, Quot.sound
* `SciRs.Props.C18_wrong`: propext, Classical.choice, Quot.sound
* `SciRs.Props.C19_companion`: propext, Classical.choice, Quot.sound
* `SciRs.Props.C19_eigenvalues`: propext, Classical.choice, Quot.sound
* `SciRs.Props.C19_safety`: propext, Classical.choice, Quot.sound
* `SciRs.Props.C19_safety_builds`: propext, Classical.choice, Quot.sound
* `SciRs.Props.C20_sosfilt_dyn_eq_cascade`: propext
* `SciRs.Props.C20_sosfilt_item_eq_dyn`: propext
* `SciRs.Props.C20_sosfilt_st_eq_cascade`: propext
* `SciRs.Props.C20_sosfilt_st_eq_dyn`: propext
* `SciRs.Props.C21_chunked`: propext, Classical.choice, Quot.sound
* `SciRs.Props.C22_fast32`: propext, Classical.choice, Quot.sound
* `SciRs.Props.C22_ifast32`: propext, Classical.choice, Quot.sound
* `SciRs.Props.C22_panics_iff`: propext, Classical.choice, Quot.sound
* `SciRs.Props.C23_difference_equation`: propext, Classical.choice, Quot.sound
* `SciRs.Props.C23_transfer`: propext, Classical.choice, Quot.sound
* `SciRs.Props.C24_causal`: propext, Quot.sound
* `SciRs.Props.C24_coeffs_unchanged`: propext
* `SciRs.Props.C24_length`: propext
* `SciRs.Props.C24_linear`: propext, Classical.choice, Quot.sound
* `SciRs.Props.C24_shift`: propext
* `SciRs.Props.C25_permute`: propext, Classical.choice, Quot.sound
* `SciRs.Props.C26_bibo`: propext, Classical.choice, Quot.sound
* `SciRs.Props.C26_decay`: propext, Classical.choice, Quot.sound
* `SciRs.Props.C27_builds`: propext, Classical.choice, Quot.sound
* `SciRs.Props.C27_panics_iff`: propext, Classical.choice, Quot.sound
* `SciRs.Props.C27_steady_state`: propext, Classical.choice, Quot.sound
* `SciRs.Props.C28_needs_normalised`: propext, Classical.choice, Quot.sound
* `SciRs.Props.C28_no_transient`: propext, Classical.choice, Quot.sound
* `SciRs.Props.C29_odd_ext`: propext, Quot.sound
* `SciRs.Props.C29_pad`: propext, Classical.choice, Quot.sound
* `SciRs.Props.C29_panics_iff`: propext, Classical.choice, Quot.sound
* `SciRs.Props.C29_point_symmetric`: propext, Classical.choice, Quot.sound
* `SciRs.Props.C30_length`: propext, Classical.choice, Quot.sound
* `SciRs.Props.C30_panics_iff`: propext, Classical.choice, Quot.sound
* `SciRs.Props.C30_states_irrelevant`: propext, Quot.sound
* `SciRs.Props.C31_constant`: propext, Classical.choice, Quot.sound
* `SciRs.Props.C31_forward_backward`: propext, Classical.choice, Quot.sound
* `SciRs.Props.C31_linear`: propext, Classical.choice, Quot.sound
* `SciRs.Props.C32_length`: propext, Quot.sound
* `SciRs.Props.C32_panics_iff`: propext, Classical.choice, Quot.sound
* `SciRs.Props.C33_constant_exact`: propext, Classical.choice, Quot.sound
* `SciRs.Props.C33_derivative_overflow_false`: propext, Classical.choice, Quot.sound
* `SciRs.Props.C33_polynomial_exact`: propext, Classical.choice, Quot.sound
* `SciRs.Props.C34_extremes`: propext, Classical.choice, Quot.sound
* `SciRs.Props.C34_panics_iff`: propext, Classical.choice, Quot.sound
* `SciRs.Props.C34_periodic`: propext, Classical.choice, Quot.sound
* `SciRs.Props.C34_value`: propext, Classical.choice, Quot.sound
* `SciRs.Props.C35_convolve_eq`: propext, Classical.choice, Quot.sound
* `SciRs.Props.C35_full_comm`: propext, Classical.choice, Quot.sound
* `SciRs.Props.C35_full_empty_unchecked`: propext, Classical.choice, Quot.sound
* `SciRs.Props.C35_full_is_convolution`: propext, Classical.choice, Quot.sound
* `SciRs.Props.C35_full_panics_iff`: propext, Classical.choice, Quot.sound
* `SciRs.Props.C36_empty_second_panics`: propext, Classical.choice, Quot.sound
* `SciRs.Props.C36_same`: propext, Classical.choice, Quot.sound
* `SciRs.Props.C36_valid`: propext, Classical.choice, Quot.sound
* `SciRs.Props.C36_valid_documented_length_false`: propext, Classical.choice, Quot.sound
* `SciRs.Props.C36_valid_shorter_empty`: propext, Classical.choice, Quot.sound
* `SciRs.Props.C37_autocorrelation_peak`: propext, Classical.choice, Quot.sound
* `SciRs.Props.C37_autocorrelation_symmetric`: propext, Classical.choice, Quot.sound
* `SciRs.Props.C37_correlate_eq`: propext, Classical.choice, Quot.sound
* `SciRs.Props.C37_correlate_full`: propext, Classical.choice, Quot.sound
* `SciRs.Props.C37_correlate_valid`: propext, Classical.choice, Quot.sound
* `SciRs.Props.C38_bandlimited_exact`: propext, Classical.choice, Quot.sound
* `SciRs.Props.C38_constant`: propext, Classical.choice, Quot.sound
* `SciRs.Props.C38_identity_even_partial`: propext, Classical.choice, Quot.sound
* `SciRs.Props.C38_identity_odd_false`: propext, Classical.choice, Quot.sound
* `SciRs.Props.C38_identity_odd_loss`: propext, Classical.choice, Quot.sound
* `SciRs.Props.C38_length`: propext, Classical.choice, Quot.sound
* `SciRs.Props.C38_mean_preserved`: propext, Classical.choice, Quot.sound
* `SciRs.Props.C39_lp2lp`: propext, Classical.choice, Quot.sound
* `SciRs.Props.C39_lp2lp_default`: propext, Classical.choice, Quot.sound
* `SciRs.Props.C40_lp2hp_finite_zero_wrong`: propext, Classical.choice, Quot.sound
* `SciRs.Props.C40_lp2hp_partial`: propext, Classical.choice, Quot.sound
* `SciRs.Props.C41_lp2bp`: propext, Classical.choice, Quot.sound
* `SciRs.Props.C42_lp2bs_finite_zero_wrong`: propext, Classical.choice, Quot.sound
* `SciRs.Props.C42_lp2bs_partial`: propext, Classical.choice, Quot.sound
* `SciRs.Props.C43_bilinear`: propext, Classical.choice, Quot.sound
* `SciRs.Props.C43_real_filters`: propext, Classical.choice, Quot.sound
* `SciRs.Props.C43_stability`: propext, Classical.choice, Quot.sound
* `SciRs.Props.C44_degrees`: propext, Classical.choice, Quot.sound
* `SciRs.Props.C44_panics_iff`: propext, Classical.choice, Quot.sound
* `SciRs.Props.C45_dc`: propext, Classical.choice, Quot.sound
* `SciRs.Props.C45_poles`: propext, Classical.choice, Quot.sound
* `SciRs.Props.C45_response`: propext, Classical.choice, Quot.sound
* `SciRs.Props.C46_dc`: propext, Classical.choice, Quot.sound
* `SciRs.Props.C46_order_zero`: propext, Classical.choice, Quot.sound
* `SciRs.Props.C46_poles`: propext, Classical.choice, Quot.sound
* `SciRs.Props.C46_response`: propext, Classical.choice, Quot.sound
* `SciRs.Props.C46_ripple`: propext, Classical.choice, Quot.sound
* `SciRs.Props.C47_attenuation`: propext, Classical.choice, Quot.sound
* `SciRs.Props.C47_order_zero`: propext, Classical.choice, Quot.sound
* `SciRs.Props.C47_poles_zeros`: propext, Classical.choice, Quot.sound
* `SciRs.Props.C47_response`: propext, Classical.choice, Quot.sound
* `SciRs.Props.C48_poly`: propext, Classical.choice, Quot.sound
* `SciRs.Props.C48_real`: propext, Classical.choice, Quot.sound
* `SciRs.Props.C48_sorted`: propext, Classical.choice, Quot.sound
* `SciRs.Props.C49_fewer_zeros_wrong`: propext, Classical.choice, Quot.sound
* `SciRs.Props.C49_polynomials`: propext, Classical.choice, Quot.sound
* `SciRs.Props.C49_real_output`: propext, Classical.choice, Quot.sound
* `SciRs.Props.C49_zpk2tf_partial`: propext, Classical.choice, Quot.sound
* `SciRs.Props.C50_cplxreal`: propext, Classical.choice, Quot.sound
* `SciRs.Props.C50_panics`: propext, Classical.choice, Quot.sound
* `SciRs.Props.C50_sorts_exist`: propext, Classical.choice, Quot.sound
* `SciRs.Props.C51_missing_zeros_at_origin`: propext, Classical.choice, Quot.sound
* `SciRs.Props.C51_sections`: propext, Classical.choice, Quot.sound
* `SciRs.Props.C51_transfer`: propext, Classical.choice, Quot.sound
* `SciRs.Props.C52_near_real_panics`: propext, Classical.choice, Quot.sound
* `SciRs.Props.C52_no_panic`: propext, Classical.choice, Quot.sound
* `SciRs.Props.C52_returns_iff`: propext, Classical.choice, Quot.sound
* `SciRs.Props.C53_panics_iff`: propext, Quot.sound
* `SciRs.Props.C53_rows`: propext, Quot.sound
* `SciRs.Props.C53_unchecked_wraps`: propext
* `SciRs.Props.C54_butter`: propext, Classical.choice, Quot.sound
* `SciRs.Props.C54_invalid_panics`: propext, Classical.choice, Quot.sound
* `SciRs.Props.C54_returns_iff`: propext, Classical.choice, Quot.sound
* `SciRs.Props.C55_cheby1_accepts`: propext, Classical.choice, Quot.sound
* `SciRs.Props.C55_cheby2_always_panics`: propext, Classical.choice, Quot.sound
* `SciRs.Props.C55_lowpass_partial`: propext, Classical.choice, Quot.sound
* `SciRs.Props.C56_half_power_monotone`: propext, Classical.choice, Quot.sound
* `SciRs.Props.C56_response`: propext, Classical.choice, Quot.sound
* `SciRs.Props.C57_response`: propext, Classical.choice, Quot.sound
* `SciRs.Props.C58_butter`: propext, Classical.choice, Quot.sound
* `SciRs.Props.C58_stable`: propext, Classical.choice, Quot.sound
* `SciRs.Props.C59_butter_sections`: propext, Classical.choice, Quot.sound
* `SciRs.Props.C59_zpk_ba`: propext, Classical.choice, Quot.sound
* `SciRs.Props.C59_zpk_sos`: propext, Classical.choice, Quot.sound
* `SciRs.Props.C60_constants`: propext, Classical.choice, Quot.sound
* `SciRs.Props.C61_is_best_fit`: propext, Classical.choice, Quot.sound
* `SciRs.Props.C62_analog_all_pole_odd_panics`: propext, Classical.choice, Quot.sound
* `SciRs.Props.C62_analog_all_pole_wrong`: propext, Classical.choice, Quot.sound
* `SciRs.Props.C62_analog_partial`: propext, Classical.choice, Quot.sound
* `SciRs.Props.C63_bandpass_bandstop`: propext, Classical.choice, Quot.sound
* `SciRs.Props.C63_lowpass_highpass`: propext, Classical.choice, Quot.sound
* `SciRs.Props.C64_bandpass_response`: propext, Classical.choice, Quot.sound
* `SciRs.Props.C65_bandstop_response`: propext, Classical.choice, Quot.sound
* `SciRs.Props.C66_analog_ba_wrong`: propext, Classical.choice, Quot.sound
* `SciRs.Props.C66_band_partial`: propext, Classical.choice, Quot.sound
* `SciRs.Props.C66_low_high_partial`: propext, Classical.choice, Quot.sound
* `SciRs.Props.C67_i0_accuracy`: propext, Classical.choice, Quot.sound
* `SciRs.Props.C67_i0e_accuracy`: propext, Classical.choice, Quot.sound
* `SciRs.Props.C67_spec_sane`: propext, Classical.choice, Quot.sound
* `SciRs.Props.C68_counts_exact`: propext, Classical.choice, Quot.sound
* `SciRs.Props.C68_mean`: propext, Classical.choice, Quot.sound
* `SciRs.Props.C68_variance`: propext, Classical.choice, Quot.sound
* `SciRs.Props.C69_autocorr_zero`: propext, Classical.choice, Quot.sound
* `SciRs.Props.C69_constant`: propext, Classical.choice, Quot.sound
* `SciRs.Props.C69_constant_false`: propext, Classical.choice, Quot.sound
* `SciRs.Props.C69_rmssd_nonneg`: propext, Classical.choice, Quot.sound
* `SciRs.Props.C69_variance_nonneg`: propext, Classical.choice, Quot.sound
* `SciRs.Props.C69_zscore_constant_false`: propext, Classical.choice, Quot.sound
* `SciRs.Props.C70_rms`: propext, Classical.choice, Quot.sound
* `SciRs.Props.C71_median_between`: propext, Classical.choice, Quot.sound
* `SciRs.Props.C71_median_between_f64`: propext, Classical.choice, Quot.sound
* `SciRs.Props.C72_bibo`: propext, Classical.choice, Quot.sound
* `SciRs.Props.C72_error_bounded`: propext, Classical.choice, Quot.sound
* `SciRs.Props.C73_coeffs_differentiate`: propext, Classical.choice, Quot.sound
* `SciRs.Props.C73_least_noise`: propext, Classical.choice, Quot.sound
* `SciRs.Props.C73_panics_iff`: propext, Classical.choice, Quot.sound
* `SciRs.Props.C74_median_even`: propext, Classical.choice, Quot.sound
* `SciRs.Props.C74_median_odd`: propext, Classical.choice, Quot.sound
* `SciRs.Props.C74_median_panics_iff`: propext, Classical.choice, Quot.sound
* `SciRs.Props.C74_median_wraps_false`: propext, Classical.choice, Quot.sound
* `SciRs.Props.C75_count_false`: propext, Classical.choice, Quot.sound
* `SciRs.Props.C75_mean`: propext, Classical.choice, Quot.sound
* `SciRs.Props.C75_mean_panics_iff`: propext, Classical.choice, Quot.sound
* `SciRs.Props.C75_order_matters_false`: propext, Classical.choice, Quot.sound
* `SciRs.Props.C75_wraps_false`: propext, Classical.choice, Quot.sound
* `SciRs.Props.C76_butter`: propext, Classical.choice, Quot.sound
* `SciRs.Props.C76_steady_state`: propext, Classical.choice, Quot.sound
* `SciRs.Props.C77_butter`: propext, Classical.choice, Quot.sound
* `SciRs.Props.C77_zero_phase`: propext, Classical.choice, Quot.sound
* `SciRs.Props.C78_duty_one_negative_false`: propext, Classical.choice, Quot.sound
* `SciRs.Props.C78_duty_zero`: propext, Classical.choice, Quot.sound
* `SciRs.Props.C78_exact_wave`: propext, Classical.choice, Quot.sound
* `SciRs.Props.C78_nonneg_times`: propext, Classical.choice, Quot.sound
* `SciRs.Props.C78_total`: propext, Classical.choice, Quot.sound
* `SciRs.Props.C78_value`: propext, Classical.choice, Quot.sound
* `SciRs.Props.C79_interpolates`: propext, Classical.choice, Quot.sound
* `SciRs.Props.C79_linear`: propext, Classical.choice, Quot.sound
* `SciRs.Props.C79_roundtrip_false`: propext, Classical.choice, Quot.sound
* `SciRs.Props.C79_roundtrip_loss`: propext, Classical.choice, Quot.sound
* `SciRs.Props.C79_roundtrip_partial`: propext, Classical.choice, Quot.sound
* `SciRs.Props.C80_f64`: propext, Classical.choice, Quot.sound
* `SciRs.Props.C80_i0`: propext, Classical.choice, Quot.sound
* `SciRs.Props.C80_i0e`: propext, Classical.choice, Quot.sound
* `SciRs.Props.C80_precise`: propext, Classical.choice, Quot.sound
* `SciRs.Props.C81_before`: propext, Classical.choice, Quot.sound
* `SciRs.Props.C81_finite_accurate`: propext, Classical.choice, Quot.sound
* `SciRs.Props.C81_finite_value`: propext, Classical.choice, Quot.sound
* `SciRs.Props.C81_nan`: propext, Classical.choice, Quot.sound
* `SciRs.Props.C81_no_overflow`: propext, Classical.choice, Quot.sound
* `SciRs.Props.C81_nonfinite_poisons`: propext, Classical.choice, Quot.sound
* `SciRs.Props.C81_nonfinite_poisons_stream`: propext, Classical.choice, Quot.sound
* `SciRs.Props.C81_overflow_example`: propext, Classical.choice, Quot.sound
* `SciRs.Props.C82_finite_value`: propext, Classical.choice, Quot.sound
* `SciRs.Props.C82_infinite`: propext, Classical.choice, Quot.sound
* `SciRs.Props.C82_mean_accurate`: propext, Classical.choice, Quot.sound
* `SciRs.Props.C82_mean_no_overflow`: propext, Classical.choice, Quot.sound
* `SciRs.Props.C82_mean_overflow_false`: propext, Classical.choice, Quot.sound
* `SciRs.Props.C82_median`: propext, Classical.choice, Quot.sound
* `SciRs.Props.C82_median_infinities`: propext, Classical.choice, Quot.sound
* `SciRs.Props.C82_median_overflow_false`: propext, Classical.choice, Quot.sound
* `SciRs.Props.C82_median_total`: propext, Classical.choice, Quot.sound
* `SciRs.Props.C82_nan`: propext, Classical.choice, Quot.sound
* `SciRs.Props.C82_rmssd_nan`: propext, Classical.choice, Quot.sound
* `SciRs.Props.C82_zscore_overflow_false`: propext, Classical.choice, Quot.sound
* `SciRs.Props.C83_i0`: propext, Classical.choice, Quot.sound
* `SciRs.Props.C83_i0_infinity_false`: propext, Classical.choice, Quot.sound
* `SciRs.Props.C83_i0_overflow_false`: propext, Classical.choice, Quot.sound
* `SciRs.Props.C83_i0e`: propext, Classical.choice, Quot.sound
* `SciRs.Props.C83_i0e_infinity`: propext, Classical.choice, Quot.sound
* `SciRs.Props.C83_nan`: propext, Classical.choice, Quot.sound
* `SciRs.Props.C83_wide`: propext, Classical.choice, Quot.sound
* `SciRs.Props.C84_butter_band`: propext, Classical.choice, Quot.sound
* `SciRs.Props.C84_butter_iff`: propext, Classical.choice, Quot.sound
* `SciRs.Props.C84_doc_bandpass`: propext, Classical.choice, Quot.sound
* `SciRs.Props.C84_format`: propext, Classical.choice, Quot.sound
* `SciRs.Props.C84_low_edge_panics`: propext, Classical.choice, Quot.sound
* `SciRs.Props.C84_returns_iff`: propext, Classical.choice, Quot.sound
* `SciRs.Props.C84_sound`: propext, Classical.choice, Quot.sound
* `SciRs.Props.C85_dc`: propext, Classical.choice, Quot.sound
* `SciRs.Props.C85_filtering`: propext, Classical.choice, Quot.sound
* `SciRs.Props.C85_request`: propext, Classical.choice, Quot.sound
* `SciRs.Props.C85_response`: propext, Classical.choice, Quot.sound
* `SciRs.Props.C86_conjugate_pairs`: propext, Classical.choice, Quot.sound
* `SciRs.Props.C86_exact`: propext, Classical.choice, Quot.sound
* `SciRs.Props.C86_first_order`: propext, Classical.choice, Quot.sound
* `SciRs.Props.C86_lawful`: propext, Classical.choice, Quot.sound
* `SciRs.Props.C86_returns_iff`: propext, Classical.choice, Quot.sound
* `SciRs.Props.C86_sections`: propext, Classical.choice, Quot.sound
* `SciRs.Props.C87_coefficients`: propext, Classical.choice, Quot.sound
* `SciRs.Props.C87_conjugate_coefficients`: propext, Classical.choice, Quot.sound
* `SciRs.Props.C87_low_edge_false`: propext, Classical.choice, Quot.sound
* `SciRs.Props.C87_numerators`: propext, Classical.choice, Quot.sound
* `SciRs.Props.C87_stable_partial`: propext, Classical.choice, Quot.sound
* `SciRs.Props.C87_zeros`: propext, Classical.choice, Quot.sound
* `SciRs.Props.C88_analog_ba`: propext, Classical.choice, Quot.sound
* `SciRs.Props.C88_analog_sos`: propext, Classical.choice, Quot.sound
* `SciRs.Props.C88_butter_highpass`: propext, Classical.choice, Quot.sound
* `SciRs.Props.C88_correct`: propext, Classical.choice, Quot.sound
* `SciRs.Props.C88_equal_counts_panics`: propext, Classical.choice, Quot.sound
* `SciRs.Props.C88_no_real_zero_panics`: propext, Classical.choice, Quot.sound
* `SciRs.Props.C88_returns`: propext, Classical.choice, Quot.sound
* `SciRs.Props.C88_sound`: propext, Classical.choice, Quot.sound
* `SciRs.Props.C89_minimal`: propext, Classical.choice, Quot.sound
* `SciRs.Props.C89_nearest`: propext, Classical.choice, Quot.sound
* `SciRs.Props.C89_order`: propext, Classical.choice, Quot.sound
* `SciRs.Props.C90_f32`: propext, Classical.choice, Quot.sound
* `SciRs.Props.C90_f64`: propext, Classical.choice, Quot.sound
* `SciRs.Props.C90_library`: propext, Classical.choice, Quot.sound
* `SciRs.Props.C90_poles`: propext, Classical.choice, Quot.sound
* `SciRs.Props.C90_sections`: propext, Classical.choice, Quot.sound
* `SciRs.Props.C91_example`: propext, Classical.choice, Quot.sound
* `SciRs.Props.C91_gain`: propext, Classical.choice, Quot.sound
* `SciRs.Props.C91_highpass`: propext, Classical.choice, Quot.sound
* `SciRs.Props.C91_lowpass`: propext, Classical.choice, Quot.sound
* `SciRs.Props.C91_sections_response`: propext, Classical.choice, Quot.sound
* `SciRs.Props.C91_zpk_response`: propext, Classical.choice, Quot.sound
* `SciRs.Props.C92_designs`: propext, Classical.choice, Quot.sound
* `SciRs.Props.C92_distance`: propext, Classical.choice, Quot.sound
* `SciRs.Props.C92_energy`: propext, Classical.choice, Quot.sound
* `SciRs.Props.C92_example`: propext, Classical.choice, Quot.sound
* `SciRs.Props.C92_peak`: propext, Classical.choice, Quot.sound
* `SciRs.Props.C92_rounded_design`: propext, Classical.choice, Quot.sound
* `SciRs.Props.C93_autocorr`: propext, Classical.choice, Quot.sound
* `SciRs.Props.C93_example`: propext, Classical.choice, Quot.sound
* `SciRs.Props.C93_lag_diff`: propext, Classical.choice, Quot.sound
* `SciRs.Props.C93_mad`: propext, Classical.choice, Quot.sound
* `SciRs.Props.C93_median`: propext, Classical.choice, Quot.sound
* `SciRs.Props.C93_mod_zscore`: propext, Classical.choice, Quot.sound
* `SciRs.Props.C93_rmssd`: propext, Classical.choice, Quot.sound
* `SciRs.Props.C93_stdev`: propext, Classical.choice, Quot.sound
* `SciRs.Props.C93_zscore`: propext, Classical.choice, Quot.sound
* `SciRs.Props.C94_constant`: propext, Classical.choice, Quot.sound
* `SciRs.Props.C94_filtfilt`: propext, Classical.choice, Quot.sound
* `SciRs.Props.C94_lfilter_zi`: propext, Classical.choice, Quot.sound
* `SciRs.Props.C94_sosfilt_zi`: propext, Classical.choice, Quot.sound
* `SciRs.Props.C95_constant`: propext, Classical.choice, Quot.sound
* `SciRs.Props.C95_filter`: propext, Classical.choice, Quot.sound
* `SciRs.Props.C95_polynomial`: propext, Classical.choice, Quot.sound
* `SciRs.Props.C96_convolve`: propext, Classical.choice, Quot.sound
* `SciRs.Props.C96_correlate`: propext, Classical.choice, Quot.sound
* `SciRs.Props.C96_full`: propext, Classical.choice, Quot.sound
* `SciRs.Props.C96_resample`: propext, Classical.choice, Quot.sound
* `SciRs.Props.C97_f64`: propext, Classical.choice, Quot.sound
* `SciRs.Props.C97_library`: propext, Classical.choice, Quot.sound
* `SciRs.Props.C97_poles`: propext, Classical.choice, Quot.sound
* `SciRs.Props.C97_sections`: propext, Classical.choice, Quot.sound
* `SciRs.Props.C98_example`: propext, Classical.choice, Quot.sound
* `SciRs.Props.C98_gain`: propext, Classical.choice, Quot.sound
* `SciRs.Props.C98_highpass`: propext, Classical.choice, Quot.sound
* `SciRs.Props.C98_lowpass`: propext, Classical.choice, Quot.sound
* `SciRs.Props.C98_sections_response`: propext, Classical.choice, Quot.sound
* `SciRs.Props.C98_zpk_response`: propext, Classical.choice, Quot.sound
* `SciRs.Props.C99_filtfilt_nan`: propext, Classical.choice, Quot.sound
* `SciRs.Props.C99_filtfilt_nonfinite`: propext, Classical.choice, Quot.sound
* `SciRs.Props.C99_savgol_local`: propext, Classical.choice, Quot.sound
* `SciRs.Props.C99_savgol_nan`: propext, Classical.choice, Quot.sound
* `SciRs.Props.C99_savgol_nonfinite`: propext, Classical.choice, Quot.sound

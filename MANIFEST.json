{
 "claims": [
  {
   "property": "C01",
   "status": "proved",
   "theorems": [
    "Verif.FIRFilter.C01_fir_history",
    "Verif.FIRFilter.C01_single_tap_raises"
   ],
   "note": "All tap vectors with at least two taps and all call histories; a single tap raises (separate theorem). Exact arithmetic; negative channel numbers not modelled."
  },
  {
   "property": "C02",
   "status": "proved",
   "theorems": [
    "Verif.IIRFilter.C02_iir_history",
    "Verif.IIRFilter.C02_iir_bad_channel",
    "Verif.IIRFilter.C02_iir_order_zero_raises"
   ],
   "note": "All b, a with a[0] != 0 and order >= 1, all call histories; order 0 raises."
  },
  {
   "property": "C03",
   "status": "proved",
   "theorems": [
    "Verif.FilterChain.C03_chain_is_sequential",
    "Verif.FilterChain.C03_chain_answer",
    "Verif.FilterChain.C03_empty_chain"
   ],
   "note": "Filters are arbitrary state machines; the members of the chain are taken to be distinct objects."
  },
  {
   "property": "C04",
   "status": "proved",
   "theorems": [
    "Verif.SVF.C04_recombination",
    "Verif.SVF.C04_bad_channel",
    "Verif.SVF.C04_allpass_energy_balance",
    "Verif.SVF.C04_allpass_energy_bound",
    "Verif.SVF.C04_allpass_energy_history",
    "Verif.SVF.C04_free_decay",
    "Verif.SVF.C04_parameters"
   ],
   "note": "Recombination over any field; energy balance for all states and sequences; accepted parameters give g > 0."
  },
  {
   "property": "C05",
   "status": "proved",
   "theorems": [
    "Verif.Warped.C05_warped_fir_history",
    "Verif.Warped.C05_unwarped_is_convolution",
    "Verif.Warped.C05_filter_signal_keeps_state",
    "Verif.Warped.C05_filter_signal"
   ],
   "note": "All taps, warping factors and histories; filter_signal filters each channel from rest and restores the buffers."
  },
  {
   "property": "C06",
   "status": "proved",
   "theorems": [
    "Verif.Warped.C06_loop_unique",
    "Verif.Warped.C06_warped_iir_history",
    "Verif.Warped.C06_bad_channel",
    "Verif.Warped.C06_single_denominator_false"
   ],
   "note": "len(a) >= 2 as stated; C06_single_denominator_false records that a one-coefficient denominator is handled wrongly. C06_loop_unique shows that the specification determines the output."
  },
  {
   "property": "C07",
   "status": "partial",
   "theorems": [
    "Verif.Lattice.C07_lattice_fir_partial",
    "Verif.Lattice.C07_lattice_fir_normalised",
    "Verif.Lattice.C07_two_taps_accepted",
    "Verif.Lattice.C07_gain_lost_false"
   ],
   "note": "The full property (convolution with b) is false: from_filter drops the gain b[0] (C07_gain_lost_false). Proved for every accepted tap vector and every history: convolution with b/b[0], hence the full property for b[0] = 1."
  },
  {
   "property": "C08",
   "status": "partial",
   "theorems": [
    "Verif.Lattice.C08_lattice_iir_partial",
    "Verif.Lattice.C08_length_mismatch_raises",
    "Verif.Lattice.C08_unnormalised_false",
    "Verif.Lattice.C08_lattice_sos_partial",
    "Verif.Lattice.C08_sos_unnormalised_raises_false",
    "Verif.Lattice.C08_six_sections_mixed",
    "Verif.Lattice.C08_single_section",
    "Verif.Lattice.C08_block_equals_samples"
   ],
   "note": "Proved for every order with a[0] = 1 and no reflection coefficient of modulus 1, and for cascades of normalised second-order sections; a[0] != 1 is not normalised (C08_unnormalised_false) and unnormalised cascades raise (C08_sos_unnormalised_raises_false)."
  },
  {
   "property": "C09",
   "status": "partial",
   "theorems": [
    "Verif.BlockFIR.C09_overlap_save_partial",
    "Verif.BlockFIR.C09_even_total",
    "Verif.BlockFIR.C09_odd_length_false"
   ],
   "note": "Proved for every history whenever next_fast_len(len(fir)+B) is even; for odd lengths the property is false because irfft is called without the length (C09_odd_length_false). The DFTs are modelled by their formulas over the complex numbers."
  },
  {
   "property": "C10",
   "status": "partial",
   "theorems": [
    "Verif.BlockFIR.C10_partitioned_partial",
    "Verif.BlockFIR.C10_multichannel",
    "Verif.BlockFIR.C10_multichannel_object_partial",
    "Verif.BlockFIR.C10_multichannel_normalised_false",
    "Verif.BlockFIR.C10_two_channels_false"
   ],
   "note": "FIRUniformPartitioned: proved for histories using a single channel; with several channels in turn it is false (C10_two_channels_false, shared buffer index). Multichannel class: the convolution with the stored coefficients is proved in full, but the constructor normalises coefficients above one (C10_multichannel_normalised_false), so the object is correct for coefficients up to one (C10_multichannel_object_partial)."
  },
  {
   "property": "C11",
   "status": "partial",
   "theorems": [
    "Verif.LFilter.C11_any_cut_partial",
    "Verif.LFilter.C11_from_rest_partial",
    "Verif.LFilter.C11_single_tap_state_false"
   ],
   "note": "Proved for at least two taps, all states and all cuttings into nonempty blocks. With one tap the property is false: the final state is the whole output (C11_single_tap_state_false)."
  },
  {
   "property": "C12",
   "status": "partial",
   "theorems": [
    "Verif.LFilter.C12_block_routines_cut",
    "Verif.LFilter.C12_first_order_mono_partial",
    "Verif.LFilter.C12_state_lost_false",
    "Verif.LFilter.C12_counterexample_false",
    "Verif.LFilter.C12_state_transposed_false",
    "Verif.LFilter.C12_sos_state_lost_false",
    "Verif.LFilter.C12_sos_second_call_raises_false"
   ],
   "note": "False except for first-order filters on one channel (proved): the state array is stored with swapped axes, so it is lost, transposed or makes the next call raise (general theorems and a counterexample)."
  },
  {
   "property": "C13",
   "status": "proved",
   "theorems": [
    "Verif.StateSpace.C13_state_space_padded",
    "Verif.StateSpace.C13_state_space_history",
    "Verif.StateSpace.C13_low_order_raises",
    "Verif.StateSpace.C13_short_numerator_false"
   ],
   "note": "scipy.signal.tf2ss is modelled from its documentation (controller canonical form, numerator padded in front). C13_short_numerator_false records that a numerator shorter than the denominator gives a delayed filter."
  },
  {
   "property": "C14",
   "status": "partial",
   "theorems": [
    "Verif.SignalData.C14_peak_is_largest",
    "Verif.SignalData.C14_assignment",
    "Verif.SignalData.C14_invariants_partial",
    "Verif.SignalData.C14_imaginary_bounded_partial",
    "Verif.SignalData.C14_imaginary_unbounded",
    "Verif.SignalData.C14_scale_factor_forgotten",
    "Verif.SignalData.C14_single_sample_raises",
    "Verif.SignalData.C14_constrain_drops_imaginary"
   ],
   "note": "Shape and real-part bound for every history, scaled-copy property for every assignment. False of the code: assigned imaginary data is not constrained; the scale factor is forgotten when the constraint is switched on again; a 1-sample 1-channel signal raises."
  },
  {
   "property": "C15",
   "status": "partial",
   "theorems": [
    "Verif.Cache.C15_fresh_partial",
    "Verif.Cache.C15_cache_on_partial",
    "Verif.Cache.C15_cache_off",
    "Verif.Cache.C15_configuration_partial",
    "Verif.Cache.C15_configuration_history",
    "Verif.Cache.C15_scaling_lost",
    "Verif.Cache.C15_stale_after_smoothing",
    "Verif.Cache.C15_stale_after_plot",
    "Verif.Cache.C15_stale_after_group_delay",
    "Verif.Cache.C15_stale_after_window",
    "Verif.Cache.C15_stale_spectrogram",
    "Verif.Cache.C15_not_always_fresh"
   ],
   "note": "True for every history with the cache off and for every safe history with the cache on; five kinds of history return stale results (theorems C15_stale_*). The parameters in force after a history are proved, except that a get_csm call that raises leaves the scaling changed (C15_scaling_lost)."
  },
  {
   "property": "C16",
   "status": "partial",
   "theorems": [
    "Verif.Cache.C16_spectrum_config",
    "Verif.Cache.C16_csm_config_partial",
    "Verif.Cache.C16_plot_config",
    "Verif.Cache.C16_spectrum_idempotent",
    "Verif.Cache.C16_spectrogram_idempotent_partial",
    "Verif.Cache.C16_csm_idempotent_partial",
    "Verif.Cache.C16_csm_leaves_scaling_switched"
   ],
   "note": "get_spectrum and get_spectrogram for every state; get_csm except for windowed signals with physical FFT scaling, where it raises and leaves the scaling switched."
  },
  {
   "property": "C17",
   "status": "partial",
   "theorems": [
    "Verif.SignalData.C17_pad_trim_entries",
    "Verif.SignalData.C17_round_trip",
    "Verif.SignalData.C17_signal_partial",
    "Verif.SignalData.C17_short_is_transposed",
    "Verif.SignalData.C17_one_sample_raises",
    "Verif.SignalData.C17_imaginary_lost"
   ],
   "note": "Arrays: full (C17_pad_trim_entries, C17_round_trip). Signals: proved for real signals whose new length is not below the number of channels; shorter results are transposed, one sample raises, imaginary parts are lost (negations proved)."
  },
  {
   "property": "C18",
   "status": "partial",
   "theorems": [
    "Verif.SignalData.C18_append_partial",
    "Verif.SignalData.C18_append_raises",
    "Verif.SignalData.C18_bands_wrong"
   ],
   "note": "Proved for signals with at least as many samples as channels in total; multiband signals use band 0 of the first signal for every band (C18_bands_wrong)."
  },
  {
   "property": "C19",
   "status": "partial",
   "theorems": [
    "Verif.SignalData.C19_delay",
    "Verif.SignalData.C19_delay_raises",
    "Verif.SignalData.C19_imaginary_lost"
   ],
   "note": "Proved for the real part; an imaginary part is lost (C19_imaginary_lost)."
  },
  {
   "property": "C20",
   "status": "partial",
   "theorems": [
    "Verif.SignalData.C20_rounding",
    "Verif.SignalData.C20_modify_length_partial",
    "Verif.SignalData.C20_modify_length_raises",
    "Verif.SignalData.C20_level_span",
    "Verif.SignalData.C20_level_result_partial",
    "Verif.SignalData.C20_time_inclusive_partial",
    "Verif.SignalData.C20_time_exclusive_partial",
    "Verif.SignalData.C20_time_start_off_grid",
    "Verif.SignalData.C20_time_exclusive_start_zero",
    "Verif.SignalData.C20_time_end_zero"
   ],
   "note": "Level trim: C20_level_span holds for every successful call. Times: proved for an inclusive start on the sample grid and an exclusive end on the grid; off-grid bounds, start 0 exclusive and end 0 behave differently (counterexamples proved). Results shorter than the channel count are excluded."
  },
  {
   "property": "C21",
   "status": "partial",
   "theorems": [
    "Verif.Framing.C21_keep",
    "Verif.Framing.C21_no_keep_partial",
    "Verif.Framing.C21_no_keep_drops_last",
    "Verif.Framing.C21_no_keep_short"
   ],
   "note": "With the last frames kept: full (C21_keep). Without: all returned frames are complete frames, but the last complete one is missing whenever the step divides L - W (C21_no_keep_drops_last)."
  },
  {
   "property": "C22",
   "status": "partial",
   "theorems": [
    "Verif.Framing.C22_reconstruct_partial",
    "Verif.Framing.C22_first_sample_lost",
    "Verif.Framing.C22_double_total"
   ],
   "note": "Proved in exact arithmetic for every non-empty signal, window and step (the result is x[j]*S/max(S,threshold)). In double precision the output length is one too small for single frames of some sizes (C22_double_total)."
  },
  {
   "property": "C23",
   "status": "partial",
   "theorems": [
    "Verif.Polyphase.C23_round_trip_partial",
    "Verif.Polyphase.C23_padding_wrong",
    "Verif.Polyphase.C23_downsample_partial",
    "Verif.Polyphase.C23_downsample_aligned",
    "Verif.Polyphase.C23_downsample_misaligned",
    "Verif.Polyphase.C23_downsample_short_empty",
    "Verif.Polyphase.C23_upsample",
    "Verif.Polyphase.C23_upsample_short_empty",
    "Verif.Polyphase.C23_iir_downsample",
    "Verif.Polyphase.C23_iir_upsample",
    "Verif.Polyphase.C23_resample"
   ],
   "note": "Reconstruction and upsampling proved (reported padding wrong when nothing is padded, short filters return nothing). Polyphase downsampling samples the filtered signal at k*D+phi; phi is the filter delay only in the aligned case. Recursive filters and the choice of the branch proved in full (C23_iir_downsample, C23_iir_upsample, C23_resample)."
  },
  {
   "property": "C24",
   "status": "proved",
   "theorems": [
    "Verif.Bytes24.C24_round_trip",
    "Verif.Bytes24.C24_rejects",
    "Verif.Bytes24.C24_unpack_pack",
    "Verif.Bytes24.C24_out_of_range"
   ],
   "note": "Both directions, both byte orders, signed and unsigned."
  },
  {
   "property": "C25",
   "status": "partial",
   "theorems": [
    "Verif.SampleFormat.C25_conversion_partial",
    "Verif.SampleFormat.C25_conversion_ieee_partial",
    "Verif.SampleFormat.C25_single_to_32_bits_wrong",
    "Verif.SampleFormat.C25_rejects",
    "Verif.SampleFormat.C25_float_round_trip_partial",
    "Verif.SampleFormat.C25_lowest_clipped",
    "Verif.SampleFormat.C25_unsigned_double_wrong",
    "Verif.SampleFormat.C25_signed_double",
    "Verif.SampleFormat.C25_signed_single",
    "Verif.SampleFormat.C25_widening_loses",
    "Verif.SampleFormat.C25_widening_partial",
    "Verif.SampleFormat.C25_single_values",
    "Verif.SampleFormat.C25_opposite",
    "Verif.SampleFormat.C25_float_bytes_raise"
   ],
   "note": "The general conversion theorem excludes single precision to 32 bits, where full scale leaves the range (C25_single_to_32_bits_wrong). Round trips of signed formats through f64 (and f32 up to 24 bits) are exact with IEEE rounding; unsigned round trips and widening round trips fail in double precision, and are proved in exact arithmetic only (C25_float_round_trip_partial, C25_widening_partial)."
  },
  {
   "property": "C26",
   "status": "proved",
   "theorems": [
    "Verif.AR.C26_yule_walker",
    "Verif.AR.C26_every_order",
    "Verif.AR.C26_error_bounds",
    "Verif.AR.C26_never_aborts",
    "Verif.AR.C26_long_order_short_result",
    "Verif.AR.C26_stable",
    "Verif.AR.C26_yule_walker_stable"
   ],
   "note": "Exact arithmetic. Yule-Walker equations for every sequence and order; the estimation never aborts for a signal with a non-zero sample; all poles of the model are inside the unit circle. A zero variance (nan in the code) is represented by an error."
  },
  {
   "property": "C27",
   "status": "proved",
   "theorems": [
    "Verif.AR.C27_reflection_strict",
    "Verif.AR.C27_stable",
    "Verif.AR.C27_reflection_bounded",
    "Verif.AR.C27_residual_antitone",
    "Verif.AR.C27_total",
    "Verif.AR.C27_error_is_filter_output",
    "Verif.AR.C27_multichannel_shape"
   ],
   "note": "Exact arithmetic, any positive eps. Also proved: the kept prediction error is the output of the returned filter, the model is stable; multichannel arrays get len+1 rows (finding)."
  },
  {
   "property": "C28",
   "status": "proved",
   "theorems": [
    "Verif.Scaling.C28_conversion_correct",
    "Verif.Scaling.C28_round_trip",
    "Verif.Scaling.C28_via_intermediate",
    "Verif.Scaling.C28_self",
    "Verif.Scaling.C28_factors_inverse",
    "Verif.Scaling.C28_power_is_square"
   ],
   "note": "Exact arithmetic; hypotheses: positive transform length, sampling rate and window sums."
  },
  {
   "property": "C29",
   "status": "partial",
   "theorems": [
    "Verif.Scaling.C29_length_checked",
    "Verif.Scaling.C29_psd_integrates_to_power",
    "Verif.Scaling.C29_psd_windowed",
    "Verif.Scaling.C29_asd_squared_integrates",
    "Verif.Scaling.C29_power_spectrum_sums",
    "Verif.Scaling.C29_amplitude_spectrum_is_rms",
    "Verif.Scaling.C29_padding_loses_power"
   ],
   "note": "Sums of PSD, ASD and power spectrum and RMS of a cosine proved for even and odd transform lengths equal to the signal length; C29_padding_loses_power: the default padding to a fast length makes the power too small."
  },
  {
   "property": "C30",
   "status": "partial",
   "theorems": [
    "Verif.Level.C30_from_to",
    "Verif.Level.C30_floor",
    "Verif.Level.C30_to_from",
    "Verif.Level.C30_monotone",
    "Verif.Level.C30_dynamic_range_partial",
    "Verif.Level.C30_silent_dynamic_range",
    "Verif.Level.C30_power_level",
    "Verif.Level.C30_amplify"
   ],
   "note": "Exact arithmetic. The dynamic range clamps for arrays with a non-zero entry; a silent array gives -inf despite it (C30_silent_dynamic_range)."
  },
  {
   "property": "C31",
   "status": "partial",
   "theorems": [
    "Verif.Level.C31_level_reached",
    "Verif.Level.C31_peak_reached",
    "Verif.Level.C31_shape_kept",
    "Verif.Level.C31_idempotent",
    "Verif.Level.C31_rms_reached_partial",
    "Verif.Level.C31_rms_not_reached",
    "Verif.Level.C31_signal",
    "Verif.Level.C31_constrained_target_not_reached"
   ],
   "note": "Peak level and standard deviation reach the target; the RMS does only without constant offset (C31_rms_not_reached), and constrained signals do not reach targets above 0 dBFS."
  },
  {
   "property": "C32",
   "status": "partial",
   "theorems": [
    "Verif.Fade.C32_fade_partial",
    "Verif.Fade.C32_only_attenuates",
    "Verif.Fade.C32_rejected",
    "Verif.Fade.C32_signal_too_long_rejected",
    "Verif.Fade.C32_no_fade",
    "Verif.Fade.C32_one_sample_fade",
    "Verif.Fade.C32_zero_sample_fade"
   ],
   "note": "Fades of at least two samples; C32_one_sample_fade and C32_zero_sample_fade show what fails below."
  },
  {
   "property": "C33",
   "status": "partial",
   "theorems": [
    "Verif.Calibration.C33_factors_never_stale",
    "Verif.Calibration.C33_calibrates",
    "Verif.Calibration.C33_reference_std",
    "Verif.Calibration.C33_reference_rms_partial",
    "Verif.Calibration.C33_offset_exceeds_reference",
    "Verif.Calibration.C33_low_snr_always_fails",
    "Verif.Calibration.C33_mismatch_rejected",
    "Verif.Calibration.C33_assigned_level_is_ignored",
    "Verif.Calibration.C33_bands"
   ],
   "note": "Proved for high_snr recordings without constant offset; C33_offset_exceeds_reference, C33_low_snr_always_fails are the counterexamples. Invariant over all call histories in C33_factors_never_stale."
  },
  {
   "property": "C34",
   "status": "partial",
   "theorems": [
    "Verif.Biquad.C34_stable",
    "Verif.Biquad.C34_gains_partial",
    "Verif.Biquad.C34_phase",
    "Verif.Biquad.C34_inverter_does_not_invert",
    "Verif.Biquad.C34_nyquist_not_stable",
    "Verif.Bank.C34_impulse_response"
   ],
   "note": "Stability for all designs strictly inside the band; exact gains at DC, centre and Nyquist for all types except that the type Inverter has positive gain (C34_inverter_does_not_invert). At Nyquist itself a design can have a pole on the unit circle (C34_nyquist_not_stable), outside the statement."
  },
  {
   "property": "C35",
   "status": "proved",
   "theorems": [
    "Verif.Biquad.C35_constant_magnitude",
    "Verif.Biquad.C35_phase",
    "Verif.Biquad.C35_peaking_is_not_allpass"
   ],
   "note": ""
  },
  {
   "property": "C36",
   "status": "partial",
   "theorems": [
    "Verif.Bank.C36_sequential",
    "Verif.Bank.C36_parallel",
    "Verif.Bank.C36_summed",
    "Verif.Bank.C36_collapse_is_summed",
    "Verif.Bank.C36_tf_partial",
    "Verif.Bank.C36_tf_summed_wrong",
    "Verif.Bank.C36_fir_impulse_response",
    "Verif.Bank.C36_summed_constrained_wrong",
    "Verif.Bank.C36_stable_response"
   ],
   "note": "Modes proved against power series transfer functions for unconstrained signals; for stable filters the transform of the impulse response is get_transfer_function at every point of the unit circle (C36_stable_response); collapse = summed for all signals; false parts proved: summed transfer function is off by one, amplitude constrained outputs are normalised one by one before the sum"
  },
  {
   "property": "C37",
   "status": "partial",
   "theorems": [
    "Verif.Bands.C37_bands_consistent",
    "Verif.Bands.C37_rejected_partial",
    "Verif.Bands.C37_reports_partial",
    "Verif.Bands.C37_reports_after_success",
    "Verif.Bands.C37_swap_is_permutation",
    "Verif.Bands.C37_add_remove",
    "Verif.Bands.C37_rejected_front_wrong",
    "Verif.Bands.C37_rejected_rate_wrong",
    "Verif.Bands.C37_flag_unchecked",
    "Verif.Bands.C37_filters_consistent",
    "Verif.Bands.C37_filter_rejected_partial",
    "Verif.Bands.C37_filter_moves",
    "Verif.Bands.C37_filter_rejected_wrong",
    "Verif.Bands.C37_lengths",
    "Verif.Bands.C37_multirate_lengths",
    "Verif.Bands.C37_bands_are_signals",
    "Verif.Bands.C37_metadata",
    "Verif.Bands.C37_length_after_flag_wrong"
   ],
   "note": "Consistency of bands and filters proved for all histories; reports and atomicity proved except for rejected assignments / insertions before the first band and multirate or empty banks, where the code is proved to change its reports; the flag same_sampling_rate is not checked when switched"
  },
  {
   "property": "C38",
   "status": "partial",
   "theorems": [
    "Verif.Collapse.C38_result_is_sum",
    "Verif.Collapse.C38_unaltered_partial",
    "Verif.Collapse.C38_first_band_overwritten",
    "Verif.Collapse.C38_unaltered_iff",
    "Verif.Collapse.C38_second_collapse_wrong"
   ],
   "note": "Result proved for all inputs; complex bands proved unaltered; for real bands the property is false (first band overwritten), with an exact characterisation"
  },
  {
   "property": "C39",
   "status": "partial",
   "theorems": [
    "Verif.Collapse.C39_swap",
    "Verif.Collapse.C39_swap_undone",
    "Verif.Collapse.C39_remove",
    "Verif.Collapse.C39_get_partial",
    "Verif.Collapse.C39_sum",
    "Verif.Collapse.C39_get_transposes",
    "Verif.Collapse.C39_add_partial",
    "Verif.Collapse.C39_add_rejects",
    "Verif.Collapse.C39_add_drops_imaginary",
    "Verif.Collapse.C39_add_transposes"
   ],
   "note": "get_channels needs at most as many requested channels as samples (otherwise the code transposes, proved); the Spectrum class is C146"
  },
  {
   "property": "C40",
   "status": "partial",
   "theorems": [
    "Verif.Spectrum.C40_inclusive",
    "Verif.Spectrum.C40_exclusive_partial",
    "Verif.Spectrum.C40_exclusive_loses_bin",
    "Verif.Spectrum.C40_rejected_partial",
    "Verif.Spectrum.C40_rejected_breaks",
    "Verif.Spectrum.C40_above_last_raises"
   ],
   "note": "Proved for bins on the grid and inclusive limits. Negations proved: an exclusive lower limit off the grid loses the first bin inside; trimming to fewer bins than channels raises after the frequency vector was shortened; a lower limit above the last bin raises IndexError."
  },
  {
   "property": "C41",
   "status": "proved",
   "theorems": [
    "Verif.Spectrum.C41_energy_is_integral",
    "Verif.Spectrum.C41_additive",
    "Verif.Spectrum.C41_nonneg",
    "Verif.Spectrum.C41_monotone",
    "Verif.Spectrum.C41_gain"
   ],
   "note": "Energy equals the trapezoidal area between the selected bins and is additive over adjacent bands."
  },
  {
   "property": "C42",
   "status": "partial",
   "theorems": [
    "Verif.Spectrum.C42_interp_at_bin",
    "Verif.Spectrum.C42_interp_between",
    "Verif.Spectrum.C42_own_bins_partial",
    "Verif.Spectrum.C42_complex_output_wrong",
    "Verif.Spectrum.C42_magnitude_between",
    "Verif.Spectrum.C42_same_divisor",
    "Verif.Spectrum.C42_normalized",
    "Verif.Spectrum.C42_extend_raises"
   ],
   "note": "Linear scheme, all domains and edge handlings. Negations proved: complex output in the power domain is the power of the bin; extend/error edges raise with several channels. Normalisation excludes frequencies outside the range with edges padded by ones. Spline schemes are scipy and not modelled."
  },
  {
   "property": "C43",
   "status": "partial",
   "theorems": [
    "Verif.CSM.C43_welch_hermitian",
    "Verif.CSM.C43_welch_posSemidef_partial",
    "Verif.CSM.C43_welch_accepts",
    "Verif.CSM.C43_single_frame_raises",
    "Verif.CSM.C43_fft_backward",
    "Verif.CSM.C43_fft_power",
    "Verif.CSM.C43_fft_window_raises",
    "Verif.CSM.C43_fft_amplitude_not_hermitian",
    "Verif.CSM.C43_median_not_posSemidef"
   ],
   "note": "Welch with mean and power scaling, and FFT with power or backward scaling: Hermitian and positive semidefinite for all signals. Negations proved: FFT matrices with amplitude scalings are not Hermitian (root of every entry), medians are not positive semidefinite, a signal of at most one frame step raises, FFT with a window and several channels raises."
  },
  {
   "property": "C44",
   "status": "partial",
   "theorems": [
    "Verif.Smoothing.C44_factor",
    "Verif.Smoothing.C44_range",
    "Verif.Smoothing.C44_constant",
    "Verif.Smoothing.C44_monotone",
    "Verif.Smoothing.C44_accepts",
    "Verif.Smoothing.C44_step_response",
    "Verif.Smoothing.C44_realtime_range_partial",
    "Verif.Smoothing.C44_realtime_constant",
    "Verif.Smoothing.C44_realtime_multichannel"
   ],
   "note": "Proved for time_smoothing (both branches, all shapes and times): range, constants, monotonicity, step response. The realtime filter only stays in the interval spanned by the input and 0, because it starts at 0; it raises with several channels (proved)."
  },
  {
   "property": "C45",
   "status": "proved",
   "theorems": [
    "Verif.Helpers.C45_nearest",
    "Verif.Helpers.C45_empty"
   ],
   "note": "First index of minimal distance for every query and every non-empty vector."
  },
  {
   "property": "C46",
   "status": "proved",
   "theorems": [
    "Verif.Helpers.C46_range",
    "Verif.Helpers.C46_turns",
    "Verif.Helpers.C46_identity",
    "Verif.Helpers.C46_unique",
    "Verif.Helpers.C46_idempotent"
   ],
   "note": "Exact real arithmetic; range, whole turns, identity, uniqueness."
  },
  {
   "property": "C47",
   "status": "partial",
   "theorems": [
    "Verif.Helpers.C47_floor",
    "Verif.Helpers.C47_ceil",
    "Verif.Helpers.C47_closest_partial",
    "Verif.Helpers.C47_closest_wrong",
    "Verif.Helpers.C47_below_one"
   ],
   "note": "floor and ceil proved (exact logarithm); closest is nearest in the logarithm, within a factor sqrt 2. Negations proved: 23 gives 32 although 16 is nearer; numbers below 1 raise."
  },
  {
   "property": "C48",
   "status": "partial",
   "theorems": [
    "Verif.Latency.C48_pair",
    "Verif.Latency.C48_two_signals",
    "Verif.Latency.C48_one_signal_partial",
    "Verif.Latency.C48_one_signal_reversed",
    "Verif.Latency.C48_reversed_example",
    "Verif.Latency.C48_trimmed_copy",
    "Verif.Latency.C48_silence"
   ],
   "note": "Exact for any integer delay (or advance) when no sample is lost and the signal is not silent, per pair of channels, for two signals and for one signal with two channels. Disagreement proved: one signal with three or more channels returns the delays in reversed order. Trimmed copies and silence give other values (witnesses). Correlation coefficients: C130."
  },
  {
   "property": "C49",
   "status": "proved",
   "theorems": [
    "Verif.Helpers.C49_convolution",
    "Verif.Helpers.C49_raises"
   ],
   "note": "Shape and product with every vector equal the full convolution."
  },
  {
   "property": "C50",
   "status": "proved",
   "theorems": [
    "Verif.Bank.C50_merged_is_cascade",
    "Verif.Bank.C50_merged_fir",
    "Verif.Bank.C50_sections_convert",
    "Verif.Bank.C50_signals",
    "Verif.Bank.C50_accepted"
   ],
   "note": "For lists of FIR filters without further assumption; for IIR filters given in sections likewise; filters stored as b, a need that scipy's tf2sos keeps the transfer function (hypothesis ConvertsWell). Acceptance of lists characterised."
  },
  {
   "property": "C51",
   "status": "partial",
   "theorems": [
    "Verif.Gain.C51_signal",
    "Verif.Gain.C51_multiband",
    "Verif.Gain.C51_imaginary_lost",
    "Verif.Gain.C51_filter",
    "Verif.Gain.C51_bank_parallel",
    "Verif.Gain.C51_bank_single",
    "Verif.Gain.C51_bank_rejects",
    "Verif.Gain.C51_compose",
    "Verif.Gain.C51_values"
   ],
   "note": "Real parts of signals and multiband signals, filters and filter banks in all modes; gains add in dB. Disagreement proved: the imaginary part of a complex signal is lost. Filters get a single gain in the model."
  },
  {
   "property": "C52",
   "status": "partial",
   "theorems": [
    "Verif.Memory.C52_signal_partial",
    "Verif.Memory.C52_signal_modified",
    "Verif.Memory.C52_signal_data",
    "Verif.Memory.C52_signal_shares_memory",
    "Verif.Memory.C52_iir_iff",
    "Verif.Memory.C52_iir_modified",
    "Verif.Memory.C52_iir_from_filter",
    "Verif.Memory.C52_warped",
    "Verif.Memory.C52_window_iff",
    "Verif.Memory.C52_reconstruct_modified",
    "Verif.Memory.C52_window_second_call"
   ],
   "note": "Heap model. Proved: unchanged without constraint or below full scale, exact conditions for IIRFilter and window. Disagreements proved: constructor divides the caller's array above full scale, keeps a view, IIRFilter(b, a) normalises in place, window envelope squares the window, reconstruction overwrites the frames."
  },
  {
   "property": "C53",
   "status": "partial",
   "theorems": [
    "Verif.FilterCoeffs.C53_kinds_partial",
    "Verif.FilterCoeffs.C53_one_kind",
    "Verif.FilterCoeffs.C53_three_kinds",
    "Verif.FilterCoeffs.C53_fir_iff",
    "Verif.FilterCoeffs.C53_same_filter",
    "Verif.FilterCoeffs.C53_sections_are_iir",
    "Verif.FilterCoeffs.C53_fir_section_is_iir",
    "Verif.FilterCoeffs.C53_order_counts_trailing_zeros",
    "Verif.FilterCoeffs.C53_order_ba",
    "Verif.FilterCoeffs.C53_order_sos"
   ],
   "note": "Zero or two kinds rejected, one accepted; FIR iff single leading coefficient for b, a; same difference equation. Disagreements proved: three kinds accepted, FIR sections count as IIR, order counts trailing zeros."
  },
  {
   "property": "C54",
   "status": "partial",
   "theorems": [
    "Verif.Distortion.C54_accepts",
    "Verif.Distortion.C54_single_peak_partial",
    "Verif.Distortion.C54_defined",
    "Verif.Distortion.C54_peak_bound_partial",
    "Verif.Distortion.C54_scale_invariant",
    "Verif.Distortion.C54_mix_ignored",
    "Verif.Distortion.C54_peak_doubled",
    "Verif.Distortion.C54_curve_monotone",
    "Verif.Distortion.C54_soft_clip_partial",
    "Verif.Distortion.C54_soft_clip_folds",
    "Verif.Distortion.C54_silence"
   ],
   "note": "Peak preserved exactly for one distortion; for several the mix percentages are overwritten by the peak restoration (C54_mix_ignored), the sum of several is not restored (C54_peak_doubled), soft clipping folds (C54_soft_clip_folds), silent channels give nan (C54_silence)."
  },
  {
   "property": "C55",
   "status": "partial",
   "theorems": [
    "Verif.Compressor.C55_curve_down",
    "Verif.Compressor.C55_curve_up",
    "Verif.Compressor.C55_float_branch_wrong",
    "Verif.Compressor.C55_float_branch",
    "Verif.Compressor.C55_never_louder",
    "Verif.Compressor.C55_never_quieter",
    "Verif.Compressor.C55_below_threshold",
    "Verif.Compressor.C55_static_level",
    "Verif.Compressor.C55_onset_uses_release",
    "Verif.Compressor.C55_release_time",
    "Verif.Compressor.C55_make_up_gain_partial",
    "Verif.Compressor.C55_pre_gain_twice",
    "Verif.Compressor.C55_post_gain_and_mix_ignored",
    "Verif.Compressor.C55_threshold_at_peak"
   ],
   "note": "Curve, never louder/quieter, static level proved; attack and release are swapped, the post gain stage applies the pre gain, mix is ignored, the floating point branch of the curve is wrong, a threshold at the peak gives nan (all proved negations)."
  },
  {
   "property": "C56",
   "status": "partial",
   "theorems": [
    "Verif.Echo.C56_echoes",
    "Verif.Echo.C56_saturated",
    "Verif.Echo.C56_arctan",
    "Verif.Echo.C56_bounded",
    "Verif.Echo.C56_feedback_not_constrained",
    "Verif.Echo.C56_none_raises",
    "Verif.Echo.C56_callable_raises",
    "Verif.Echo.C56_zero_delay",
    "Verif.Echo.C56_silence",
    "Verif.Echo.C56_tail"
   ],
   "note": "Echoes and bound proved; invalid feedback is not rejected, saturation None and callables raise, zero delay does not lengthen, silence gives nan (proved negations)."
  },
  {
   "property": "C57",
   "status": "partial",
   "theorems": [
    "Verif.Echo.C57_range",
    "Verif.Echo.C57_defined",
    "Verif.Echo.C57_periodic",
    "Verif.Echo.C57_prefix_partial",
    "Verif.Echo.C57_tremolo",
    "Verif.Echo.C57_tremolo_accepts",
    "Verif.Echo.C57_smooth_square_exceeds",
    "Verif.Echo.C57_triangle_depends_on_length",
    "Verif.Echo.C57_sawtooth",
    "Verif.Echo.C57_harmonic_square"
   ],
   "note": "Range, periodicity, prefix independence for the waveforms where they hold; smooth square exceeds 1, smooth triangle depends on the length (proved negations)."
  },
  {
   "property": "C58",
   "status": "partial",
   "theorems": [
    "Verif.Echo.C58_peak_and_length",
    "Verif.Echo.C58_copies_partial",
    "Verif.Echo.C58_advances_instead_of_delaying",
    "Verif.Echo.C58_voices_partial",
    "Verif.Echo.C58_voices_broken",
    "Verif.Echo.C58_silence"
   ],
   "note": "Length and peak; the copies read the future instead of the past, several voices with per-voice parameters fail (proved negations)."
  },
  {
   "property": "C59",
   "status": "partial",
   "theorems": [
    "Verif.Rhythm.C59_inverse",
    "Verif.Rhythm.C59_unknown_raises",
    "Verif.Rhythm.C59_sixty_partial",
    "Verif.Rhythm.C59_tempo_inverted",
    "Verif.Rhythm.C59_thirty_second_is_triplet"
   ],
   "note": "Inverse relation and rejection hold always; the duration is right only at 60 bpm (tempo inverted, proved), and '32th' is treated as a triplet (proved)."
  },
  {
   "property": "C60",
   "status": "partial",
   "theorems": [
    "Verif.Distances.C60_lsd_symmetric",
    "Verif.Distances.C60_lsd_zero_iff",
    "Verif.Distances.C60_lsd_triangle",
    "Verif.Distances.C60_normalized_level_invariant",
    "Verif.Distances.C60_upper_bin_ignored",
    "Verif.Distances.C60_is_partial",
    "Verif.Distances.C60_is_negative",
    "Verif.Distances.C60_sisdr_energy",
    "Verif.Distances.C60_sisdr_scale",
    "Verif.Distances.C60_segmental_range",
    "Verif.Distances.C60_integration",
    "Verif.Distances.C60_range"
   ],
   "note": "Metric properties, level invariance, SI-SDR and range proved; the Itakura-Saito measure is negative for attenuated copies (decadic logarithm, proved), the upper bin is ignored (proved)."
  },
  {
   "property": "C61",
   "status": "partial",
   "theorems": [
    "Verif.Room.C61_start",
    "Verif.Room.C61_start_level",
    "Verif.Room.C61_d50",
    "Verif.Room.C61_d50_defined",
    "Verif.Room.C61_c80",
    "Verif.Room.C61_level",
    "Verif.Room.C61_silence_start_partial",
    "Verif.Room.C61_silence_partial",
    "Verif.Room.C61_silence_start_early",
    "Verif.Room.C61_silence_changes_d50",
    "Verif.Room.C61_center_time_partial",
    "Verif.Room.C61_center_time_wrong"
   ],
   "note": "Center time too long by L/(L-1) (C61_center_time_wrong); silence before a response that starts above the threshold changes start and D50 (C61_silence_start_early, C61_silence_changes_d50)."
  },
  {
   "property": "C62",
   "status": "partial",
   "theorems": [
    "Verif.Room.C62_straight_partial",
    "Verif.Room.C62_too_long",
    "Verif.Room.C62_ir_start_ignored",
    "Verif.Room.C62_only_range_counts",
    "Verif.Room.C62_curve",
    "Verif.Room.C62_curve_length",
    "Verif.Room.C62_fit_coefficients_swapped",
    "Verif.Room.C62_compensation_wrong",
    "Verif.Room.C62_corrections_wrong",
    "Verif.Room.C62_decay_time_partial"
   ],
   "note": "Too long by L/(L-1) (C62_too_long); ir_start ignored (C62_ir_start_ignored); compensation wrong (C62_compensation_wrong, C62_corrections_wrong)."
  },
  {
   "property": "C63",
   "status": "partial",
   "theorems": [
    "Verif.Room.C63_created",
    "Verif.Room.C63_accepted",
    "Verif.Room.C63_round_trip",
    "Verif.Room.C63_both_raise",
    "Verif.Room.C63_shoebox",
    "Verif.Room.C63_in_room_partial",
    "Verif.Room.C63_negative_accepted",
    "Verif.Room.C63_modes",
    "Verif.Room.C63_detailed",
    "Verif.Room.C63_coefficients",
    "Verif.Room.C63_derived_stale",
    "Verif.Room.C63_dictionary_twice",
    "Verif.Room.C63_modal_density"
   ],
   "note": "Both quantities raise (C63_both_raise); negative coordinates accepted (C63_negative_accepted); derived values stale (C63_derived_stale); dictionary not reusable (C63_dictionary_twice)."
  },
  {
   "property": "C64",
   "status": "partial",
   "theorems": [
    "Verif.Room.C64_computed",
    "Verif.Room.C64_sum_partial",
    "Verif.Room.C64_never_more",
    "Verif.Room.C64_reflection_lost",
    "Verif.Room.C64_direct_lost",
    "Verif.Room.C64_reciprocity_partial",
    "Verif.Room.C64_direct_first",
    "Verif.Room.C64_long_room_raises",
    "Verif.Room.C64_transfer_reciprocal",
    "Verif.Room.C64_transfer_mirror",
    "Verif.Room.C64_walls_partial",
    "Verif.Room.C64_walls_exchanged",
    "Verif.Room.C64_spreading",
    "Verif.Room.C64_order",
    "Verif.Room.C64_modal_expansion"
   ],
   "note": "Coincident images lost (C64_reflection_lost, C64_direct_lost); IndexError for elongated rooms (C64_long_room_raises); walls exchanged (C64_walls_exchanged)."
  },
  {
   "property": "C65",
   "status": "partial",
   "theorems": [
    "Verif.CSM.C65_accepts",
    "Verif.CSM.C65_rejects",
    "Verif.CSM.C65_single_frame_raises",
    "Verif.CSM.C65_psd_power",
    "Verif.CSM.C65_mean_square",
    "Verif.CSM.C65_tone_power",
    "Verif.CSM.C65_norms",
    "Verif.CSM.C65_detrend",
    "Verif.CSM.C65_amplitude_factor",
    "Verif.CSM.C65_amplitude_wrong",
    "Verif.CSM.C65_padding_loses_power",
    "Verif.CSM.C65_median_wrong"
   ],
   "note": "Acceptance, power, tone, normalisations and detrending proved for the mean. Negations proved: single frames of one channel raise, amplitude scalings are not the roots of the power scalings (C65_amplitude_wrong), padding of the last frame loses power (C65_padding_loses_power), medians are n times too large (C65_median_wrong)."
  },
  {
   "property": "C66",
   "status": "partial",
   "theorems": [
    "Verif.Props.C66.C66_real_part",
    "Verif.Props.C66.C66_one_sided",
    "Verif.Props.C66.C66_cosine",
    "Verif.Props.C66.C66_signal_partial",
    "Verif.Props.C66.C66_rescaled",
    "Verif.Props.C66.C66_multiband",
    "Verif.Props.C66.C66_bands_add_up"
   ],
   "note": "Real part, one-sided spectrum and the cosine for every length proved for the complex time series; the Signal is this series up to one common factor, which is 1 unless the amplitude is constrained and the imaginary part leaves the range. C66_rescaled proves that the factor differs from 1 for a constrained signal. Multiband signals: C66_multiband, C66_bands_add_up."
  },
  {
   "property": "C67",
   "status": "partial",
   "theorems": [
    "Verif.Props.C67.C67_mid_side",
    "Verif.Props.C67.C67_left_right_partial",
    "Verif.Props.C67.C67_round_trip",
    "Verif.Props.C67.C67_reverse_round_trip_partial",
    "Verif.Props.C67.C67_rejects",
    "Verif.Props.C67.C67_reverse_loses_level"
   ],
   "note": "Left-right to mid-side and back proved exact for every stereo signal; the other order is exact for signals without constrained amplitude and false otherwise (C67_reverse_loses_level)."
  },
  {
   "property": "C68",
   "status": "proved",
   "theorems": [
    "Verif.Props.C68.C68_definition",
    "Verif.Props.C68.C68_fft_bins",
    "Verif.Props.C68.C68_zero_padding",
    "Verif.Props.C68.C68_negative",
    "Verif.Props.C68.C68_periodic",
    "Verif.Props.C68.C68_delay",
    "Verif.Props.C68.C68_linear"
   ],
   "note": "Exact arithmetic; the numba and the plain backend compute the same expression."
  },
  {
   "property": "C69",
   "status": "partial",
   "theorems": [
    "Verif.Props.C69.C69_defined",
    "Verif.Props.C69.C69_round_trip",
    "Verif.Props.C69.C69_signal_partial",
    "Verif.Props.C69.C69_level_lost",
    "Verif.Props.C69.C69_real",
    "Verif.Props.C69.C69_even",
    "Verif.Props.C69.C69_convolution",
    "Verif.Props.C69.C69_complex_not_additive"
   ],
   "note": "The recovered samples are the ones of the signal; the returned Signal scales them when they leave the range (C69_level_lost proves this for an impulse of height 2). Additivity proved for the real cepstrum and refuted for the complex one (C69_complex_not_additive)."
  },
  {
   "property": "C70",
   "status": "partial",
   "theorems": [
    "Verif.Props.C70.C70_scale",
    "Verif.Props.C70.C70_filters",
    "Verif.Props.C70.C70_heights",
    "Verif.Props.C70.C70_partition_of_unity",
    "Verif.Props.C70.C70_normalized_partial",
    "Verif.Props.C70.C70_too_many_bands",
    "Verif.Props.C70.C70_rejects"
   ],
   "note": "All parts proved except that every normalised row adds up to one: this holds for the resolved bands, the others are nan (C70_normalized_partial, C70_too_many_bands). A negative number of bands is not modelled."
  },
  {
   "property": "C71",
   "status": "partial",
   "theorems": [
    "Verif.Props.C71.C71_warped",
    "Verif.Props.C71.C71_zero_factor",
    "Verif.Props.C71.C71_linear",
    "Verif.Props.C71.C71_padding",
    "Verif.Props.C71.C71_frequencies",
    "Verif.Props.C71.C71_inverse_map",
    "Verif.Props.C71.C71_not_reversible",
    "Verif.Props.C71.C71_total_length_partial",
    "Verif.Props.C71.C71_total_length_ignored",
    "Verif.Props.C71.C71_reversible_limit_partial",
    "Verif.Props.C71.C71_signal",
    "Verif.Props.C71.C71_signal_refused",
    "Verif.Props.C71.C71_shift_one_early"
   ],
   "note": "All parts proved for every signal, factor, number of channels and length; warping back is exact only in the limit of zero padding, total_length does not extend, and the shift starts one sample early (negations proved)."
  },
  {
   "property": "C72",
   "status": "partial",
   "theorems": [
    "Verif.Props.C72.C72_inner_products",
    "Verif.Props.C72.C72_energy",
    "Verif.Props.C72.C72_reversible_limit_partial",
    "Verif.Props.C72.C72_frequencies",
    "Verif.Props.C72.C72_not_reversible"
   ],
   "note": "reversibility is false for every finite length; proved in the limit of zero padding"
  },
  {
   "property": "C73",
   "status": "partial",
   "theorems": [
    "Verif.Props.C73.C73_defined",
    "Verif.Props.C73.C73_response",
    "Verif.Props.C73.C73_stability",
    "Verif.Props.C73.C73_conjugates",
    "Verif.Props.C73.C73_back",
    "Verif.Props.C73.C73_gain_changes",
    "Verif.Props.C73.C73_factor_range",
    "Verif.Props.C73.C73_factor_checked",
    "Verif.Props.C73.C73_named_inverse",
    "Verif.Props.C73.C73_named_factors_wrong"
   ],
   "note": "named factors use Hz instead of kHz; gain at zero frequency is not kept"
  },
  {
   "property": "C74",
   "status": "partial",
   "theorems": [
    "Verif.Props.C74.C74_reconstruction_partial",
    "Verif.Props.C74.C74_default",
    "Verif.Props.C74.C74_no_padding_partial",
    "Verif.Props.C74.C74_lengths",
    "Verif.Props.C74.C74_one_sample_late",
    "Verif.Props.C74.C74_wrong_step",
    "Verif.Props.C74.C74_no_overlap_silent",
    "Verif.Props.C74.C74_density_error",
    "Verif.Props.C74.C74_amplitude_spectrum_mean",
    "Verif.Props.C74.C74_frequencies_partial",
    "Verif.Props.C74.C74_frequencies_wrong",
    "Verif.Props.C74.C74_times_stretched"
   ],
   "note": "Reconstruction proved for every signal and every length of the transform, even or odd, if the overlap is a whole number of samples and there is no detrending and no physical scaling; the other cases are characterised or refuted."
  },
  {
   "property": "C75",
   "status": "partial",
   "theorems": [
    "Verif.Beamforming.C75_distance",
    "Verif.Beamforming.C75_nearest",
    "Verif.Beamforming.C75_center",
    "Verif.Beamforming.C75_power",
    "Verif.Beamforming.C75_power_without_diagonal",
    "Verif.Beamforming.C75_true_power_without_diagonal",
    "Verif.Beamforming.C75_location",
    "Verif.Beamforming.C75_classic",
    "Verif.Beamforming.C75_nonneg",
    "Verif.Beamforming.C75_incoherent_sources",
    "Verif.Beamforming.C75_map_partial",
    "Verif.Beamforming.C75_classic_location",
    "Verif.Beamforming.C75_signals_partial",
    "Verif.Beamforming.C75_default_scaling_wrong",
    "Verif.Beamforming.C75_fft",
    "Verif.Beamforming.C75_maximum_elsewhere",
    "Verif.Beamforming.C75_band",
    "Verif.Beamforming.C75_band_single",
    "Verif.Beamforming.C75_band_nonempty",
    "Verif.Beamforming.C75_bands_tile",
    "Verif.Beamforming.C75_points"
   ],
   "note": "Distances, center, levels, location, positivity and additivity are proved for all arrays; the link to signals holds for power scalings and the FFT method, and is refuted for the default parameters (C75_default_scaling_wrong). Maps over bands: power times width except for single bins (C75_map_partial)."
  },
  {
   "property": "C76",
   "status": "partial",
   "theorems": [
    "Verif.Beamforming.C76_functional_one",
    "Verif.Beamforming.C76_functional_eigenvectors",
    "Verif.Beamforming.C76_functional_unique",
    "Verif.Beamforming.C76_functional_bounds",
    "Verif.Beamforming.C76_functional_source",
    "Verif.Beamforming.C76_mvdr_minimum",
    "Verif.Beamforming.C76_mvdr_level",
    "Verif.Beamforming.C76_mvdr_not_distortionless",
    "Verif.Beamforming.C76_orthogonal_map",
    "Verif.Beamforming.C76_orthogonal_bounds",
    "Verif.Beamforming.C76_orthogonal_source",
    "Verif.Beamforming.C76_orthogonal_overwrites",
    "Verif.Beamforming.C76_clean_source",
    "Verif.Beamforming.C76_clean_underestimates"
   ],
   "note": "The level of MVDR is wrong for every array (C76_mvdr_not_distortionless), the orthogonal beamformer overwrites (C76_orthogonal_overwrites), CLEAN-SC underestimates (C76_clean_underestimates). CLEAN-SC is proved for one source with equidistant microphones."
  },
  {
   "property": "C77",
   "status": "partial",
   "theorems": [
    "Verif.FractionalDelay.C77_kernel",
    "Verif.FractionalDelay.C77_fractional_delay",
    "Verif.FractionalDelay.C77_whole_samples",
    "Verif.FractionalDelay.C77_rejected",
    "Verif.FractionalDelay.C77_imaginary_lost"
   ],
   "note": "the imaginary part is lost (negation proved); integer arrays of channels"
  },
  {
   "property": "C78",
   "status": "partial",
   "theorems": [
    "Verif.Beamforming.C78_grid2D",
    "Verif.Beamforming.C78_map2D",
    "Verif.Beamforming.C78_map_refused",
    "Verif.Beamforming.C78_map3D",
    "Verif.Beamforming.C78_line",
    "Verif.Beamforming.C78_single_points",
    "Verif.Beamforming.C78_aperture",
    "Verif.Beamforming.C78_helmholtz",
    "Verif.Beamforming.C78_source",
    "Verif.Beamforming.C78_mix",
    "Verif.Beamforming.C78_mix_consumes",
    "Verif.Beamforming.C78_mix_trims",
    "Verif.Beamforming.C78_das_time_partial",
    "Verif.Beamforming.C78_simulated_level"
   ],
   "note": "single points rejected, caller's list changed, level of simulated sources wrong (negations proved); focus theorem for whole-sample delays"
  },
  {
   "property": "C79",
   "status": "partial",
   "theorems": [
    "Verif.LinkwitzRiley.C79_bands",
    "Verif.LinkwitzRiley.C79_sum",
    "Verif.LinkwitzRiley.C79_allpass",
    "Verif.LinkwitzRiley.C79_orders",
    "Verif.LinkwitzRiley.C79_impulse_response",
    "Verif.LinkwitzRiley.C79_crossing",
    "Verif.LinkwitzRiley.C79_ends",
    "Verif.LinkwitzRiley.C79_zero_phase_partial",
    "Verif.LinkwitzRiley.C79_zero_phase_second_order_wrong",
    "Verif.LinkwitzRiley.C79_stream_partial",
    "Verif.LinkwitzRiley.C79_stream_allpasses",
    "Verif.LinkwitzRiley.C79_stream_top",
    "Verif.LinkwitzRiley.C79_stream_constant",
    "Verif.LinkwitzRiley.C79_stream_silence_wrong",
    "Verif.LinkwitzRiley.C79_stream_three_wrong"
   ],
   "note": "Sum of the bands is an allpass for all supported orders and any number of crossovers, gains at the crossover and at both ends, zero phase without order 2, block-wise filtering for one and two crossovers; negations for zero phase with order 2, shared states from three crossovers on, and the unscaled initial state."
  },
  {
   "property": "C80",
   "status": "partial",
   "theorems": [
    "Verif.MatchedBiquad.C80_stable",
    "Verif.MatchedBiquad.C80_refused",
    "Verif.MatchedBiquad.C80_poles",
    "Verif.MatchedBiquad.C80_lowpass",
    "Verif.MatchedBiquad.C80_highpass",
    "Verif.MatchedBiquad.C80_bandpass",
    "Verif.MatchedBiquad.C80_peaking",
    "Verif.MatchedBiquad.C80_shelving",
    "Verif.MatchedBiquad.C80_zero_shelf_wrong",
    "Verif.MatchedBiquad.C80_zero_peak",
    "Verif.MatchedBiquad.C80_skirt_wrong",
    "Verif.MatchedBiquad.C80_minimum_phase"
   ],
   "note": "Existence, stability, poles and gains are proved for all parameters. The claims that a shelf of 0 dB is transparent and that the skirt bandpass has the gain q*g are false of the code (C80_zero_shelf_wrong, C80_skirt_wrong)."
  },
  {
   "property": "C81",
   "status": "partial",
   "theorems": [
    "Verif.Deconv.C81_exact_partial",
    "Verif.Deconv.C81_recording_partial",
    "Verif.Deconv.C81_regularised_partial",
    "Verif.Deconv.C81_refused",
    "Verif.Deconv.C81_range",
    "Verif.Deconv.C81_fast_length_wrong",
    "Verif.Deconv.C81_power_wrong",
    "Verif.Deconv.C81_nyquist_wrong",
    "Verif.Deconv.C81_first_channel_wrong"
   ],
   "note": "exact under the hypotheses that exclude the four counterexamples proved beside it"
  },
  {
   "property": "C82",
   "status": "partial",
   "theorems": [
    "Verif.TransferEstimate.C82_accepted_iff",
    "Verif.TransferEstimate.C82_columns",
    "Verif.TransferEstimate.C82_estimates_partial",
    "Verif.TransferEstimate.C82_coherence_partial",
    "Verif.TransferEstimate.C82_order_partial",
    "Verif.TransferEstimate.C82_output_noise_partial",
    "Verif.TransferEstimate.C82_input_noise_partial",
    "Verif.TransferEstimate.C82_gain_partial",
    "Verif.TransferEstimate.C82_default_scaling_wrong",
    "Verif.TransferEstimate.C82_polarity_wrong",
    "Verif.TransferEstimate.C82_default_coherence_wrong",
    "Verif.TransferEstimate.C82_median_coherence_wrong"
   ],
   "note": "power scalings and mean over segments; FFT scalings (the default) give square roots and the median breaks the bound of the coherence (proved negations); exact arithmetic"
  },
  {
   "property": "C83",
   "status": "partial",
   "theorems": [
    "Verif.WindowIR.C83_fixed_partial",
    "Verif.WindowIR.C83_adaptive_partial",
    "Verif.WindowIR.C83_accepts",
    "Verif.WindowIR.C83_refused",
    "Verif.WindowIR.C83_tukey",
    "Verif.WindowIR.C83_tukey_accepts",
    "Verif.WindowIR.C83_offset_wrong",
    "Verif.WindowIR.C83_adaptive_offset_wrong",
    "Verif.WindowIR.C83_ratio_wrong",
    "Verif.WindowIR.C83_start_wrong"
   ],
   "note": "peaks not before the offset, ratios up to two without adaptation; the other cases are wrong (proved negations); exact arithmetic"
  },
  {
   "property": "C84",
   "status": "partial",
   "theorems": [
    "Verif.CenteredIR.C84_window_partial",
    "Verif.CenteredIR.C84_position",
    "Verif.CenteredIR.C84_refused_wrong",
    "Verif.CenteredIR.C84_silence_wrong",
    "Verif.CenteredIR.C84_start_wrong",
    "Verif.CenteredIR.C84_padding_wrong"
   ],
   "note": "all regular lengths and peaks; the irregular ones raise errors or give silence, and the start is wrong for peaks in the second half (proved negations); exact arithmetic"
  },
  {
   "property": "C85",
   "status": "partial",
   "theorems": [
    "Verif.IRFilter.C85_filters",
    "Verif.IRFilter.C85_filter",
    "Verif.IRFilter.C85_ir_roundtrip_partial",
    "Verif.IRFilter.C85_filter_roundtrip_partial",
    "Verif.IRFilter.C85_bank_partial",
    "Verif.IRFilter.C85_gain_wrong",
    "Verif.IRFilter.C85_single_tap_wrong",
    "Verif.IRFilter.C85_transposed_wrong",
    "Verif.IRFilter.C85_refused",
    "Verif.IRFilter.C85_bank_refused"
   ],
   "note": "taps up to one, two or more taps, not more filters than taps; the other cases are wrong (proved negations); exact arithmetic"
  },
  {
   "property": "C86",
   "status": "partial",
   "theorems": [
    "Verif.AverageIR.C86_dirac_positions",
    "Verif.AverageIR.C86_dirac_partial",
    "Verif.AverageIR.C86_dirac_wrong",
    "Verif.AverageIR.C86_average_weights",
    "Verif.AverageIR.C86_average_partial",
    "Verif.AverageIR.C86_copies",
    "Verif.AverageIR.C86_normalize_wrong",
    "Verif.AverageIR.C86_normalize_wrong_way",
    "Verif.AverageIR.C86_spectral_normalize_wrong",
    "Verif.CombineIR.C86_combined",
    "Verif.CombineIR.C86_combine_refused",
    "Verif.CombineIR.C86_numpy_level_ignored",
    "Verif.CombineIR.C86_combined_impulse"
   ],
   "note": "latencies of whole samples; no normalization of energies (wrong, proved negations); the impulse of the first channel or after channels without latency (else wrong); mixing with the impulse for all bands, matchings and polarities (C86_combined), levels of numpy are ignored (negation)"
  },
  {
   "property": "C87",
   "status": "partial",
   "theorems": [
    "Verif.MinimumPhase.C87_spectrum_magnitude",
    "Verif.MinimumPhase.C87_ir_magnitude",
    "Verif.MinimumPhase.C87_causal_cepstrum",
    "Verif.MinimumPhase.C87_only_magnitude",
    "Verif.MinimumPhase.C87_idempotent",
    "Verif.MinimumPhase.C87_gain",
    "Verif.MinimumPhase.C87_min_phase_ir_partial",
    "Verif.MinimumPhase.C87_zero_bin_wrong",
    "Verif.MinimumPhase.C87_frequencies",
    "Verif.MinimumPhase.C87_from_mag",
    "Verif.MinimumPhase.C87_from_mag_magnitude",
    "Verif.MinimumPhase.C87_methods_agree",
    "Verif.MinimumPhase.C87_length",
    "Verif.MinimumPhase.C87_length_partial",
    "Verif.MinimumPhase.C87_length_wrong",
    "Verif.MinimumPhase.C87_length_short",
    "Verif.MinimumPhase.C87_default_length"
   ],
   "note": "no bin with magnitude zero; the truncated result of min_phase_ir is the start of a response with the same magnitudes; requested lengths that are multiples of four (else wrong)"
  },
  {
   "property": "C88",
   "status": "partial",
   "theorems": [
    "Verif.LinearPhase.C88_linear_phase",
    "Verif.LinearPhase.C88_magnitude",
    "Verif.LinearPhase.C88_delay_error",
    "Verif.LinearPhase.C88_causality",
    "Verif.LinearPhase.C88_length",
    "Verif.LinearPhase.C88_minimum_delay",
    "Verif.LinearPhase.C88_long_enough",
    "Verif.LinearPhase.C88_symmetric_partial",
    "Verif.LinearPhase.C88_delay_wrong"
   ],
   "note": "exact magnitudes before the cut; symmetric result for delays of at least four whole samples; other delays are rounded up (wrong)"
  },
  {
   "property": "C89",
   "status": "partial",
   "theorems": [
    "Verif.GroupDelay.C89_filter",
    "Verif.GroupDelay.C89_zero",
    "Verif.GroupDelay.C89_filter_frequencies",
    "Verif.GroupDelay.C89_delay",
    "Verif.GroupDelay.C89_signal_partial",
    "Verif.GroupDelay.C89_odd_wrong",
    "Verif.GroupDelay.C89_direct_partial",
    "Verif.GroupDelay.C89_one_second_wrong",
    "Verif.GroupDelay.C89_impulse_partial",
    "Verif.GroupDelay.C89_parameters_partial",
    "Verif.GroupDelay.C89_parameters_wrong"
   ],
   "note": "even lengths; resolutions other than 1 Hz; analytic computation for the unchanged signal (else wrong)"
  },
  {
   "property": "C90",
   "status": "partial",
   "theorems": [
    "Verif.Harmonics.C90_times",
    "Verif.Harmonics.C90_position",
    "Verif.Harmonics.C90_rotation",
    "Verif.Harmonics.C90_peak",
    "Verif.Harmonics.C90_partition_partial",
    "Verif.Harmonics.C90_offset",
    "Verif.Harmonics.C90_short_wrong",
    "Verif.Harmonics.C90_list_wrong"
   ],
   "note": "parts are disjoint if the response reaches back to the harmonic n+1 (else wrong)"
  },
  {
   "property": "C91",
   "status": "partial",
   "theorems": [
    "Verif.TrimIR.C91_windows",
    "Verif.TrimIR.C91_choice",
    "Verif.TrimIR.C91_indices",
    "Verif.TrimIR.C91_peak",
    "Verif.TrimIR.C91_channels",
    "Verif.TrimIR.C91_no_offset",
    "Verif.TrimIR.C91_clean_wrong",
    "Verif.TrimIR.C91_loud_wrong"
   ],
   "note": "bounds hold whenever a result is returned; the envelope is a parameter; independence of the level fails"
  },
  {
   "property": "C92",
   "status": "partial",
   "theorems": [
    "Verif.OctaveBands.C92_power_partial",
    "Verif.OctaveBands.C92_sum_partial",
    "Verif.OctaveBands.C92_reconstruction_partial",
    "Verif.OctaveBands.C92_gain_wrong",
    "Verif.OctaveBands.C92_cutoff",
    "Verif.OctaveBands.C92_symmetric",
    "Verif.OctaveBands.C92_phase_wrong",
    "Verif.OctaveBands.C92_overlap_wrong"
   ],
   "note": "reconstruction for bands whose fades do not overlap, up to a factor slightly below one"
  },
  {
   "property": "C93",
   "status": "partial",
   "theorems": [
    "Verif.QMF.C93_mirror",
    "Verif.QMF.C93_reconstruct",
    "Verif.QMF.C93_perfect",
    "Verif.QMF.C93_odd_taps_lose_quarter",
    "Verif.QMF.C93_first_order_empty",
    "Verif.QMF.C93_refused",
    "Verif.QMF.C93_summed",
    "Verif.QMF.C93_number_of_bands",
    "Verif.QMF.C93_full_rate",
    "Verif.QMF.C93_overall_response",
    "Verif.QMF.C93_power",
    "Verif.QMF.C93_mirror_iir",
    "Verif.QMF.C93_iir"
   ],
   "note": "Alias cancellation and reconstruction proved for FIR and recursive prototypes; documented perfect reconstruction for first order refuted (empty bands). Not covered: amplitude constraint of the bands, the ends of FIR reconstructions, plots."
  },
  {
   "property": "C94",
   "status": "partial",
   "theorems": [
    "Verif.GaussianKernel.C94_sections",
    "Verif.GaussianKernel.C94_response",
    "Verif.GaussianKernel.C94_smoothing",
    "Verif.GaussianKernel.C94_variance",
    "Verif.GaussianKernel.C94_boundary",
    "Verif.GaussianKernel.C94_order",
    "Verif.ZeroPhase.C94_zero_phase_length",
    "Verif.ZeroPhase.C94_zero_phase_linear",
    "Verif.ZeroPhase.C94_zero_phase_passes",
    "Verif.ZeroPhase.C94_zero_phase_constant",
    "Verif.ZeroPhase.C94_constant",
    "Verif.ZeroPhase.C94_impulse_response",
    "Verif.ZeroPhase.C94_impulse_wrong"
   ],
   "note": "Response, gain, monotony, variance and limit proved for all parameters with nonzero width; length, linearity and constants of zero-phase filtering proved with its edges; the impulse response with zero phase shown to disagree for order two. Missing: degenerate parameters (nan in the code), the impulse response with zero phase of higher orders."
  },
  {
   "property": "C95",
   "status": "proved",
   "theorems": [
    "Verif.Thiran.C95_accepts",
    "Verif.Thiran.C95_stable",
    "Verif.Thiran.C95_allpass",
    "Verif.Thiran.C95_delay",
    "Verif.Thiran.C95_flat"
   ],
   "note": "Exact arithmetic: rounding of the coefficients is not modelled."
  },
  {
   "property": "C96",
   "status": "partial",
   "theorems": [
    "Verif.Complementary.C96_refused",
    "Verif.Complementary.C96_odd",
    "Verif.Complementary.C96_center",
    "Verif.Complementary.C96_off_center",
    "Verif.Complementary.C96_even",
    "Verif.Complementary.C96_even_nyquist"
   ],
   "note": "Odd lengths exact for all prototypes; documented reconstruction for even lengths refuted at the Nyquist frequency."
  },
  {
   "property": "C97",
   "status": "proved",
   "theorems": [
    "Verif.AudioFilters.C97_refused",
    "Verif.AudioFilters.C97_stable",
    "Verif.AudioFilters.C97_gain",
    "Verif.AudioFilters.C97_falls",
    "Verif.AudioFilters.C97_tilt",
    "Verif.AudioFilters.C97_slope"
   ],
   "note": "Real numbers; conversion to second-order sections not modelled. Negative frequencies are accepted by the code and by the model."
  },
  {
   "property": "C98",
   "status": "proved",
   "theorems": [
    "Verif.AudioFilters.C98_response",
    "Verif.AudioFilters.C98_stable",
    "Verif.AudioFilters.C98_ends",
    "Verif.AudioFilters.C98_one_kilohertz"
   ],
   "note": "Real numbers; conversion to second-order sections not modelled."
  },
  {
   "property": "C99",
   "status": "partial",
   "theorems": [
    "Verif.Generators.C99_harmonics",
    "Verif.Generators.C99_sine",
    "Verif.Generators.C99_oscillator",
    "Verif.Generators.C99_peak_level",
    "Verif.Generators.C99_sine_audible",
    "Verif.Generators.C99_refused",
    "Verif.Generators.C99_low_cutoff_nan",
    "Verif.Generators.C99_phase_is_no_delay",
    "Verif.Generators.C99_short_error",
    "Verif.Generators.C99_short_nan",
    "Verif.Generators.C99_dirac_partial",
    "Verif.Generators.C99_dirac_refused",
    "Verif.Generators.C99_dirac_one_sample",
    "Verif.Generators.C99_dirac_transposed",
    "Verif.Generators.C99_audible",
    "Verif.Generators.C99_level"
   ],
   "note": "Harmonics, level, length and refusals proved for all inputs, including that no wave of two or more samples is silent (alternating sums of sin(h theta)/h never vanish); impulses for at least two samples and not more channels than samples; six negations with witnesses."
  },
  {
   "property": "C100",
   "status": "partial",
   "theorems": [
    "Verif.Generators.C100_linear",
    "Verif.Generators.C100_logarithmic_partial",
    "Verif.Generators.C100_logarithmic_equal",
    "Verif.Generators.C100_sync",
    "Verif.Generators.C100_sync_end",
    "Verif.Generators.C100_length",
    "Verif.Generators.C100_chirp",
    "Verif.Generators.C100_time_step",
    "Verif.Generators.C100_refused",
    "Verif.Generators.C100_sync_phase",
    "Verif.Generators.C100_sync_short",
    "Verif.Generators.C100_sync_truncated",
    "Verif.Generators.C100_silent"
   ],
   "note": "All positive parts proved for all inputs (the level theorem needs that the sampled sweep is not silent; C100_silent shows that this can fail); the logarithmic chirp needs different frequencies; negations with witnesses."
  },
  {
   "property": "C101",
   "status": "partial",
   "theorems": [
    "Verif.Generators.C101_spectrum_partial",
    "Verif.Generators.C101_grey_partial",
    "Verif.Generators.C101_short_nan",
    "Verif.Generators.C101_short_spectrum",
    "Verif.Generators.C101_short_returned",
    "Verif.Generators.C101_white_not_flat",
    "Verif.Generators.C101_noise",
    "Verif.Generators.C101_refused"
   ],
   "note": "Spectrum, level and refusals proved for every draw with bins closer than 30 Hz and, for noise of at most 1/30 s, for white, blue, violet and rising noise; negations for short pink, red, falling and grey noise (nan throughout) and for white noise below 15 Hz."
  },
  {
   "property": "C102",
   "status": "partial",
   "theorems": [
    "Verif.ExactValue.C102_value_partial",
    "Verif.ExactValue.C102_refused",
    "Verif.ExactValue.C102_repeated_frequency_is_nan",
    "Verif.ExactValue.C102_gain_partial",
    "Verif.ExactValue.C102_gain_refused",
    "Verif.ExactValue.C102_gain_fails_at_the_end"
   ],
   "note": "Polygon and refusals proved for all increasing vectors; negations for vectors ending at 1 kHz and for repeated frequencies."
  },
  {
   "property": "C103",
   "status": "partial",
   "theorems": [
    "Verif.NormalizedSpectrum.C103_levels",
    "Verif.NormalizedSpectrum.C103_offset",
    "Verif.NormalizedSpectrum.C103_max",
    "Verif.NormalizedSpectrum.C103_max_first",
    "Verif.NormalizedSpectrum.C103_one_khz",
    "Verif.NormalizedSpectrum.C103_energy",
    "Verif.NormalizedSpectrum.C103_answered_partial",
    "Verif.NormalizedSpectrum.C103_range_refused",
    "Verif.NormalizedSpectrum.C103_energy_first_fails_for_power",
    "Verif.NormalizedSpectrum.C103_power_is_not_smoothed",
    "Verif.NormalizedSpectrum.C103_amplitude_is_smoothed",
    "Verif.NormalizedSpectrum.C103_one_khz_fails_at_the_end",
    "Verif.NormalizedSpectrum.C103_phase",
    "Verif.NormalizedSpectrum.C103_phase_smoothed",
    "Verif.NormalizedSpectrum.C103_phase_refused"
   ],
   "note": "All normalisations and the phases proved; negations for energy of the first channel with power scaling, smoothing of power spectra and vectors ending at 1 kHz. Conditions under which the 1 kHz normalisations succeed are those of C102."
  },
  {
   "property": "C104",
   "status": "partial",
   "theorems": [
    "Verif.OctaveSmoothing.C104_hann",
    "Verif.OctaveSmoothing.C104_range",
    "Verif.OctaveSmoothing.C104_constant",
    "Verif.OctaveSmoothing.C104_logarithmic",
    "Verif.OctaveSmoothing.C104_clip",
    "Verif.OctaveSmoothing.C104_refused",
    "Verif.OctaveSmoothing.C104_window_of_the_caller_is_modified",
    "Verif.OctaveSmoothing.C104_other_window_length",
    "Verif.OctaveSmoothing.C104_affine"
   ],
   "note": "Length, range, constants, weighted mean, clipping and refusals proved; negations for the window of the caller and for windows of other lengths."
  },
  {
   "property": "C105",
   "status": "partial",
   "theorems": [
    "Verif.FrequencyGrids.C105_log_vector",
    "Verif.FrequencyGrids.C105_log_vector_refused",
    "Verif.FrequencyGrids.C105_exact_centres",
    "Verif.FrequencyGrids.C105_octaves_refused",
    "Verif.FrequencyGrids.C105_octaves",
    "Verif.FrequencyGrids.C105_third_octaves",
    "Verif.FrequencyGrids.C105_nominal",
    "Verif.FrequencyGrids.C105_bands_touch",
    "Verif.FrequencyGrids.C105_gap_between_other_bands",
    "Verif.FrequencyGrids.C105_erb",
    "Verif.FrequencyGrids.C105_erb_refused",
    "Verif.FrequencyGrids.C105_bandwidth"
   ],
   "note": "All grids and refusals proved; negation for the band limits with fractions other than 1 and 3."
  },
  {
   "property": "C106",
   "status": "partial",
   "theorems": [
    "Verif.LogMean.C106_log_mean",
    "Verif.LogMean.C106_log_mean_range",
    "Verif.LogMean.C106_crossover_partial",
    "Verif.LogMean.C106_crossover_jumps_at_the_end",
    "Verif.LogMean.C106_crossover_refused",
    "Verif.LogMean.C106_logarithmic_crossover"
   ],
   "note": "Values between the points of the spline are outside the model; negations for the upper limit."
  },
  {
   "property": "C107",
   "status": "partial",
   "theorems": [
    "Verif.SavePaths.C107_well_defined",
    "Verif.SavePaths.C107_path",
    "Verif.SavePaths.C107_result",
    "Verif.SavePaths.C107_idempotent",
    "Verif.SavePaths.C107_load_after_save",
    "Verif.SavePaths.C107_load_same_path",
    "Verif.SavePaths.C107_signal",
    "Verif.SavePaths.C107_dotted_name_refused"
   ],
   "note": "All clauses proved; the negation concerns names with a dot."
  },
  {
   "property": "C108",
   "status": "partial",
   "theorems": [
    "Verif.AudioIO.C108_play",
    "Verif.AudioIO.C108_play_and_record_partial",
    "Verif.AudioIO.C108_no_clipping",
    "Verif.AudioIO.C108_float_duration_refused",
    "Verif.AudioIO.C108_refused",
    "Verif.AudioIO.C108_order_ignored",
    "Verif.AudioIO.C108_silence_is_nan",
    "Verif.AudioIO.C108_interface",
    "Verif.AudioIO.C108_interface_refused",
    "Verif.AudioIO.C108_set_device",
    "Verif.AudioIO.C108_record",
    "Verif.AudioIO.C108_record_refused",
    "Verif.AudioIO.C108_record_negative",
    "Verif.AudioIO.C108_sleep"
   ],
   "note": "play, record and sleep fully; play_and_record for durations that are not floats; negations for float durations, negative durations of recordings, the order of channels and silence."
  },
  {
   "property": "C109",
   "status": "partial",
   "theorems": [
    "Verif.FirDesigner.C109_parameters",
    "Verif.FirDesigner.C109_lengths_refused",
    "Verif.FirDesigner.C109_response",
    "Verif.FirDesigner.C109_group_delay_designer",
    "Verif.FirDesigner.C109_integer_delay_option",
    "Verif.FirDesigner.C109_whole_samples",
    "Verif.FirDesigner.C109_length",
    "Verif.FirDesigner.C109_linearizer",
    "Verif.FirDesigner.C109_linearizer_causal",
    "Verif.FirDesigner.C109_linearizer_acausal",
    "Verif.FirDesigner.C109_simpson"
   ],
   "note": "Bin-wise response proved for grids that need no refinement (Simpson's rule: group delays of at most second order in the frequency), the constant delay for all grids; negation for negative delays."
  },
  {
   "property": "C110",
   "status": "partial",
   "theorems": [
    "Verif.Props.C110.C110_refused",
    "Verif.Props.C110.C110_streaming",
    "Verif.Props.C110.C110_bad_channel",
    "Verif.Props.C110.C110_channels_lost",
    "Verif.Props.C110.C110_orthonormal",
    "Verif.Props.C110.C110_energy",
    "Verif.Props.C110.C110_fit",
    "Verif.Props.C110.C110_least_squares",
    "Verif.Props.C110.C110_round_trip_limit_partial",
    "Verif.Props.C110.C110_round_trip_not_exact"
   ],
   "note": "Everything but the search for poles; negations for the lost channels and the finite round trip."
  },
  {
   "property": "C111",
   "status": "partial",
   "theorems": [
    "Verif.Props.C111.C111_refused",
    "Verif.Props.C111.C111_before_fit",
    "Verif.Props.C111.C111_streaming",
    "Verif.Props.C111.C111_response",
    "Verif.Props.C111.C111_spacing",
    "Verif.Props.C111.C111_coefficients_ignored",
    "Verif.Props.C111.C111_coefficients",
    "Verif.Props.C111.C111_leading_zero_wrong",
    "Verif.Props.C111.C111_late_delay",
    "Verif.Props.C111.C111_stale"
   ],
   "note": "Streaming and response proved for fitted objects; negations for the calls before a fit, the spacing and the parameters changed after a fit."
  },
  {
   "property": "C112",
   "status": "partial",
   "theorems": [
    "Verif.Props.C112.C112_refused",
    "Verif.Props.C112.C112_bands",
    "Verif.Props.C112.C112_response",
    "Verif.Props.C112.C112_negative_frequencies_negation",
    "Verif.Props.C112.C112_delays",
    "Verif.Props.C112.C112_envelopes_negation",
    "Verif.Props.C112.C112_matrix",
    "Verif.Props.C112.C112_gains_partial",
    "Verif.Props.C112.C112_gain_single",
    "Verif.Props.C112.C112_reconstruct",
    "Verif.Props.C112.C112_reconstruct_refused",
    "Verif.Props.C112.C112_analysis_reconstruction",
    "Verif.Props.C112.C112_wraps_negation"
   ],
   "note": "Negations for delays, circular shift and negative frequencies. C112_gains_partial: convergence of the gain iteration is proved for one band only."
  },
  {
   "property": "C113",
   "status": "partial",
   "theorems": [
    "Verif.Loudness.C113_loudness_partial",
    "Verif.Loudness.C113_refused",
    "Verif.Loudness.C113_bounds",
    "Verif.Loudness.C113_gain",
    "Verif.Loudness.C113_channels",
    "Verif.Loudness.C113_silent_channel",
    "Verif.Loudness.C113_one_block_dropped",
    "Verif.Loudness.C113_short",
    "Verif.Loudness.C113_signal_untouched",
    "Verif.Loudness.C113_constrained_signal"
   ],
   "note": "Proved with the last complete block missing (C113_loudness_partial); the change of a constrained signal is stated as it is."
  },
  {
   "property": "C114",
   "status": "partial",
   "theorems": [
    "Verif.Level.C114_levels",
    "Verif.Level.C114_true_peak_ge",
    "Verif.Level.C114_ceiling",
    "Verif.Level.C114_rms",
    "Verif.Level.C114_rms_bands",
    "Verif.Level.C114_crest",
    "Verif.Level.C114_crest_offset",
    "Verif.Level.C114_crest_true_peak",
    "Verif.Level.C114_crest_gain",
    "Verif.Level.C114_bands",
    "Verif.Level.C114_bands_db",
    "Verif.Level.C114_bands_db_wrong",
    "Verif.Level.C114_empty"
   ],
   "note": "Everything but the crest factors of bands in dB, which are converted twice (C114_bands_db_wrong)."
  },
  {
   "property": "C115",
   "status": "partial",
   "theorems": [
    "Verif.ResampleFilter.C115_defined",
    "Verif.ResampleFilter.C115_shape",
    "Verif.ResampleFilter.C115_stable",
    "Verif.ResampleFilter.C115_minimum_phase",
    "Verif.ResampleFilter.C115_response",
    "Verif.ResampleFilter.C115_response_partial",
    "Verif.ResampleFilter.C115_frequency_response",
    "Verif.ResampleFilter.C115_same_rate",
    "Verif.ResampleFilter.C115_round_trip",
    "Verif.ResampleFilter.C115_lost_dc",
    "Verif.ResampleFilter.C115_fir_becomes_wire",
    "Verif.ResampleFilter.C115_iir_zero_lost"
   ],
   "note": "The response is kept for equally many zeros and poles or without a zero at -1 (C115_response_partial, C115_frequency_response); in general it is multiplied by (z/(z+1))^lost (C115_response)."
  },
  {
   "property": "C116",
   "status": "partial",
   "theorems": [
    "Verif.SegmentalSNR.C116_refused",
    "Verif.SegmentalSNR.C116_range",
    "Verif.SegmentalSNR.C116_gain",
    "Verif.SegmentalSNR.C116_channels",
    "Verif.SegmentalSNR.C116_nan",
    "Verif.SegmentalSNR.C116_silent_frame",
    "Verif.SegmentalSNR.C116_identical"
   ],
   "note": "All but the last sentence; nan results are characterised (C116_nan, C116_silent_frame)."
  },
  {
   "property": "C117",
   "status": "partial",
   "theorems": [
    "Verif.SpecConv.C117_spacing",
    "Verif.SpecConv.C117_spacing_wrong",
    "Verif.SpecConv.C117_round_trip_partial",
    "Verif.SpecConv.C117_odd_wrong",
    "Verif.SpecConv.C117_scaled",
    "Verif.SpecConv.C117_scaled_wrong",
    "Verif.SpecConv.C117_rate_wrong",
    "Verif.SpecConv.C117_interpolated_linear",
    "Verif.SpecConv.C117_interpolated_other",
    "Verif.SpecConv.C117_interpolated_odd_wrong",
    "Verif.SpecConv.C117_rejects",
    "Verif.SpecConv.C117_object",
    "Verif.SpecConv.C117_magnitude",
    "Verif.SpecConv.C117_one_sample"
   ],
   "note": "Round trip for even transform lengths and the default scaling; odd lengths, other scalings, nearby rates and the overwritten interpolator parameters are negated."
  },
  {
   "property": "C118",
   "status": "partial",
   "theorems": [
    "Verif.Activity.C118_partition_partial",
    "Verif.Activity.C118_single_wrong",
    "Verif.Activity.C118_indices",
    "Verif.Activity.C118_average",
    "Verif.Activity.C118_first",
    "Verif.Activity.C118_threshold",
    "Verif.Activity.C118_gain",
    "Verif.Activity.C118_attack_wrong",
    "Verif.Activity.C118_silence_wrong",
    "Verif.Activity.C118_none",
    "Verif.Activity.C118_constant_wrong",
    "Verif.Activity.C118_rejects"
   ],
   "note": "The partition is proved when each part has at least two samples; one-sample parts fail, the attack time is without effect and silence is never released."
  },
  {
   "property": "C119",
   "status": "partial",
   "theorems": [
    "Verif.Detrend.C119_detrend_partial",
    "Verif.Detrend.C119_unique",
    "Verif.Detrend.C119_moments",
    "Verif.Detrend.C119_polynomial",
    "Verif.Detrend.C119_short",
    "Verif.Detrend.C119_mean",
    "Verif.Detrend.C119_idempotent",
    "Verif.Detrend.C119_linear",
    "Verif.Detrend.C119_energy",
    "Verif.Detrend.C119_rejects",
    "Verif.Detrend.C119_scaled_wrong",
    "Verif.Detrend.C119_rms",
    "Verif.Detrend.C119_rms_one",
    "Verif.Detrend.C119_rms_bound",
    "Verif.Detrend.C119_rms_rejects",
    "Verif.Detrend.C119_analytic",
    "Verif.Detrend.C119_envelope_wrong"
   ],
   "note": "The rest itself is returned when it stays within the range or the amplitude is not constrained; otherwise one common factor, which is negated by a witness."
  },
  {
   "property": "C120",
   "status": "partial",
   "theorems": [
    "Verif.Dither.C120_bounded_partial",
    "Verif.Dither.C120_noise_partial",
    "Verif.Dither.C120_shaped",
    "Verif.Dither.C120_truncated_partial",
    "Verif.Dither.C120_default_wrong",
    "Verif.Dither.C120_full_scale_wrong"
   ],
   "note": "Proved for signals whose amplitude is not constrained; the constrained case is negated, and so is the effect of the default step."
  },
  {
   "property": "C121",
   "status": "partial",
   "theorems": [
    "Verif.SpectralDifference.C121_quotient",
    "Verif.SpectralDifference.C121_range",
    "Verif.SpectralDifference.C121_complex_partial",
    "Verif.SpectralDifference.C121_complex_wrong",
    "Verif.SpectralDifference.C121_zero_wrong",
    "Verif.SpectralDifference.C121_phase_wrong",
    "Verif.SpectralDifference.C121_rejects",
    "Verif.SpectralDifference.C121_normalization",
    "Verif.SpectralDifference.C121_gain",
    "Verif.SpectralDifference.C121_silence_wrong",
    "Verif.SpectralDifference.C121_self",
    "Verif.SpectralDifference.C121_between",
    "Verif.SpectralDifference.C121_outside_wrong",
    "Verif.SpectralDifference.C121_smoothed_gain",
    "Verif.SpectralDifference.C121_smoothed_bounds",
    "Verif.SpectralDifference.C121_smoothed_self",
    "Verif.SpectralDifference.C121_smoothed_rejects"
   ],
   "note": "Complex differences are proved without dynamic range only and negated with it; with smoothing, gains, refusals, bounds and the difference of a spectrum to itself are proved (values for magnitudes)."
  },
  {
   "property": "C122",
   "status": "partial",
   "theorems": [
    "Verif.ConvolveRir.C122_convolution",
    "Verif.ConvolveRir.C122_constrained",
    "Verif.ConvolveRir.C122_peak_partial",
    "Verif.ConvolveRir.C122_gain",
    "Verif.ConvolveRir.C122_identity",
    "Verif.ConvolveRir.C122_silence_wrong",
    "Verif.ConvolveRir.C122_silence_cases",
    "Verif.ConvolveRir.C122_rejects"
   ],
   "note": "Peaks are kept where the convolution is not silent; otherwise negated."
  },
  {
   "property": "C123",
   "status": "partial",
   "theorems": [
    "Verif.DecayCurve.C123_curve",
    "Verif.DecayCurve.C123_noise",
    "Verif.DecayCurve.C123_fit_start",
    "Verif.DecayCurve.C123_compensation",
    "Verif.DecayCurve.C123_first",
    "Verif.DecayCurve.C123_falls_partial",
    "Verif.DecayCurve.C123_start_wrong",
    "Verif.DecayCurve.C123_rises_wrong",
    "Verif.DecayCurve.C123_gain_wrong"
   ],
   "note": "The form of the curve, its first value and its decay without noise are proved for all inputs; the decay with noise, the independence of the gain and the absence of exceptions are false, with witnesses."
  },
  {
   "property": "C124",
   "status": "partial",
   "theorems": [
    "Verif.RoomModes.C124_indicator",
    "Verif.RoomModes.C124_modes",
    "Verif.RoomModes.C124_empty_range",
    "Verif.RoomModes.C124_gain",
    "Verif.RoomModes.C124_repeated",
    "Verif.RoomModes.C124_order_wrong",
    "Verif.RoomModes.C124_repeated_wrong"
   ],
   "note": "Selection of modes and closed form of the indicator proved for all inputs; independence of the order and of repetition is negated with witnesses."
  },
  {
   "property": "C125",
   "status": "proved",
   "theorems": [
    "Verif.Props.C125.C125_allpass",
    "Verif.Props.C125.C125_order",
    "Verif.Props.C125.C125_ends",
    "Verif.Props.C125.C125_inverse",
    "Verif.Props.C125.C125_range",
    "Verif.Props.C125.C125_direction",
    "Verif.Props.C125.C125_match",
    "Verif.Props.C125.C125_spectrum",
    "Verif.Props.C125.C125_undo",
    "Verif.Props.C125.C125_vector"
   ],
   "note": "All parts proved for all inputs in exact arithmetic."
  },
  {
   "property": "C126",
   "status": "partial",
   "theorems": [
    "Verif.Props.C126.C126_channels",
    "Verif.Props.C126.C126_same_grid_partial",
    "Verif.Props.C126.C126_complex_default_wrong",
    "Verif.Props.C126.C126_complex_witness_wrong",
    "Verif.Props.C126.C126_outside_partial",
    "Verif.Props.C126.C126_outside_wrong",
    "Verif.Props.C126.C126_refused",
    "Verif.Props.C126.C126_filterbanks",
    "Verif.Props.C126.C126_multirate_wrong"
   ],
   "note": "Channels, values on the same grid and filter banks proved for all inputs; keeping complex values with the default parameters and joining of multirate banks are negated."
  },
  {
   "property": "C127",
   "status": "partial",
   "theorems": [
    "Verif.Props.C127.C127_adaptive",
    "Verif.Props.C127.C127_estimate_bounded",
    "Verif.Props.C127.C127_unchanged",
    "Verif.Props.C127.C127_unchanged_low_threshold",
    "Verif.Props.C127.C127_static",
    "Verif.Props.C127.C127_static_unchanged",
    "Verif.Props.C127.C127_given_spectrum",
    "Verif.Props.C127.C127_detected_noise_wrong",
    "Verif.Props.C127.C127_window",
    "Verif.Props.C127.C127_no_step",
    "Verif.Props.C127.C127_apply",
    "Verif.Props.C127.C127_signal_unchanged",
    "Verif.Props.C127.C127_silent_wrong",
    "Verif.Props.C127.C127_settings",
    "Verif.Props.C127.C127_set_advanced",
    "Verif.Props.C127.C127_set_parameters",
    "Verif.Props.C127.C127_spectrum_static",
    "Verif.Props.C127.C127_spectrum_forgotten_wrong",
    "Verif.Props.C127.C127_adaptive_with_spectrum_wrong",
    "Verif.Props.C127.C127_detected_noise_example_wrong"
   ],
   "note": "Subtraction, noise estimate, reconstruction, peaks and settings proved for all inputs; the power of the detected noise, silent channels and keeping the spectrum are negated."
  },
  {
   "property": "C128",
   "status": "partial",
   "theorems": [
    "Verif.Multiband.C128_bands",
    "Verif.Multiband.C128_unconstrained",
    "Verif.Multiband.C128_many_bands_wrong",
    "Verif.Multiband.C128_multirate",
    "Verif.Multiband.C128_no_channel",
    "Verif.Multiband.C128_no_bands",
    "Verif.Multiband.C128_time_data",
    "Verif.Multiband.C128_time_data_multirate",
    "Verif.Multiband.C128_sum_is_collapse",
    "Verif.Multiband.C128_filter",
    "Verif.Multiband.C128_filter_few",
    "Verif.Multiband.C128_surplus_ignored",
    "Verif.Multiband.C128_filter_rates",
    "Verif.Multiband.C128_filter_is_parallel"
   ],
   "note": "Values, shapes, errors and filtering proved for all multiband signals; more bands than samples are negated."
  },
  {
   "property": "C129",
   "status": "partial",
   "theorems": [
    "Verif.Room.C129_best",
    "Verif.Room.C129_correlation",
    "Verif.Room.C129_perfect",
    "Verif.Room.C129_straight_partial",
    "Verif.Room.C129_too_long_wrong",
    "Verif.Room.C129_start_intersection",
    "Verif.Room.C129_start_fixed",
    "Verif.Room.C129_short_curve",
    "Verif.Room.C129_sampling_rate",
    "Verif.Room.C129_end_levels_wrong"
   ],
   "note": "Selection, correlation, start level and scaling proved for all curves; exactness for straight decays and the documented range are negated."
  },
  {
   "property": "C130",
   "status": "partial",
   "theorems": [
    "Verif.Latency.C130_range",
    "Verif.Latency.C130_exchange",
    "Verif.Latency.C130_affine",
    "Verif.Latency.C130_only_affine",
    "Verif.Latency.C130_too_short",
    "Verif.Latency.C130_delayed",
    "Verif.Latency.C130_silent_channel_wrong",
    "Verif.Latency.C130_two_channels",
    "Verif.Latency.C130_channels_wrong",
    "Verif.Latency.C130_phase",
    "Verif.Latency.C130_phase_restored",
    "Verif.Latency.C130_phase_twice"
   ],
   "note": "Range, symmetry, exactness in both directions, exact copies and the phase removal are proved; the two failures (silent channel, three or more channels of one signal) are proved as negations."
  },
  {
   "property": "C131",
   "status": "partial",
   "theorems": [
    "Verif.OctaveBank.C131_refused",
    "Verif.OctaveBank.C131_order",
    "Verif.OctaveBank.C131_bands",
    "Verif.OctaveBank.C131_valid",
    "Verif.OctaveBank.C131_power_bounds",
    "Verif.OctaveBank.C131_half_power",
    "Verif.OctaveBank.C131_highpass",
    "Verif.OctaveBank.C131_energy_preserving_wrong",
    "Verif.OctaveBank.C131_limit_at_nyquist",
    "Verif.OctaveBank.C131_four_octaves"
   ],
   "note": "Structure, limits and half-power points proved for all banks; the documented energy preservation is negated."
  },
  {
   "property": "C132",
   "status": "partial",
   "theorems": [
    "Verif.Room.C132_untrimmed",
    "Verif.Room.C132_d50",
    "Verif.Room.C132_trimming_raises",
    "Verif.Room.C132_early_end",
    "Verif.Room.C132_center_time",
    "Verif.Room.C132_bands",
    "Verif.Room.C132_channels",
    "Verif.Room.C132_dispatch",
    "Verif.Room.C132_flag_ignored_wrong",
    "Verif.Room.C132_bass_ratio"
   ],
   "note": "Values, bounds, monotonicity under trimming and the bass ratio proved; the dropped argument is proved as a negation."
  },
  {
   "property": "C133",
   "status": "proved",
   "theorems": [
    "Verif.ComplexSmoothing.C133_mean",
    "Verif.ComplexSmoothing.C133_refused",
    "Verif.ComplexSmoothing.C133_order",
    "Verif.ComplexSmoothing.C133_bounds",
    "Verif.ComplexSmoothing.C133_constant",
    "Verif.ComplexSmoothing.C133_linear",
    "Verif.ComplexSmoothing.C133_gain",
    "Verif.ComplexSmoothing.C133_dc",
    "Verif.ComplexSmoothing.C133_skew"
   ],
   "note": "Mean property, range, orderings, bounds, constants, gain, linearity and skew proved for all windows that are not negative and positive inside."
  },
  {
   "property": "C134",
   "status": "partial",
   "theorems": [
    "Verif.Fdw.C134_cycles",
    "Verif.Fdw.C134_row",
    "Verif.Fdw.C134_spectrum",
    "Verif.Fdw.C134_impulse",
    "Verif.Fdw.C134_bound",
    "Verif.Fdw.C134_limit",
    "Verif.Fdw.C134_monotone",
    "Verif.Fdw.C134_dc_wrong",
    "Verif.Fdw.C134_negative_cycles_wrong"
   ],
   "note": "Windows, values, bounds, monotonicity and limit proved; the bin at 0 Hz and cycles that are not positive are proved as negations."
  },
  {
   "property": "C135",
   "status": "partial",
   "theorems": [
    "Verif.FractionalPeak.C135_crossing",
    "Verif.FractionalPeak.C135_peaks",
    "Verif.FractionalPeak.C135_near",
    "Verif.FractionalPeak.C135_latency",
    "Verif.FractionalPeak.C135_latency_one",
    "Verif.FractionalPeak.C135_window",
    "Verif.FractionalPeak.C135_last_sample_wrong",
    "Verif.FractionalPeak.C135_first_sample_wrong",
    "Verif.FractionalPeak.C135_points",
    "Verif.FractionalPeak.C135_points_none",
    "Verif.FractionalPeak.C135_points_edge_wrong",
    "Verif.FractionalPeak.C135_points_one",
    "Verif.FractionalPeak.C135_points_peaks",
    "Verif.FractionalPeak.C135_points_latency",
    "Verif.FractionalPeak.C135_points_latency_one"
   ],
   "note": "Position, distance to the whole latency and channel order proved for any number of points; the crashes at the ends are proved as negations."
  },
  {
   "property": "C136",
   "status": "partial",
   "theorems": [
    "Verif.Lfo.C136_set",
    "Verif.Lfo.C136_fails",
    "Verif.Lfo.C136_frequency",
    "Verif.Lfo.C136_not_atomic_wrong",
    "Verif.Lfo.C136_negative_rhythm_wrong",
    "Verif.Lfo.C136_length",
    "Verif.Lfo.C136_one_period",
    "Verif.Lfo.C136_triangle",
    "Verif.Lfo.C136_sawtooth"
   ],
   "note": "Setting of parameters, invariant over histories, periods and ranges proved; the three disagreements are proved as negations or inside the statements."
  },
  {
   "property": "C137",
   "status": "partial",
   "theorems": [
    "Verif.InterpolateFr.C137_values",
    "Verif.InterpolateFr.C137_nodes",
    "Verif.InterpolateFr.C137_between",
    "Verif.InterpolateFr.C137_case",
    "Verif.InterpolateFr.C137_refused_partial",
    "Verif.InterpolateFr.C137_unknown_mode_wrong",
    "Verif.InterpolateFr.C137_lengths"
   ],
   "note": "Values, nodes, range and capital letters proved for all documented modes with linear interpolation; refusal of all undocumented modes is false and its negation is proved. Quadratic and cubic schemes are not modelled."
  },
  {
   "property": "C138",
   "status": "partial",
   "theorems": [
    "Verif.ReverbTail.C138_mixing_time",
    "Verif.ReverbTail.C138_mixing_monotone",
    "Verif.ReverbTail.C138_mixing_saved",
    "Verif.ReverbTail.C138_kept",
    "Verif.ReverbTail.C138_noise_partial",
    "Verif.ReverbTail.C138_level_partial",
    "Verif.ReverbTail.C138_errors",
    "Verif.ReverbTail.C138_single_wrong",
    "Verif.ReverbTail.C138_short_tail_wrong",
    "Verif.ReverbTail.C138_silent_window_wrong",
    "Verif.ReverbTail.C138_synthetic",
    "Verif.ReverbTail.C138_synthetic_tail",
    "Verif.ReverbTail.C138_detailed",
    "Verif.ReverbTail.C138_detailed_uniform",
    "Verif.ReverbTail.C138_detailed_refused",
    "Verif.ReverbTail.C138_no_zeros_no_tail"
   ],
   "note": "Mixing time, preserved samples, level of the noise, errors, the state of the room and detailed absorption proved; nan, errors and responses without zeros are proved as disagreements. The band-pass is not modelled."
  },
  {
   "property": "C139",
   "status": "partial",
   "theorems": [
    "Verif.Lpc.C139_yule_walker",
    "Verif.Lpc.C139_last_frame_wrong",
    "Verif.Lpc.C139_burg_wrong",
    "Verif.Lpc.C139_gain",
    "Verif.Lpc.C139_synthesis",
    "Verif.Lpc.C139_return_wrong",
    "Verif.Lpc.C139_synthesis_values",
    "Verif.Lpc.C139_short_window",
    "Verif.Lpc.C139_stable"
   ],
   "note": "Yule-Walker: normal equations, error, number of frames, gain and length proved for every input; stability proved for both methods; negations for silent frames, Burg's shape and the documented return value; synthesised values left to C22."
  },
  {
   "property": "C140",
   "status": "partial",
   "theorems": [
    "Verif.ExcessDelay.C140_minimum",
    "Verif.ExcessDelay.C140_excess",
    "Verif.ExcessDelay.C140_only_magnitude",
    "Verif.ExcessDelay.C140_minimum_phase_partial",
    "Verif.ExcessDelay.C140_impulse_partial",
    "Verif.ExcessDelay.C140_odd_wrong",
    "Verif.ExcessDelay.C140_one_second_wrong",
    "Verif.ExcessDelay.C140_grid_wrong",
    "Verif.ExcessDelay.C140_zero_mean_wrong",
    "Verif.ExcessDelay.C140_minimum_delay",
    "Verif.ExcessDelay.C140_removed_delay",
    "Verif.ExcessDelay.C140_removed_values",
    "Verif.ExcessDelay.C140_removed_impulse",
    "Verif.ExcessDelay.C140_removed_analytic_wrong"
   ],
   "note": "Values at each bin, minimum phase, impulses and dependence on the magnitude proved, with and without removal of the latency; the grid, the last bin, one-second responses, nan and the sample left by the analytic removal are proved as disagreements; smoothing is C156."
  },
  {
   "property": "C141",
   "status": "partial",
   "theorems": [
    "Verif.WindowType.C141_format",
    "Verif.WindowType.C141_names",
    "Verif.WindowType.C141_shared_wrong",
    "Verif.WindowType.C141_ignored_wrong",
    "Verif.WindowType.C141_spectrogram_partial",
    "Verif.WindowType.C141_forced",
    "Verif.WindowType.C141_stale_wrong",
    "Verif.WindowType.C141_cache_off_wrong",
    "Verif.WindowType.C141_gaussian",
    "Verif.WindowType.C141_symmetric",
    "Verif.WindowType.C141_peak",
    "Verif.WindowType.C141_offset_wrong",
    "Verif.WindowType.C141_single_wrong"
   ],
   "note": "Formats after any history, the spectrogram in quiet programs and the values of the gaussian window proved; shared parameters, stale spectrograms, ignored parameters and the offset are proved as disagreements."
  },
  {
   "property": "C142",
   "status": "partial",
   "theorems": [
    "Verif.Chroma.C142_features",
    "Verif.Chroma.C142_energy",
    "Verif.Chroma.C142_octave",
    "Verif.Chroma.C142_high_wrong",
    "Verif.Chroma.C142_first_pitch_wrong",
    "Verif.Chroma.C142_log_mel",
    "Verif.Chroma.C142_mfcc",
    "Verif.Chroma.C142_mfcc_gain",
    "Verif.Chroma.C142_mirror_wrong",
    "Verif.Chroma.C142_unresolved_wrong"
   ],
   "note": "Features, energy, octaves, mel levels and coefficients proved; high tones, the name of the first pitch, lost signs and unresolved bands are proved as disagreements."
  },
  {
   "property": "C143",
   "status": "partial",
   "theorems": [
    "Verif.Wavelet.C143_wavelet",
    "Verif.Wavelet.C143_wavelet_plain",
    "Verif.Wavelet.C143_lengths_wrong",
    "Verif.Wavelet.C143_wavelet_nonzero",
    "Verif.Wavelet.C143_cwt",
    "Verif.Wavelet.C143_bound",
    "Verif.Wavelet.C143_delay",
    "Verif.Wavelet.C143_squeeze",
    "Verif.Wavelet.C143_squeeze_sum",
    "Verif.Wavelet.C143_tone_partial",
    "Verif.Wavelet.C143_high_tone_wrong",
    "Verif.Wavelet.C143_center_wrong",
    "Verif.Wavelet.C143_center_real",
    "Verif.Wavelet.C143_longest"
   ],
   "note": "Wavelets, scalogram, bound, delay, the rule of synchrosqueezing and the inherited centre frequency of real wavelets proved; lengths, high tones and the centre frequency of tones are proved as disagreements."
  },
  {
   "property": "C144",
   "status": "partial",
   "theorems": [
    "Verif.Vqt.C144_low_rate_wrong",
    "Verif.Vqt.C144_channel_wrong",
    "Verif.Vqt.C144_rows",
    "Verif.Vqt.C144_tuning_wrong",
    "Verif.Vqt.C144_tone_partial",
    "Verif.Vqt.C144_bandwidth_wrong",
    "Verif.Vqt.C144_axis_partial",
    "Verif.Vqt.C144_axis_short_wrong",
    "Verif.Vqt.C144_bins_wrong"
   ],
   "note": "Rows, tones (for a resampler that keeps samples) and the frequencies of twelve bins proved; frequency vector, channels, tuning and bandwidth are proved as disagreements."
  },
  {
   "property": "C145",
   "status": "partial",
   "theorems": [
    "Verif.Arma.C145_refused",
    "Verif.Arma.C145_best",
    "Verif.Arma.C145_odd_wrong",
    "Verif.Arma.C145_exact",
    "Verif.Arma.C145_level_wrong",
    "Verif.Arma.C145_delay_wrong"
   ],
   "note": "Decisions, best approximation and exactness for even lengths proved; odd lengths and the level without numerator are proved as disagreements."
  },
  {
   "property": "C146",
   "status": "partial",
   "theorems": [
    "Verif.SpecObj.C146_aligned_partial",
    "Verif.SpecObj.C146_freqs_wrong",
    "Verif.SpecObj.C146_coherence",
    "Verif.SpecObj.C146_get_channels_partial",
    "Verif.SpecObj.C146_get_channels_many",
    "Verif.SpecObj.C146_get_channels_coherence_wrong",
    "Verif.SpecObj.C146_swap_wrong",
    "Verif.SpecObj.C146_remove_wrong",
    "Verif.SpecObj.C146_stale_coherence",
    "Verif.SpecObj.C146_grid_coherence_wrong",
    "Verif.SpecObj.C146_sum_partial",
    "Verif.SpecObj.C146_sum_domain_wrong",
    "Verif.SpecObj.C146_sum_coherence_wrong",
    "Verif.SpecObj.C146_resample_domain_wrong",
    "Verif.SpecObj.C146_resample_sum_wrong",
    "Verif.SpecObj.C146_resample_breaks",
    "Verif.SpecObj.C146_smoothing_other_wrong",
    "Verif.SpecObj.C146_spacing_linear",
    "Verif.SpecObj.C146_spacing_log",
    "Verif.SpecObj.C146_spacing_wrong",
    "Verif.SpecObj.C146_single",
    "Verif.SpecObj.C146_get_channels_refused",
    "Verif.SpecObj.C146_swap_refused",
    "Verif.SpecObj.C146_remove",
    "Verif.SpecObj.C146_remove_refused",
    "Verif.SpecObj.C146_trim",
    "Verif.SpecObj.C146_resample_own",
    "Verif.SpecObj.C146_smoothing_partial"
   ],
   "note": "Invariant over all histories of successful calls other than the setter of the frequency vector, channels and sums without coherence and the acceptance of coherence proved; the coherence, the parameters of resampling, smoothing of other spacings and the test of the spacing disagree with the code (negations proved)."
  },
  {
   "property": "C147",
   "status": "partial",
   "theorems": [
    "Verif.C147.C147_snr_accepted",
    "Verif.C147.C147_snr_value",
    "Verif.C147.C147_snr_power_partial",
    "Verif.C147.C147_snr_offset",
    "Verif.C147.C147_snr_offset_wrong",
    "Verif.C147.C147_snr_gain",
    "Verif.C147.C147_snr_swap",
    "Verif.C147.C147_snr_single_noise",
    "Verif.C147.C147_sdr_accepted",
    "Verif.C147.C147_sdr_value",
    "Verif.C147.C147_sdr_swap",
    "Verif.C147.C147_sdr_single_target",
    "Verif.C147.C147_sdr_distortion",
    "Verif.C147.C147_sdr_gain"
   ],
   "note": "Decisions, pairing of channels and values proved; the ratio of the powers only without offsets (the disagreement is proved)."
  },
  {
   "property": "C148",
   "status": "partial",
   "theorems": [
    "Verif.C148.C148_response",
    "Verif.C148.C148_starts",
    "Verif.C148.C148_band_starts",
    "Verif.C148.C148_bands",
    "Verif.C148.C148_plain_band",
    "Verif.C148.C148_start_ignored_wrong"
   ],
   "note": "Shapes, refusals and pairing of channels proved; that the start has no effect is proved as a disagreement."
  },
  {
   "property": "C149",
   "status": "partial",
   "theorems": [
    "Verif.Props.C149.C149_filter",
    "Verif.Props.C149.C149_frequencies",
    "Verif.Props.C149.C149_parallel_partial",
    "Verif.Props.C149.C149_parallel_wrong",
    "Verif.Props.C149.C149_sequential",
    "Verif.Props.C149.C149_summed_wrong",
    "Verif.Props.C149.C149_bandwidth",
    "Verif.Props.C149.C149_bands",
    "Verif.Props.C149.C149_values",
    "Verif.Props.C149.C149_values_unconstrained_partial",
    "Verif.Props.C149.C149_constrained_wrong",
    "Verif.Props.C149.C149_channels_wrong",
    "Verif.Props.C149.C149_design"
   ],
   "note": "Proved: filter, sequential and parallel responses, bandwidth checks, band edges, values; negated: summed mode, more filters or channels than frequencies, constrained amplitude."
  },
  {
   "property": "C150",
   "status": "proved",
   "theorems": [
    "Verif.Props.C150.C150_accepted",
    "Verif.Props.C150.C150_smallest_error",
    "Verif.Props.C150.C150_step",
    "Verif.Props.C150.C150_error",
    "Verif.Props.C150.C150_more_iterations",
    "Verif.Props.C150.C150_stable",
    "Verif.Props.C150.C150_complete",
    "Verif.Props.C150.C150_taps"
   ],
   "note": "Proved for all responses, orders, iterations and solvers; exact arithmetic."
  },
  {
   "property": "C151",
   "status": "proved",
   "theorems": [
    "Verif.Latency.C151_delay",
    "Verif.Latency.C151_value",
    "Verif.Latency.C151_peak",
    "Verif.Latency.C151_refused",
    "Verif.Latency.C151_pure_delay"
   ],
   "note": "Invariance under delays for all three ways, values, latency near the largest sample, pure delays, refusals. Exact arithmetic."
  },
  {
   "property": "C152",
   "status": "partial",
   "theorems": [
    "Verif.Latency.C152_delay",
    "Verif.Latency.C152_analytic_value_partial",
    "Verif.Latency.C152_pure_delay",
    "Verif.Latency.C152_one_sample_wrong",
    "Verif.Latency.C152_forgotten",
    "Verif.Latency.C152_forgotten_wrong",
    "Verif.Latency.C152_refused"
   ],
   "note": "Invariance under delays for both computations, pure delays, values. The analytic computation leaves one sample and forgets what comes before the peak (witnesses proved). Exact arithmetic."
  },
  {
   "property": "C153",
   "status": "partial",
   "theorems": [
    "Verif.Beamforming.C153_history",
    "Verif.Beamforming.C153_unchanged",
    "Verif.Beamforming.C153_assigned_first_partial",
    "Verif.Beamforming.C153_stale",
    "Verif.Beamforming.C153_dimensions",
    "Verif.Beamforming.C153_stale_wrong"
   ],
   "note": "Every history characterised (C153_history). Right without further assignment or if the assignment comes first; stale otherwise (witness proved)."
  },
  {
   "property": "C154",
   "status": "partial",
   "theorems": [
    "Verif.Streaming.C154_fir",
    "Verif.Streaming.C154_iir",
    "Verif.Streaming.C154_state_space",
    "Verif.Streaming.C154_chain",
    "Verif.Streaming.C154_sections",
    "Verif.Streaming.C154_lattice_partial",
    "Verif.Streaming.C154_lattice_sections_partial",
    "Verif.Streaming.C154_channel",
    "Verif.Streaming.C154_order_zero_wrong"
   ],
   "note": "Proved for all histories for FIR, IIR, state space, sections, chains and normalised lattice filters; order zero is negated."
  },
  {
   "property": "C155",
   "status": "partial",
   "theorems": [
    "Verif.GroupDelay.C155_coefficients",
    "Verif.GroupDelay.C155_sections",
    "Verif.GroupDelay.C155_sections_partial",
    "Verif.GroupDelay.C155_sum",
    "Verif.GroupDelay.C155_delay_lost_wrong",
    "Verif.GroupDelay.C155_linear_phase",
    "Verif.GroupDelay.C155_zero_wrong",
    "Verif.GroupDelay.C155_allpass"
   ],
   "note": "Proved for all filters whose sections begin with a nonzero coefficient (C155_sections_partial) and, with the exact difference, for all sections (C155_sections); lost delays and values at zeros are disagreements."
  },
  {
   "property": "C156",
   "status": "partial",
   "theorems": [
    "Verif.SmoothedDelay.C156_group_delay",
    "Verif.SmoothedDelay.C156_one_sample",
    "Verif.SmoothedDelay.C156_minimum",
    "Verif.SmoothedDelay.C156_excess",
    "Verif.SmoothedDelay.C156_delay",
    "Verif.SmoothedDelay.C156_rate",
    "Verif.SmoothedDelay.C156_impulse_partial",
    "Verif.SmoothedDelay.C156_removed",
    "Verif.SmoothedDelay.C156_zero_mean_refused"
   ],
   "note": "All parts proved; impulses of one second are excluded (factor 2 pi, C89), and smoothing of nan raises."
  },
  {
   "property": "C157",
   "status": "partial",
   "theorems": [
    "Verif.FirDesign.C157_refused",
    "Verif.FirDesign.C157_taps",
    "Verif.FirDesign.C157_linear_phase",
    "Verif.FirDesign.C157_unity",
    "Verif.FirDesign.C157_ideal",
    "Verif.FirDesign.C157_null",
    "Verif.FirDesign.C157_lowpass_defined",
    "Verif.FirDesign.C157_hann_nan"
   ],
   "note": "All parts proved for every number of edges; negation: a window that is zero at all taps (Hann, order 1) gives nan."
  }
 ]
}
{"id": "C01", "title": "Sample-by-sample FIR filter is a convolution, for every call history", "statement": "For a FIRFilter with taps b (at least two), every call process_sample(x, channel) returns b[0]*x + sum_i b[i]*(the i-th most recent earlier sample passed to that same channel since the last reset_state / set_n_channels, 0 if there is none). Samples sent to other channels in between never influence the result. With a single tap the call raises instead of returning a value.", "quantifier": "all tap vectors, all interleavings of process_sample calls on any channels with reset_state and set_n_channels calls", "why_tests_cant": "the circular buffer wraps after `order` samples and the write index survives resets, so correctness depends on the whole call history; a test fixes one history and one tap count", "anchors": ["dsptoolbox/classes/fir_filter_realtime.py: FIRFilter.__init__, set_n_channels, reset_state, process_sample"]}
{"id": "C02", "title": "Sample-by-sample IIR filter obeys its difference equation, for every call history", "statement": "For an IIRFilter built from b, a with a[0] != 0 and order >= 1, the outputs y of the successive process_sample calls on a channel since the last reset satisfy a[0]*y[n] = sum_i b[i]*x[n-i] - sum_{i>=1} a[i]*y[n-i] with zero initial conditions, whatever happens on other channels. With order 0 the first call raises.", "quantifier": "all b, a of any lengths with a[0] != 0, all interleavings of calls and resets", "why_tests_cant": "feedback makes every output depend on all previous ones; only induction over the history covers every order and length", "anchors": ["dsptoolbox/classes/iir_filter_realtime.py: IIRFilter.__init__, set_n_channels, reset_state, process_sample"]}
{"id": "C03", "title": "A filter chain is the sequential application of its filters", "statement": "Running samples one by one through a FilterChain gives the same output sequence as passing the complete sequence through the first filter, then the complete result through the second one, and so on; resetting the chain equals resetting each filter; an empty chain is the identity.", "quantifier": "all lists of realtime filters (any internal state machine), all input histories with resets", "why_tests_cant": "the statement quantifies over arbitrary filter implementations and unbounded sequences", "anchors": ["dsptoolbox/classes/filter_chain.py: FilterChain.process_sample, reset_state"]}
{"id": "C04", "title": "State variable filter: outputs recombine to the input and the allpass output is lossless", "statement": "For every sample, highpass + resonance*bandpass + lowpass equals the input sample. Over every input sequence, the energy of the allpass output plus resonance/g times the stored energy equals the input energy plus resonance/g times the initial stored energy (so from rest the allpass output never carries more energy than the input), and with zero input and resonance >= 0 the stored energy never grows.", "quantifier": "all cutoff values (any g > 0), all resonances, all input sequences and starting states", "why_tests_cant": "energy conservation is a statement about all infinite input sequences; numerical tests check one impulse response with a tolerance", "anchors": ["dsptoolbox/classes/sv_filter.py: StateVariableFilter.set_parameters, process_sample"]}
{"id": "C05", "title": "Warped FIR realises a chain of first-order allpasses and reduces to a plain FIR at warping factor 0", "statement": "For every history, WarpedFIR.process_sample returns sum_k b[k]*v_k[n], where v_0 is the input of that channel and v_{k+1} is v_k passed through the allpass v_{k+1}[n] = v_k[n-1] + warp*(v_{k+1}[n-1] - v_k[n]) starting from rest. With warp = 0 this is exactly the convolution with b. filter_signal leaves the realtime buffers as they were.", "quantifier": "all tap vectors, all warping factors, all call histories", "why_tests_cant": "recursive structure of arbitrary order over unbounded sequences", "anchors": ["dsptoolbox/classes/warped_filters.py: WarpedFIR.process_sample, filter_signal"]}
{"id": "C06", "title": "Warped IIR solves its delay-free loop", "statement": "For a WarpedIIR built from b, a with len(a) >= 2 and a non-degenerate loop, each call returns sum_k b[k]*v_k where v_0 = x - sum_{k>=1} (a[k]/a[0]) * v_k and the v_k form the allpass chain of C05; i.e. the precomputed feedback weights solve the implicit equation exactly.", "quantifier": "all coefficient vectors of any length, all warping factors, all call histories", "why_tests_cant": "the feedback weights come from a backward recursion whose correctness for every order is an induction, not a sample", "anchors": ["dsptoolbox/classes/warped_filters.py: WarpedIIR.__compute_sigmas, process_sample"]}
{"id": "C07", "title": "Lattice FIR filter equals the FIR filter it was derived from", "statement": "LatticeLadderFilter.from_filter on an FIR filter with taps b produces a filter whose output on every input is the convolution with b.", "quantifier": "all FIR filters with reflection coefficients inside the unit interval, all input sequences", "why_tests_cant": "step-down recursion and lattice recursion must agree for every order", "anchors": ["dsptoolbox/classes/lattice_ladder_filter.py: _get_lattice_coefficients_fir, LatticeLadderFilter.from_filter, _lattice_filtering_fir, __lattice_filtering_fir_sample"]}
{"id": "C08", "title": "Lattice-ladder IIR filter equals the IIR filter it was derived from", "statement": "LatticeLadderFilter.from_filter on an IIR filter produces a filter whose output on every input satisfies the difference equation of the original coefficients, both for second-order sections and for b/a coefficients of any order, and sample-wise processing equals block processing.", "quantifier": "all stable IIR filters, all numbers of sections, all input sequences", "why_tests_cant": "equivalence of two recursive structures of arbitrary order", "anchors": ["dsptoolbox/classes/lattice_ladder_filter.py: _get_lattice_ladder_coefficients_iir, _get_lattice_ladder_coefficients_iir_sos, _lattice_ladder_filtering_iir, _lattice_ladder_filtering_sos"]}
{"id": "C09", "title": "Overlap-save block filter equals linear convolution", "statement": "After prepare(B, channels), the concatenation of the outputs of successive process_block calls on a channel equals the linear convolution of the concatenated blocks with the taps, for every block size and tap count.", "quantifier": "all tap vectors, block sizes, sequences of blocks, channel interleavings", "why_tests_cant": "circular wrap-around and FFT length rounding interact with every combination of block size and tap count; tests pick round numbers", "anchors": ["dsptoolbox/classes/fir_filter_realtime.py: FIRFilterOverlapSave.prepare, process_block"]}
{"id": "C10", "title": "Uniformly partitioned block filter equals linear convolution", "statement": "After prepare(B, channels), the concatenated outputs of process_block on each channel equal the linear convolution of that channel's concatenated blocks with the taps, for any number of channels processed in turn.", "quantifier": "all tap vectors, block sizes, numbers of partitions, sequences of blocks, channel interleavings", "why_tests_cant": "the spectra ring buffer wraps and is shared between calls; correctness depends on the entire history", "anchors": ["dsptoolbox/classes/fir_filter_realtime.py: FIRUniformPartitioned.process_block, FIRUniformPartitionedMultichannel.process_block"]}
{"id": "C11", "title": "FIR block filtering with carried state does not depend on how the signal is cut", "statement": "Filtering a signal in consecutive blocks with the FIR block routine, passing each block's final state as next block's initial state, gives exactly the result of filtering the whole signal at once, for every way of cutting it (blocks may be shorter than the filter).", "quantifier": "all taps, all initial states, all ways of cutting a signal into blocks", "why_tests_cant": "quantifies over all partitions of all signals", "anchors": ["dsptoolbox/classes/filter_helpers.py: _lfilter_fir"]}
{"id": "C12", "title": "filter_signal with activate_zi streams without discontinuities", "statement": "Calling Filter.filter_signal(block, activate_zi=True) on consecutive blocks of a signal yields the same samples as filtering the whole signal in a single activate_zi call.", "quantifier": "all filters, all channel counts, all ways of cutting a signal into blocks", "why_tests_cant": "the carried state lives in the filter object across calls; only some combinations of order and channel count show the problem", "anchors": ["dsptoolbox/classes/filter.py: Filter.filter_signal, initialize_zi", "dsptoolbox/classes/filter_helpers.py: _filter_on_signal, _filter_on_signal_ba"]}
{"id": "C13", "title": "State-space filter equals its transfer function", "statement": "A StateSpaceFilter in controller canonical form obtained from b, a of order >= 2 outputs, for every history, the solution of the difference equation of b and a; order-1 systems cannot be constructed.", "quantifier": "all b, a with the same length >= 3 and a[0] != 0, all call histories", "why_tests_cant": "matrix recursion of arbitrary dimension", "anchors": ["dsptoolbox/classes/state_space_filter.py: StateSpaceFilter.__init__, from_filter, process_sample"]}
{"id": "C14", "title": "Signal data invariants hold after every history of operations", "statement": "After any successful sequence of Signal construction, time_data / constrain_amplitude / sampling rate assignments and channel operations: the data has at least as many samples as channels, imaginary data (if any) has the same shape as the real data, and while constrain_amplitude is on no stored sample exceeds 1 in magnitude and the stored data equals the assigned data times amplitude_scale_factor.", "quantifier": "all arrays, all sequences of operations", "why_tests_cant": "the invariant must survive every operation order", "anchors": ["dsptoolbox/classes/signal.py: Signal.time_data, constrain_amplitude, time_data_imaginary, add_channel", "dsptoolbox/classes/_multichannel_data.py: remove_channel, swap_channels, get_channels"]}
{"id": "C15", "title": "Cached spectra are never stale", "statement": "With the cache on or off, get_spectrum, get_csm and get_spectrogram always return what a computation from the current data and current parameters would return, after any history of assignments, parameter changes, plots and get calls.", "quantifier": "all histories of setters, getters, plot calls and cache switches", "why_tests_cant": "staleness only shows after particular orders of operations; the histories are unbounded", "anchors": ["dsptoolbox/classes/signal.py: get_spectrum, get_csm, get_spectrogram, spectrum_smoothing, set_spectrum_parameters, plot_magnitude, plot_group_delay"]}
{"id": "C16", "title": "Reading a spectrum does not change the signal's observable configuration", "statement": "get_spectrum, get_csm and get_spectrogram leave data, sampling rate and all spectrum parameters as they were, also when get_csm temporarily switches the scaling; calling a getter twice in a row gives the same answer.", "quantifier": "all reachable signal states and parameter settings", "why_tests_cant": "must hold in every reachable state", "anchors": ["dsptoolbox/classes/signal.py: get_spectrum, get_csm, get_spectrogram"]}
{"id": "C17", "title": "Padding and trimming keeps the samples where they belong", "statement": "pad_trim to length n returns n samples; growing keeps all samples and adds zeros only on the chosen side; shrinking keeps the n samples next to the other side; equal length is the identity; growing and then shrinking on the same side restores the input.", "quantifier": "all signals, all target lengths, both sides", "why_tests_cant": "all lengths incl. zero-length differences", "anchors": ["dsptoolbox/helpers/other.py: _pad_trim", "dsptoolbox/standard/pad_trim_methods.py: pad_trim"]}
{"id": "C18", "title": "Appending signals concatenates their channels", "statement": "append_signals returns a signal (or multiband signal, band by band) holding all channels of all inputs in order, each zero-padded or trimmed at the chosen side to the length of the first input; without permission to pad any length mismatch raises; sampling rates must agree.", "quantifier": "all non-empty lists of signals / multiband signals with any channel counts and lengths", "why_tests_cant": "lists of unbounded length with arbitrary shapes", "anchors": ["dsptoolbox/standard/appending.py: append_signals"]}
{"id": "C19", "title": "Integer delay shifts the selected channels only", "statement": "delay by d >= 0 samples puts d zeros in front of each selected channel and d zeros behind each other channel; with keep_length the result is cut to the original length; all channels keep the same length.", "quantifier": "all signals, delays and channel selections", "why_tests_cant": "all lengths and selections", "anchors": ["dsptoolbox/standard/latency_delay.py: delay"]}
{"id": "C20", "title": "Cutting a signal by time or by level keeps exactly the requested span", "statement": "trim_with_level_threshold keeps the smallest contiguous span that contains every sample (any channel) at or above the threshold, and raises if there is none; modify_signal_length changes each end by exactly the requested number of samples; trim_with_time_selection keeps the samples between start and end.", "quantifier": "all signals, thresholds, and start / end values", "why_tests_cant": "boundary behaviour at every position", "anchors": ["dsptoolbox/standard/pad_trim_methods.py: trim_with_level_threshold, modify_signal_length, trim_with_time_selection"]}
{"id": "C21", "title": "Framing covers the signal", "statement": "With keep_last_frames every sample of the signal appears in some frame, frame k sample i is signal sample k*step+i (zero beyond the end), and all frames are complete; without it, exactly the complete frames are returned.", "quantifier": "all signal lengths, window lengths and step sizes", "why_tests_cant": "off-by-one at lengths that are multiples of the step", "anchors": ["dsptoolbox/helpers/other.py: _compute_number_frames", "dsptoolbox/standard/_framed_signal_representation.py: _get_framed_signal"]}
{"id": "C22", "title": "Windowed framing followed by reconstruction is the identity", "statement": "If frames of x are multiplied by a window and reconstructed with the same window, each sample where the summed squared window reaches the safety threshold is recovered exactly, for any window and step (no COLA condition needed), and the output has the original length.", "quantifier": "all signals, windows, step sizes", "why_tests_cant": "all windows and overlap factors", "anchors": ["dsptoolbox/standard/_framed_signal_representation.py: _reconstruct_framed_signal", "dsptoolbox/standard/_standard_backend.py: _get_window_envelope"]}
{"id": "C23", "title": "Polyphase decomposition is invertible and polyphase decimation equals filtering then discarding samples", "statement": "Reconstructing a polyphase decomposition returns the signal preceded by the reported number of zeros; and filtering + downsampling with an FIR filter through polyphase components gives the delay-compensated filtered signal at every D-th sample.", "quantifier": "all signals, filters, and factors", "why_tests_cant": "lengths that are / are not multiples of the factor", "anchors": ["dsptoolbox/helpers/polyphase.py: _polyphase_decomposition, _polyphase_reconstruction", "dsptoolbox/classes/filter_helpers.py: _filter_and_downsample, _filter_and_upsample"]}
{"id": "C24", "title": "24-bit sample packing round-trips", "statement": "Packing integers to 24-bit little-endian bytes and unpacking returns the same integers for every list of integers representable in 24 bits (signed or unsigned), and unpacking rejects byte strings whose length is not a multiple of three.", "quantifier": "all lists of 24-bit integers", "why_tests_cant": "2^24 values per sample and unbounded lists", "anchors": ["dsptoolbox/helpers/bytes_conversion.py: _array_to_bytes_24bits, _bytes_to_array_24bits"]}
{"id": "C25", "title": "Sample format conversion preserves values up to the target resolution", "statement": "Converting between integer and float sample formats maps full scale to full scale, silence to silence, is monotone, never leaves the target range, and converting an integer format to float and back returns the original integers (within the symmetric range). Conversion to a wider format and back loses nothing. Between formats with silence at zero the opposite sample is converted to the opposite result, and what is converted to f32 is a number of single precision.", "quantifier": "all samples, all pairs of formats", "why_tests_cant": "every sample value of every format pair", "anchors": ["dsptoolbox/tools.py: convert_sample_representation"]}
{"id": "C26", "title": "Levinson-Durbin solves the Yule-Walker equations", "statement": "For every autocorrelation sequence for which the recursion does not abort, the returned coefficients (leading 1) satisfy the Yule-Walker normal equations of every order, and the returned error variance is the corresponding prediction error. The resulting all-pole model is stable: all poles are strictly inside the unit circle.", "quantifier": "all autocorrelation sequences and all orders", "why_tests_cant": "recursive in-place update of arbitrary order", "anchors": ["dsptoolbox/helpers/ar_estimation.py: _levison_durbin_recursion, _yw_ar_estimation"]}
{"id": "C27", "title": "Burg reflection coefficients never exceed one in magnitude", "statement": "For every signal the Burg method's reflection coefficients lie in [-1, 1] and the residual variance estimates never grow with the order. The reflection coefficients are strictly smaller than one in magnitude, so that the resulting all-pole model is stable, for any order and number of channels.", "quantifier": "all signals and orders", "why_tests_cant": "inequality over all signals", "anchors": ["dsptoolbox/helpers/ar_estimation.py: _burg_ar_estimation"]}
{"id": "C28", "title": "Spectrum scaling conversions are consistent", "statement": "Converting spectral data from any scaling to any other and back restores it; converting through an intermediate scaling equals the direct conversion; a scaling converted to itself is unchanged.", "quantifier": "all pairs and triples of scalings, all window gains, lengths and sampling rates", "why_tests_cant": "all combinations of scalings with arbitrary window gains", "anchors": ["dsptoolbox/standard/enums.py: SpectrumScaling.conversion_factor, get_scaling_factor"]}
{"id": "C29", "title": "Power spectral density integrates to the signal power", "statement": "For every real signal, the sum of the one-sided FFT power spectral density times the bin width equals the mean squared value of the signal (even and odd lengths).", "quantifier": "all real signals of any length", "why_tests_cant": "Parseval for all signals and lengths", "anchors": ["dsptoolbox/helpers/spectrum_utilities.py: _scale_spectrum", "dsptoolbox/standard/enums.py: SpectrumScaling.get_scaling_factor"]}
{"id": "C30", "title": "Decibel conversions are inverse and monotone", "statement": "from_db(to_db(x)) = |x| wherever x is above the floor, to_db(from_db(g)) = g, both are strictly increasing on positive values, and the floor / dynamic range clamps as documented.", "quantifier": "all real inputs", "why_tests_cant": "continuum of inputs", "anchors": ["dsptoolbox/helpers/gain_and_level.py: to_db, from_db"]}
{"id": "C31", "title": "Normalisation reaches exactly the requested level", "statement": "normalize to a peak (or rms) level makes the peak (or rms) of the signal, or of every channel, equal to the requested level without changing the waveform shape, and is idempotent.", "quantifier": "all signals with non-zero level, all target levels", "why_tests_cant": "all signals", "anchors": ["dsptoolbox/helpers/gain_and_level.py: _normalize", "dsptoolbox/standard/gain_and_level.py: normalize"]}
{"id": "C32", "title": "Fades only attenuate and only inside the fade region", "statement": "fade multiplies the samples of the fade region by weights in [0, 1] that rise monotonically from the outer edge to 1 at the inner edge, and leaves all other samples unchanged; a fade longer than the signal is rejected.", "quantifier": "all signals, fade lengths, fade shapes and sides", "why_tests_cant": "all lengths and shapes", "anchors": ["dsptoolbox/helpers/gain_and_level.py: _fade", "dsptoolbox/standard/gain_and_level.py: fade"]}
{"id": "C33", "title": "Calibrating the calibration recording yields the reference level", "statement": "Calibrating the calibration signal itself gives a signal whose RMS is the reference pressure of the given SPL, on every channel; factors scale linearly with the signal.", "quantifier": "all calibration recordings with non-zero rms", "why_tests_cant": "all signals", "anchors": ["dsptoolbox/classes/calibration_data.py: CalibrationData._compute_calibration_factors, calibrate_signal"]}
{"id": "C34", "title": "Biquad designs are stable and have the specified gains", "statement": "For every frequency strictly between 0 and Nyquist, every q > 0 and every gain, each biquad type has its poles strictly inside the unit circle and the documented gain at DC, Nyquist and the centre frequency.", "quantifier": "all frequencies, gains, q, sampling rates, eq types", "why_tests_cant": "continuum of parameters", "anchors": ["dsptoolbox/classes/filter_helpers.py: _biquad_coefficients"]}
{"id": "C35", "title": "Allpass biquads have constant magnitude", "statement": "Allpass and first-order allpass designs have the same magnitude (the linear gain) at every frequency.", "quantifier": "all frequencies of evaluation and all design parameters", "why_tests_cant": "continuum of frequencies", "anchors": ["dsptoolbox/classes/filter_helpers.py: _biquad_coefficients"]}
{"id": "C36", "title": "Filter bank modes agree with their definition and with the analytic transfer function", "statement": "Sequential mode equals applying filters one after another, summed mode equals the sum of the individual outputs, parallel mode followed by collapse equals summed mode; get_transfer_function returns the product / sum / list of the individual transfer functions for the corresponding mode.", "quantifier": "all filter banks and signals", "why_tests_cant": "arbitrary number of filters", "anchors": ["dsptoolbox/classes/filterbank.py: FilterBank.get_transfer_function, filter_signal", "dsptoolbox/classes/filter_helpers.py: _filterbank_on_signal"]}
{"id": "C37", "title": "Multiband signals and filter banks stay consistent, also after rejected operations", "statement": "After any history of add / remove / swap operations all bands share the channel count and realness (and sampling rate and length when same_sampling_rate), the reported sampling rate, channel count, length in samples and seconds, kind of data and metadata are those of the bands, and an operation that raises leaves the object as it was.", "quantifier": "all histories of operations incl. failing ones", "why_tests_cant": "failing operations in every order", "anchors": ["dsptoolbox/classes/multibandsignal.py: MultiBandSignal.bands, add_band, remove_band, swap_bands", "dsptoolbox/classes/filterbank.py: FilterBank.filters, add_filter, remove_filter, swap_filters"]}
{"id": "C38", "title": "Collapsing a multiband signal does not alter it", "statement": "MultiBandSignal.collapse returns the sum of all bands and leaves the bands unchanged, so collapsing twice gives the same result.", "quantifier": "all multiband signals", "why_tests_cant": "aliasing defects depend on object identity", "anchors": ["dsptoolbox/classes/multibandsignal.py: MultiBandSignal.collapse"]}
{"id": "C39", "title": "Channel operations permute, select and delete exactly the requested channels", "statement": "swap_channels accepts exactly the permutations of the channel indices and rearranges accordingly (undone by the inverse permutation), remove_channel deletes exactly one channel keeping the order of the rest, get_channels returns the requested channels in the requested order, sum_channels is the per-sample sum, add_channel appends the new channels (padded or trimmed if allowed) behind the unchanged old ones and rejects other sampling rates and lengths.", "quantifier": "all signals, all index vectors", "why_tests_cant": "all permutations", "anchors": ["dsptoolbox/classes/_multichannel_data.py: remove_channel, swap_channels, get_channels, sum_channels"]}
{"id": "C40", "title": "Spectrum.trim keeps exactly the bins of the requested range", "statement": "Inclusive trimming keeps every bin in [lower, upper] (plus at most the neighbouring bins needed to include the limits); exclusive trimming keeps exactly the bins strictly inside; frequency vector and data stay aligned, and a rejected call leaves the object unchanged.", "quantifier": "all frequency vectors and limits", "why_tests_cant": "limits on / between / outside bins", "anchors": ["dsptoolbox/classes/spectrum.py: Spectrum.trim, __freqs_to_slice, spectral_data"]}
{"id": "C41", "title": "Spectrum.get_energy is additive and monotone", "statement": "The energy over [a, c] is the sum of energies over [a, b] and [b, c] for every bin b in between, is non-negative, and scales with the square of the gain.", "quantifier": "all spectra and limits", "why_tests_cant": "all spectra", "anchors": ["dsptoolbox/classes/spectrum.py: Spectrum.get_energy"]}
{"id": "C42", "title": "Interpolating a spectrum at its own bins returns the stored values and normalisation reaches 0 dB", "statement": "get_interpolated_spectrum with linear interpolation returns exactly the stored value at every stored bin, stays between the two neighbouring values elsewhere, and after normalize(f) the interpolated magnitude at f is 1.", "quantifier": "all spectra and frequencies", "why_tests_cant": "continuum of frequencies", "anchors": ["dsptoolbox/classes/spectrum.py: get_interpolated_spectrum, normalize, apply_gain"]}
{"id": "C43", "title": "Cross-spectral matrices are Hermitian and positive semidefinite", "statement": "For every bin the CSM equals its conjugate transpose, has real non-negative diagonal, and the quadratic form v^H C v is non-negative for every v (power scalings).", "quantifier": "all signals, all channel counts, all vectors v", "why_tests_cant": "all vectors and signals", "anchors": ["dsptoolbox/standard/_spectral_methods.py: _csm_welch, _csm_fft"]}
{"id": "C44", "title": "Exponential smoothing stays within the range of its input", "statement": "Time smoothing with ascending / descending factors never leaves the interval spanned by the input values, returns constants unchanged, and is monotone in its input.", "quantifier": "all signals, all pairs of smoothing factors", "why_tests_cant": "all signals", "anchors": ["dsptoolbox/helpers/smoothing.py: _time_smoothing, _get_smoothing_factor_ema", "dsptoolbox/classes/exponential_average_filter.py: ExponentialAverageFilter.process_sample"]}
{"id": "C45", "title": "Nearest-point search returns a nearest point", "statement": "find_nearest_points_index_in_vector returns, for each query, an index whose vector entry is at minimal distance, the first such one.", "quantifier": "all vectors and queries", "why_tests_cant": "all vectors", "anchors": ["dsptoolbox/helpers/other.py: find_nearest_points_index_in_vector"]}
{"id": "C46", "title": "Phase wrapping", "statement": "wrap_phase returns values in [-pi, pi) that differ from the input by whole turns, and leaves values already in that range unchanged.", "quantifier": "all phases", "why_tests_cant": "continuum", "anchors": ["dsptoolbox/helpers/spectrum_utilities.py: _wrap_phase"]}
{"id": "C47", "title": "Next power of two", "statement": "The 'floor', 'ceil' and 'closest' modes return the largest power of two not above, the smallest not below, and the nearest one to the number.", "quantifier": "all positive numbers", "why_tests_cant": "all numbers", "anchors": ["dsptoolbox/helpers/other.py: _get_next_power_2"]}
{"id": "C48", "title": "Latency of a delayed copy is the delay", "statement": "For every non-zero signal, the latency estimated between a signal and its copy delayed by d samples is exactly d.", "quantifier": "all non-zero signals and all delays", "why_tests_cant": "all signals", "anchors": ["dsptoolbox/standard/_standard_backend.py: _latency", "dsptoolbox/standard/latency_delay.py: latency"]}
{"id": "C49", "title": "Convolution matrix", "statement": "The Toeplitz convolution matrix of h multiplied with a vector x equals the convolution of h and x.", "quantifier": "all vectors", "why_tests_cant": "all lengths", "anchors": ["dsptoolbox/helpers/other.py: _toeplitz"]}
{"id": "C50", "title": "Merged filters equal the cascade", "statement": "merge_filters of FIR filters gives a filter whose output on every input is the sequential filtering with each one.", "quantifier": "all lists of filters and all inputs", "why_tests_cant": "unbounded lists", "anchors": ["dsptoolbox/standard/other.py: merge_filters"]}
{"id": "C51", "title": "Applying gain", "statement": "apply_gain on a signal scales every sample (real and imaginary) by the gain; on a filter or filter bank it scales the output of filtering for every input; gains compose additively in dB.", "quantifier": "all signals, filters and gains", "why_tests_cant": "all inputs", "anchors": ["dsptoolbox/standard/gain_and_level.py: apply_gain"]}
{"id": "C52", "title": "Library calls do not modify the caller's arrays", "statement": "Creating a signal from an array, reconstructing frames with a window, or constructing realtime filters leaves the arrays of the caller unchanged.", "quantifier": "all arrays", "why_tests_cant": "aliasing", "anchors": ["dsptoolbox/classes/signal.py: time_data", "dsptoolbox/standard/_standard_backend.py: _get_window_envelope", "dsptoolbox/classes/iir_filter_realtime.py: IIRFilter.__init__"]}
{"id": "C53", "title": "Filter construction accepts exactly one coefficient representation", "statement": "Creating a Filter with zero or more than one of the three coefficient kinds raises; the stored denominators never end up with FIR filters flagged as IIR: a filter is FIR exactly when its denominator has a single non-zero leading coefficient, and normalising by it does not change the response.", "quantifier": "all coefficient dictionaries", "why_tests_cant": "all combinations", "anchors": ["dsptoolbox/classes/filter.py: Filter.__init__, ba, is_iir, order"]}
{"id": "C54", "title": "Distortion keeps the peak and respects the mix", "statement": "For every signal without silent channels, every list of distortion types and every mix in percent, Distortion returns a signal of the same length whose channels have the same peak as before; the percentages determine the proportions of clean and distorted signals; scaling the input scales the output; every distortion curve is non-decreasing and bounded by one.", "quantifier": "all signals, distortion types, levels and mixes", "why_tests_cant": "all real samples, levels and mixes", "anchors": ["dsptoolbox/effects/effects.py: Distortion, AudioEffect._restore_peak_values", "dsptoolbox/effects/_effects.py: _arctan_distortion, _clean_signal, _hard_clip_distortion, _soft_clip_distortion"]}
{"id": "C55", "title": "Compressor curve, ballistics and gains", "statement": "For every threshold, ratio and knee the characteristic curve of the compressor is continuous, leaves levels below the knee unchanged and has slope 1/ratio above it; a downward compressor never makes a sample louder and an upward one never quieter; constant signals reach the level of the curve, onsets with the attack time and decays with the release time; pre-gain, post-gain, mix and make-up gain act as documented.", "quantifier": "all signals and parameters", "why_tests_cant": "all real samples and histories of the gain smoother", "anchors": ["dsptoolbox/effects/effects.py: Compressor", "dsptoolbox/effects/_effects.py: _get_compression_func, _compress"]}
{"id": "C56", "title": "Digital delay produces the documented echoes", "statement": "For every signal, delay time and feedback, DigitalDelay returns the signal plus echoes at the multiples of the delay with amplitudes given by the powers of the feedback (passed through the saturation), the output is longer than the input, keeps the peak and stays bounded; feedback of one or more is rejected, None leaves a parameter unchanged and callable saturations are accepted.", "quantifier": "all signals, delays, feedback amounts and saturations", "why_tests_cant": "unbounded feedback loops", "anchors": ["dsptoolbox/effects/effects.py: DigitalDelay"]}
{"id": "C57", "title": "Low frequency oscillators stay in range and modulate independently of the length", "statement": "For every waveform, frequency, phase and smoothing the LFO stays in [-1, 1], is periodic, and its first samples do not depend on the requested length; Tremolo multiplies every sample by a non-negative factor between 1 - depth and 1 + depth, for every LFO or modulation array.", "quantifier": "all waveforms, smoothings and lengths", "why_tests_cant": "all real parameters and lengths", "anchors": ["dsptoolbox/effects/_effects.py: LFO, _sine, _triangle, _square, _sawtooth", "dsptoolbox/effects/effects.py: Tremolo"]}
{"id": "C58", "title": "Chorus keeps length and peak and delays its copies", "statement": "For every signal, Chorus returns a signal of the same length and peak that is the sum of the dry signal and one copy per voice, each copy at sample n reading the past of the signal at the modulated delay; all parameters may be given per voice.", "quantifier": "all signals, depths, base delays and modulators", "why_tests_cant": "all signals and modulators", "anchors": ["dsptoolbox/effects/effects.py: Chorus"]}
{"id": "C59", "title": "Musical rhythms", "statement": "For every documented note and every tempo, get_time_period_from_musical_rhythm is the duration of the note in seconds (a quarter lasts 60/bpm seconds), the frequency is its inverse, and an unknown note raises ValueError.", "quantifier": "all notes and tempos", "why_tests_cant": "all strings and all tempos (the tests only use 60 bpm)", "anchors": ["dsptoolbox/effects/_effects.py: get_frequency_from_musical_rhythm, get_time_period_from_musical_rhythm"]}
{"id": "C60", "title": "Distance measures behave as distances", "statement": "The log spectral distance of spectra without empty bins is zero exactly for equal spectra, symmetric, satisfies the triangle inequality, and with energy normalization does not depend on the levels of the signals; all bins of the requested range count. The Itakura-Saito measure is never negative and zero for equal spectra. The SI-SDR is the ratio of projected to remaining energy and does not depend on the levels. The segmental SNR stays in the requested range.", "quantifier": "all spectra, signals and levels", "why_tests_cant": "all real spectra and signals", "anchors": ["dsptoolbox/distances/_distances.py: _log_spectral_distance, _itakura_saito_measure, _sisdr, _fw_snr_seg_per_channel", "dsptoolbox/distances/distances.py: log_spectral, itakura_saito"]}
{"id": "C61", "title": "Start of an impulse response, definition, clarity and center time", "statement": "For every impulse response find_ir_start finds the last sample before the peak that is below the threshold relative to the peak; D50 is the part of the energy after the start that arrives within 50 ms and lies in [0, 1], C80 the ratio in dB of the energies before and after 80 ms, the center time the centre of gravity of the energy; none of them depends on the level of the response or on silence before it. (The center time is too long by L/(L-1), and silence in front of a response that starts above the threshold changes the values.)", "quantifier": "all impulse responses, levels, thresholds, sampling rates and lengths of silence", "why_tests_cant": "a test has one response; the start is defined by a search over all samples, and invariance relates infinitely many responses", "anchors": ["dsptoolbox/room_acoustics/_room_acoustics.py: _find_ir_start, _d50_from_rir, _c80_from_rir, _ts_from_rir"]}
{"id": "C62", "title": "Reverberation time of a decay", "statement": "For a response whose level falls by D dB per second the reverberation time is 60/D seconds in every mode (10/D for EDT); values of the curve outside the range of the mode do not matter; a given start of the response is respected; the decay curve never rises, starts at 0 dB and does not depend on the level; the noise compensation is made for every decaying response and equals the energy missing after the intersection with the noise. (The result is too long by L/(L-1), the given start is ignored, and the compensation uses the fitted level for the slope.)", "quantifier": "all decay rates, modes, curve lengths, sampling rates and responses", "why_tests_cant": "holds for every decay and level; a test has one synthetic decay and a tolerance that hides the systematic factor", "anchors": ["dsptoolbox/room_acoustics/_room_acoustics.py: _reverb, _obtain_optimal_reverb_time", "dsptoolbox/room_acoustics/_room_acoustics.py: _compute_energy_decay_curve"]}
{"id": "C63", "title": "Rooms obey the formula of Sabine", "statement": "A Room always satisfies T60 * alpha * S = 0.161 * V with alpha in ]0, 1], however it was created (from the reverberation time, from the coefficient, or from both if they agree), and creating a room from the other quantity gives the same room; a shoebox has the volume and area of its six walls; add_detailed_absorption keeps the formula for the room and each band, and the mean coefficient lies between the smallest and largest given coefficient; Schroeder frequency and critical distance always belong to the current reverberation time. check_if_in_room accepts exactly the points of the room. get_room_modes returns every mode up to the order exactly once, sorted by frequency. modal_density is the density of these modes: summed up to a frequency it gives the volume and area terms of the number of modes, and the ratio of the number of modes returned up to this frequency to this sum tends to 1 for high frequencies. (Both quantities together raise AttributeError, points with negative coordinates are accepted, the derived values are stale after adding a detailed absorption, whose dictionary cannot be used twice.)", "quantifier": "all volumes, areas, reverberation times, coefficients, dimensions, points and orders", "why_tests_cant": "relations between quantities over all real arguments, and completeness of a table for every order", "anchors": ["dsptoolbox/room_acoustics/_room_acoustics.py: Room, ShoeboxRoom"]}
{"id": "C64", "title": "Image source method and analytical transfer function of a room", "statement": "The response computed by generate_synthetic_rir is, sample by sample, the sum of the contributions of all image sources up to the order, each damped with the coefficients of the walls it was mirrored at and with its distance; it is the same with source and receiver exchanged, nothing arrives before the direct sound, and it can be computed for every room. The analytical transfer function is unchanged by exchanging source and receiver and by mirroring both. (Images of the same order that fall into the same sample overwrite each other, so reflections or even the direct sound are lost; elongated rooms raise IndexError; the coefficients of south/north and west/east are exchanged with respect to the wall areas.)", "quantifier": "all room dimensions, positions, coefficients, sampling rates, lengths and orders", "why_tests_cant": "the number of images and coincidences depends on geometry and sampling rate; a test covers a few geometries", "anchors": ["dsptoolbox/room_acoustics/_room_acoustics.py: _generate_rir, ShoeboxRoom.get_analytical_transfer_function", "dsptoolbox/room_acoustics/room_acoustics.py: generate_synthetic_rir"]}
{"id": "C65", "title": "Welch spectra measure the power of the signal", "statement": "get_spectrum with the method of Welch succeeds for every signal with valid parameters and raises AssertionError for invalid ones. The power spectral density, summed over the bins times the bin width, equals the mean energy of the windowed segments divided by the energy of the window; for a stationary (constant or rectangular-windowed, non-overlapping) signal this is its mean square. The power spectrum of a tone on a bin is A^2/2, amplitude scalings are the roots of the power scalings (so that the tone gives its RMS value), the FFT normalisations satisfy Parseval's theorem, detrending sets bin 0 to zero and changes no other bin, and averaging with the median agrees with the mean when all segments are alike.", "quantifier": "all signals, numbers of channels, lengths, windows, overlaps, window lengths and scalings", "why_tests_cant": "an identity between a sum over bins and a sum over samples for every signal; tests compare single spectra with a reference implementation", "anchors": ["dsptoolbox/standard/_spectral_methods.py: _welch", "dsptoolbox/classes/signal.py: Signal.get_spectrum", "dsptoolbox/standard/enums.py: SpectrumScaling"]}
{"id": "C66", "title": "The analytic signal contains the signal and nothing at negative frequencies", "statement": "transforms.hilbert keeps the length and the number of channels for every even or odd length. The real part of the result is the original signal and the imaginary part is its Hilbert transform: all bins at negative frequencies of the complex time series are zero, the ones at positive frequencies are doubled, and the bins at zero and at the Nyquist frequency are unchanged. The analytic signal of a cosine on a bin is the complex exponential, so that its envelope is constant. For multiband signals this holds for every band in its place, and bands that add up to a signal have analytic series that add up to the one of the signal.", "quantifier": "all signals, lengths (even and odd), channel numbers and bins", "why_tests_cant": "an identity for every signal and both parities of the length; tests compare one envelope with a reference", "anchors": ["dsptoolbox/transforms/transforms.py: hilbert"]}
{"id": "C67", "title": "Mid-side conversion is lossless in both directions", "statement": "stereo_mid_side with forward=True gives half the sum and half the difference of the two channels, with forward=False the sum and the difference; applying one after the other returns the samples of the original, in either order. Signals with another number of channels raise AssertionError.", "quantifier": "all stereo signals with and without constrained amplitude, both orders", "why_tests_cant": "the round trip is a statement about all sample values; tests use one signal and one order", "anchors": ["dsptoolbox/transforms/transforms.py: stereo_mid_side"]}
{"id": "C68", "title": "The transform at arbitrary frequencies agrees with the Fourier transform of the samples", "statement": "transforms.dft returns at every frequency the sum of the samples times exp(-2 pi i f n / fs). At the frequencies of an FFT of any length not below the one of the signal it is equal to that FFT; padding zeros does not change it; it is conjugate symmetric, periodic with the sampling rate, linear, and a delay of d samples multiplies it by exp(-2 pi i f d / fs).", "quantifier": "all signals, lengths, sampling rates and real frequencies", "why_tests_cant": "frequencies are real numbers: an FFT comparison in a test covers only the grid", "anchors": ["dsptoolbox/transforms/transforms.py: dft", "dsptoolbox/transforms/_transforms.py: _dft_backend"]}
{"id": "C69", "title": "Signals are recovered from their complex cepstrum", "statement": "For every signal without a vanishing bin, from_complex_cepstrum(cepstrum(signal, complex=True), fs) returns the samples of the signal. The real cepstrum is real, even and turns circular convolution into a sum, as does the complex cepstrum.", "quantifier": "all signals without vanishing bins, all lengths and channel numbers", "why_tests_cant": "inversion of the logarithm at every bin, including the branch of the phase, for all signals; tests use one signal", "anchors": ["dsptoolbox/transforms/transforms.py: cepstrum", "dsptoolbox/transforms/transforms.py: from_complex_cepstrum"]}
{"id": "C70", "title": "Mel filters are triangles that add up to one", "statement": "mel_filterbank returns, for every increasing frequency vector, range within it and number of bands, one row for each band. The centre frequencies are equidistant on the mel scale (which is inverted exactly by the conversion back to Hz) inside the range. Before normalisation each row is a triangle with values in [0, 1] whose corners are the bins nearest to neighbouring centre frequencies, with height 1 at its centre; between the first and the last centre all rows add up to one. After normalisation every row adds up to one. Ranges beyond the available frequencies raise AssertionError.", "quantifier": "all frequency vectors, ranges and numbers of bands", "why_tests_cant": "nearest-bin searches collide only for some combinations of resolution and number of bands; tests use one combination", "anchors": ["dsptoolbox/transforms/transforms.py: mel_filterbank", "dsptoolbox/helpers/frequency_conversion.py: _hz2mel, _mel2hz"]}
{"id": "C71", "title": "Frequency warping", "statement": "warp replaces every delay of the impulse response by the allpass (z^-1 - lambda)/(1 - lambda z^-1): the result has the length of the signal and holds the first samples of that response, is linear, leaves the signal unchanged for lambda = 0, and gets only additional samples when zeros are appended. The response at a frequency is the one of the signal at the frequency to which the allpass maps, and the opposite factor maps back. With the opposite factor the signal is recovered, up to the samples cut off at the end; total_length sets the length of the result. Every channel is warped on its own, with shift_ir after a rotation to its start; the factor is returned with the signal exactly if it was given as a text. Code fact that contradicts the documentation: not the first sample above -20 dB but the sample before it is shifted to the beginning.", "quantifier": "every signal, every factor in ]-1, 1[, every frequency, every total_length", "why_tests_cant": "the substitution has to hold for every length and factor; the recovery holds only in the limit of long padding", "anchors": ["dsptoolbox/transforms/transforms.py:1019-1130", "dsptoolbox/transforms/_transforms.py:386-428"]}
{"id": "C72", "title": "Laguerre transform", "statement": "Sample i of laguerre(signal, lambda) is the inner product of the signal with the i-th Laguerre sequence; the sequences are orthonormal, so the transform never has more energy than the signal, the frequency mapping is the one of warp with the same factor, and applying it with lambda and then with -lambda reverses it. Factors outside ]-1, 1[ are refused.", "quantifier": "every signal, every factor, every padding", "why_tests_cant": "the sequences are infinite and every length gives another matrix; reversibility is a limit statement", "anchors": ["dsptoolbox/transforms/transforms.py:955-1016"]}
{"id": "C73", "title": "Warped filters and warping factors", "statement": "warp_filter moves poles and zeros so that the response at a frequency is, up to a constant, the response of the filter at the frequency to which warping maps; stability, minimum phase and conjugate pairs are kept, and the opposite factor restores the response. The warping factors for the Bark and ERB scales are the ones of the cited publication, always inside ]-1, 1[, and the suffix - gives the opposite one.", "quantifier": "every set of poles and zeros, every factor, every frequency, every sampling rate", "why_tests_cant": "roots anywhere in the plane and unequal counts of poles and zeros; stability is a statement about all of them", "anchors": ["dsptoolbox/transforms/transforms.py:1133-1196", "dsptoolbox/transforms/_transforms.py:431-463"]}
{"id": "C74", "title": "Short-time Fourier transform and back", "statement": "istft of the short-time Fourier transform of a signal returns that signal: same length, every sample in place, whenever the squared windows overlap enough, and exactly for the default Hann window with 50 percent overlap. The axes returned with the transform are the frequencies of its bins and the times of its frames.", "quantifier": "every signal, every window length, overlap, transform length, padding and scaling", "why_tests_cant": "rounding of overlap and step in two functions must agree for all overlaps and window lengths; edges of the signal and units of the spectrum interact", "anchors": ["dsptoolbox/transforms/transforms.py:444-597", "dsptoolbox/standard/_spectral_methods.py:176-285"]}
{"id": "C75", "title": "Steering vectors and delay-and-sum maps", "statement": "For every array, grid point, frequency and source power: the distance matrix has the Euclidean distances, the nearest point is the first of the nearest, and the center of the array is the microphone nearest to the mean. For the cross-spectral matrix of one point source, the map of the delay-and-sum beamformer in the frequency domain shows the power of the source at its position with the formulations inverse and true power, has its maximum at the source with the formulations classic and true location, is never negative, and adds up incoherent sources, so that none hides another. This holds for the matrix that get_csm computes from the signals of the source with the default parameters. A source with constant power over frequency gives the power times the bandwidth.", "quantifier": "for all lists of microphones, points, wave numbers, powers, signals, scalings and bands", "why_tests_cant": "The maps depend on positions and frequencies continuously and tests only look at one array; a wrong exponent or normalisation changes levels by factors that look plausible", "anchors": ["dsptoolbox/beamforming/beamforming.py:800-880", "dsptoolbox/beamforming/beamforming.py:517-543", "dsptoolbox/beamforming/beamforming.py:1513-1703", "dsptoolbox/helpers/other.py:128-178", "dsptoolbox/standard/_spectral_methods.py:285-443"]}
{"id": "C76", "title": "Functional, minimum variance, orthogonal and CLEAN-SC maps", "statement": "For every cross-spectral matrix that is Hermitian and positive semidefinite and every result of the decompositions with the documented properties: the functional beamformer with exponent 1 is delay-and-sum, its map does not depend on the chosen singular vectors, is never negative or above delay-and-sum for exponents from 1, and agrees with delay-and-sum at the position of a single source. The minimum variance beamformer gives the smallest output power of all weights with unit response to the steering vector, and so the power of the source at its position. The orthogonal beamformer puts the contribution of each eigenvalue at the maximum of its eigenvector, and contributions at the same point add up. CLEAN-SC collects the power of a single source at its position, all other points are zero.", "quantifier": "for all matrices, decompositions, steering vectors, exponents, loop gains, numbers of microphones, eigenvalues and iterations", "why_tests_cant": "Decompositions are not unique and the iterations depend on all former ones; tests only run the methods on one recording without expected levels", "anchors": ["dsptoolbox/beamforming/beamforming.py:883-1007", "dsptoolbox/beamforming/beamforming.py:1010-1124", "dsptoolbox/beamforming/beamforming.py:1127-1220", "dsptoolbox/beamforming/beamforming.py:1223-1314", "dsptoolbox/beamforming/_beamforming.py:204-297"]}
{"id": "C77", "title": "Fractional delay", "statement": "`fractional_delay` of every signal, sampling rate, delay, order and side lobe suppression gives in each selected channel the band-limited interpolation of the channel at the time before the delay: sample i is the sum over k of x[k]·kernel(i − k − d) with the Kaiser windowed sinc function as kernel. For a delay of whole samples it is exactly the shifted channel. The other channels are padded with zeros, with keep_length all channels keep their length. Negative delays, delays longer than the signal with keep_length and unknown channels are rejected, the original is unchanged.", "quantifier": "for all signals, channel selections, sampling rates, real delays, orders and window parameters", "why_tests_cant": "Delays are real numbers and the filter, its integer part and the trimming of the convolution depend on them; tests only check a few delays for the absence of exceptions", "anchors": ["dsptoolbox/standard/latency_delay.py:159-284", "dsptoolbox/standard/_standard_backend.py:259-321", "dsptoolbox/standard/_standard_backend.py:430-493"]}
{"id": "C78", "title": "Grids, microphone arrays, simulated sources and focusing in the time domain", "statement": "Every regular grid has exactly one point for each combination of the values of its lines, with the values at the given dimensions, and the reconstructed map has at (i, j) the value of the point with the i-th and j-th value. Aperture and smallest distance of an array are the largest and smallest distance of two different microphones, the conversions between Helmholtz number and frequency are inverse to each other. The signals of a simulated source at the microphones are the emitted signal delayed by distance over speed of sound and attenuated, several sources are added up, and neither the list nor the sources of the caller change. Delay-and-sum in the time domain focused to the position of a source gives the emitted signal, delayed by the largest distance.", "quantifier": "for all lines, dimensions, positions, signals, speeds of sound and sampling rates", "why_tests_cant": "The order of the flattened grid has to fit the reshaped map for all lengths, delays are real numbers; tests use square grids and single sources without checking levels", "anchors": ["dsptoolbox/beamforming/beamforming.py:118-173", "dsptoolbox/beamforming/beamforming.py:251-295", "dsptoolbox/beamforming/beamforming.py:403-422", "dsptoolbox/beamforming/beamforming.py:506-604", "dsptoolbox/beamforming/beamforming.py:1357-1394", "dsptoolbox/beamforming/beamforming.py:1426-1510"]}
{"id": "C79", "title": "Linkwitz-Riley crossovers add up to an allpass, with and without state", "statement": "For every list of crossovers (order 1, 2, odd or a multiple of 4, frequency strictly between 0 and half the sampling rate), linkwitz_riley_crossovers(...).filter_signal(signal, mode=Summed) of a signal without amplitude constraint equals the signal through one filter whose spectrum has magnitude one at all frequencies; band n is the signal through the highpasses below, the lowpass of crossover n and the allpasses of the crossovers above; at the crossover frequency both bands are 6 dB (even order) or 3 dB (odd order) down; zero-phase bands add up to the signal; filtering block by block with activate_zi equals filtering the whole signal; silence stays silent. Unsupported orders are rejected.", "quantifier": "all lists of crossovers, all orders, frequencies and sampling rates, all signals, all ways of cutting a signal into blocks, all frequencies", "why_tests_cant": "A test filters one signal with one crossover network; the allpass property must hold for all orders and frequencies and the block-wise claim for all cuts and numbers of crossovers.", "anchors": ["dsptoolbox/filterbanks/_filterbank.py:45-368", "dsptoolbox/filterbanks/_filterbank.py:1307-1345", "dsptoolbox/filterbanks/filterbanks.py:37-76"]}
{"id": "C80", "title": "Matched biquads exist for every valid request, are stable and match their analog prototypes", "statement": "For every supported type, frequency strictly between 0 and half the sampling rate, gain, positive quality and positive (or absent) q_factor, matched_biquad(...) returns a filter with finite coefficients and all poles strictly inside the unit circle; all other requests raise (AssertionError for frequency, quality and q_factor, ValueError for other types). Outside the shelves the poles are exp(w0 s) for the poles s of the analog prototype 1/(s^2+s/q+1). The lowpass has the gain g at 0 Hz and q*g at its frequency, the highpass 0 and q*g, the bandpass 0 at 0 Hz, g at its frequency and less than g at all other frequencies, the peaking filter 1 at 0 Hz, g at its frequency and a gain between 1 and g at all frequencies. A shelf has exactly the gain of the analog shelf at 0 Hz, at half the sampling rate and at two frequencies between; a filter of 0 dB is transparent; the two bandpass types differ by the factor q.", "quantifier": "all types, frequencies, gains, qualities, scaling factors, sampling rates and all frequencies of evaluation", "why_tests_cant": "The coefficients contain nested square roots that are nan if an argument is negative for some frequency and quality; a test evaluates a grid of parameters, and a bound on the gain has to hold at all frequencies.", "anchors": ["dsptoolbox/filterbanks/filterbanks.py:535-633", "dsptoolbox/filterbanks/_filterbank.py:1348-1506"]}
{"id": "C81", "title": "Spectral deconvolution returns the impulse response of the measured system", "statement": "If every channel of `output` is the convolution of the corresponding channel of `input` (or of its only channel) with an impulse response, and the spectrum of the input has no zero, spectral_deconvolve without regularization returns exactly that impulse response, with or without padding, with the length 2N (padding) or N. With regularization and a range [p, q, r, s] the spectrum of the result is the quotient of the spectra inside [q, r], nowhere larger than it, and outside [p, s] bounded by the output spectrum divided by 2·10^0.75 even where the input has no energy. Mismatching lengths, channels or sampling rates, and a range in the standard mode, are refused. The claim fails for lengths that are not products of 2, 3, 5 (default pad_to_fast_length), for power scalings, for the last bin in the automatic mode, and the automatic range of the first channel is used for all channels.", "quantifier": "all signals, lengths, sampling rates, numbers of channels, impulse responses, ranges, all scalings that keep the phase, with and without padding", "why_tests_cant": "Exactness must hold for every input spectrum and every system; tests deconvolve one sweep and compare within a tolerance.", "anchors": ["dsptoolbox/transfer_functions/transfer_functions.py:61-184", "dsptoolbox/transfer_functions/_transfer_functions.py:19-42", "dsptoolbox/helpers/windows.py:8-76", "dsptoolbox/helpers/other.py:34-41", "dsptoolbox/classes/signal.py:861-946"]}
{"id": "C82", "title": "Estimated transfer functions are the ratios of averaged spectra, with coherence between zero and one", "statement": "compute_transfer_function(output, input, window_length, mode) returns, for every pair of signals of equal rate, length and channels (or one input channel for all outputs), H1 = S_xy/S_xx, H2 = S_yy/S_yx or H3 = S_xy/|S_xy|·sqrt(S_yy/S_xx) per bin, independently of rate, scaling and number of segments; the stored coherence lies in [0, 1], |H1| <= |H3| <= |H2| with H1 = coherence·H2 and H3² = H1·H2; an output that is g times the input is estimated as g with coherence one; disturbances of the output without correlation to the input do not change H1 and such of the input do not change H2. (False of the code for every signal with an FFT scaling, the default: the estimate of a gain g is its square root and coherence is the root of the coherence; with the median the coherence may be four.)", "quantifier": "all signals, gains, windows, overlaps, channel counts, scalings, modes and bins", "why_tests_cant": "tests call the function once per mode and only check that it runs; the equalities and inequalities concern all signals and scalings", "anchors": ["dsptoolbox/transfer_functions/transfer_functions.py:419-539", "dsptoolbox/standard/_spectral_methods.py:10-173"]}
{"id": "C83", "title": "Windows for impulse responses move the peak to the end of the left flank and leave it unchanged", "statement": "window_ir returns, for every impulse response, length and pair of windows, channels of exactly the total length in which the peak lies offset samples behind the left flank with its amplitude unchanged, every other sample being the sample of the impulse response (zero outside) at the same distance from the peak times a window that is 1 between the flanks; adaptive=True only shortens the flanks to the samples that there are and returns the first sample taken; invalid parameters are refused. window_ir_tukey moves nothing, uses flanks of the given durations rounded to samples, changes no sample between them and makes none larger. (False of the code for peaks before the offset: without adaptation a unit impulse is erased, with it the offset is lost; a ratio of 2 leaves no right flank; the returned start has no sign.)", "quantifier": "all impulse responses, lengths, percentages, offsets, ratios, windows and samples", "why_tests_cant": "tests window one impulse response with default arguments and look at its length; peaks at the ends and offsets have many cases", "anchors": ["dsptoolbox/transfer_functions/transfer_functions.py:187-365", "dsptoolbox/transfer_functions/_transfer_functions.py:45-147", "dsptoolbox/helpers/windows.py:8-76"]}
{"id": "C84", "title": "Windows around the peak keep the peak and its position as far as possible", "statement": "window_centered_ir returns, for every impulse response and every symmetric window, exactly the requested number of samples, each being a sample of the impulse response (zero outside) times the window whose centre lies at the peak; the peak is unchanged; if it lies in the first half of the window or the length is kept, nothing is moved, otherwise the result is the part around the peak (or the end), and the first sample taken is returned. (False of the code: for an even number of samples p + total//2 it raises ValueError; an even window longer than the impulse response with the peak at its half multiplies everything by the first value of the window; the start is counted from the end for peaks in the second half, and zeros are added at the beginning.)", "quantifier": "all impulse responses, peaks, lengths and symmetric windows", "why_tests_cant": "the branches depend on length, parity and position of the peak; tests use two impulse responses", "anchors": ["dsptoolbox/transfer_functions/transfer_functions.py:368-416", "dsptoolbox/transfer_functions/_transfer_functions.py:150-213"]}
{"id": "C85", "title": "FIR filters and impulse responses are converted into each other without loss", "statement": "ir_to_filter(ir, channel) returns the FIR filter whose taps are the samples of the channel (for None a bank with all channels, invalid channels raise IndexError), and filter_to_ir returns the impulse response whose samples are the taps, one channel per filter, zero-padded to the longest; doing one after the other gives back the same impulse response or filters. (False of the code if a tap is larger than one, as the impulse response is then normalized; for filters with one tap, which raise IndexError; and for banks with more filters than taps, where filters and taps are exchanged.)", "quantifier": "all impulse responses, channels, FIR filters and banks", "why_tests_cant": "tests convert one impulse response; loud filters, single taps and banks with many short filters are not tried", "anchors": ["dsptoolbox/transfer_functions/transfer_functions.py:1193-1286", "dsptoolbox/classes/signal.py:222-301"]}
{"id": "C86", "title": "Averages of impulse responses align the channels, and impulses are placed at the latency of each channel", "statement": "average_irs(ir, time_average=True, normalize_energy=False) delays every channel to the largest latency, with latencies of whole samples, and returns the mean of the channels; delayed copies of one response give back the response. combine_ir_with_dirac combines channel c with an impulse at the latency of channel c: the result is, up to one positive factor that brings its largest sample to 1, one band of the response plus or minus (the sign of the response at its latency) the other band of the impulse, which is scaled to the energy, the peak or the level asked for; other texts are refused; with bands that add up to the signal an impulse stays the same impulse. With normalize_energy=True all channels have the energy of the first one before they are averaged. (False of the code: the impulse of channel c is at the sum of the latencies of the channels 0 to c; the normalization has no effect with time_average=False or if the first channel has the largest latency, otherwise it scales only the channel with the largest latency, and by the ratio of the energies in the wrong direction; a level that is a floating-point number of numpy is ignored by combine_ir_with_dirac.)", "quantifier": "all impulse responses with two or more channels, latencies of whole samples, sampling rates", "why_tests_cant": "tests only call these functions and compare lengths; the wrong positions need more than one channel with latency, the missing normalization channels with different energies", "anchors": ["dsptoolbox/transfer_functions/transfer_functions.py:542-612", "dsptoolbox/transfer_functions/transfer_functions.py:1086-1191", "dsptoolbox/standard/latency_delay.py:195-264"]}
{"id": "C87", "title": "Minimum-phase responses keep the magnitude spectrum and depend on nothing else", "statement": "min_phase_ir and minimum_phase give a spectrum with the magnitudes of the zero-padded response in every bin and a causal cepstrum; responses with the same magnitudes have the same minimum-phase response, a minimum-phase response is its own one, and a gain of g becomes a gain of |g|. minimum_phase returns the bins 0 to N/2 at k fs/N. min_phase_from_mag gives exactly the requested magnitudes in every bin, with the response that min_phase_ir gives for these magnitudes, and a response of ir_length_samples. (False of the code: one bin with magnitude zero — for example any response without direct component — gives nan for the whole channel of min_phase_ir; ir_length_samples is only honoured for multiples of four, otherwise the length is 4*((n+1)//4).)", "quantifier": "all responses, padding factors, FFT lengths, factors alpha, magnitude spectra, sampling rates and requested lengths", "why_tests_cant": "tests compare lengths or one example with scipy; the equality of magnitudes and the agreement of both methods hold for every spectrum, and a bin with zero magnitude does not occur in the measured example", "anchors": ["dsptoolbox/helpers/minimum_phase.py:8-79", "dsptoolbox/standard/_standard_backend.py:66-119", "dsptoolbox/transfer_functions/transfer_functions.py:615-663", "dsptoolbox/transfer_functions/transfer_functions.py:789-858", "dsptoolbox/transfer_functions/transfer_functions.py:928-987", "dsptoolbox/transfer_functions/_transfer_functions.py:574-606"]}
{"id": "C88", "title": "Linear-phase responses from magnitudes: exact magnitudes, one delay, symmetric, causal", "statement": "lin_phase_from_mag gives, before the result is cut to twice the largest delay, a response with exactly the interpolated magnitudes in every bin and a constant group delay for all frequencies, symmetric around that delay; with a delay of whole samples the result has twice as many samples and is symmetric. Without group_delay_ms every channel gets the largest group delay of its minimum-phase version plus one millisecond (times the factor); with check_causality a smaller delay is refused, and nothing else is. The group delay is group_delay_ms. (False of the code: the group delay is rounded up to whole samples, not to the nearest; 10.1 samples become 11.)", "quantifier": "all magnitude spectra, numbers of channels, sampling rates, group delays, factors", "why_tests_cant": "tests call the function once and plot the result; that the correction of the phase at the Nyquist frequency always changes the delay to the next whole sample cannot be seen from a delay of whole samples", "anchors": ["dsptoolbox/transfer_functions/transfer_functions.py:666-786", "dsptoolbox/helpers/spectrum_utilities.py:229-266", "dsptoolbox/transfer_functions/_transfer_functions.py:574-606"]}
{"id": "C89", "title": "Group delays are the negative derivative of the phase, in seconds, at the returned frequencies", "statement": "_group_delay_filter (used for filters and by group_delay with analytic_computation=True) gives the negative derivative of the phase of b/a in seconds at each frequency where b/a has neither zero nor pole; a delay by d samples adds d/fs. group_delay gives the values at the returned frequencies k fs/N. With analytic_computation=False the values are the difference quotients of the phase, however it is wrapped, as long as it changes by less than half a turn between bins; an impulse in the first half gives its time at all frequencies. The signal is left unchanged. (False of the code: with an odd number of samples the analytic values belong to the frequencies k fs/(N-1); with analytic_computation=False a signal of one second — a resolution of exactly 1 Hz — gets group delays that are 2 pi times too large; and the spectrum method of the signal is FFT afterwards.)", "quantifier": "all coefficients, frequencies, signals, sampling rates and phases", "why_tests_cant": "tests compare one filter with scipy or call the function; the factor 2 pi needs a resolution of exactly 1 Hz, the shifted frequencies an odd length", "anchors": ["dsptoolbox/classes/filter_helpers.py:167-205", "dsptoolbox/standard/_standard_backend.py:37-63", "dsptoolbox/transfer_functions/transfer_functions.py:861-930"]}
{"id": "C90", "title": "Harmonics of a chirp measurement are separate, neighbouring parts of the impulse response at the times of the harmonics", "statement": "harmonics_from_chirp_ir rotates the response so that its peak is sample 1 and takes the harmonic h at the sample nearest to log2(h)/rate before it, the time at which an exponential chirp has h times its frequency earlier. The returned responses are neighbouring parts of the rotated response: put together in reverse order they are one part of it (no sample belongs to two harmonics), and each harmonic lies in or at the border of its part. Offsets outside [0, 1) raise AssertionError. harmonic_distortion_analysis leaves the list of impulse responses passed to it unchanged. (False of the code: if the response is too short for all harmonics, the harmonic crossing the beginning is empty — ValueError with the amplitude constraint — and the later ones contain samples from the end that also belong to the first harmonic; and the analysis removes the fundamental from the caller's list and pads it.)", "quantifier": "all responses, ranges and lengths of chirps, sampling rates, numbers of harmonics and offsets", "why_tests_cant": "tests take one measurement and check lengths or plots; overlap depends on the relation between length of the response, rate of the chirp and number of harmonics", "anchors": ["dsptoolbox/transfer_functions/transfer_functions.py:1409-1484", "dsptoolbox/transfer_functions/transfer_functions.py:1487-1690", "dsptoolbox/transfer_functions/_transfer_functions.py:216-273"]}
{"id": "C91", "title": "Trimming an impulse response keeps its peak, the requested time before it and three quarters of the decay found", "statement": "_trim_ir and trim_ir: the trimmed response starts the given time and one sample before the peak (at the first sample if there is less; always at the first sample for None) and the returned impulse index is the index of the peak after trimming. The end found with a window length is the centre of the first window whose mean level is not below that of the window before it; one of the ends, or a mean of them, is chosen by the correlation coefficients; the response ends at least two samples after the peak, at most there, keeps three quarters of it, and does not end after the data if the fitted level decays. With several channels all are cut at the same bounds, the smallest start and the largest stop of all channels. A negative offset raises AssertionError. (False of the code: the level of the first window is compared with 0 dB, so the end depends on the absolute level: a decay above 0 dB in the first 10 ms is cut 5 ms after the peak; and a decay that reaches the end of the data raises ValueError, because the noise level is estimated from no samples.)", "quantifier": "all responses, envelopes, offsets, safety distances, sampling rates and numbers of channels", "why_tests_cant": "tests trim one measured response with noise; the error needs a response without noise, the early end one with a level above 0 dB", "anchors": ["dsptoolbox/transfer_functions/_transfer_functions.py:276-411", "dsptoolbox/transfer_functions/transfer_functions.py:1695-1786"]}
{"id": "C92", "title": "The bands of the reconstructing fractional octave filter bank sum to the delayed signal", "statement": "reconstructing_fractional_octave_bands: if the fades of neighbouring bands do not overlap, the squared gains of the bands sum to one in each bin, the filters sum to an impulse in their middle, and for every signal the sum of the outputs is the signal delayed by n_samples/2, multiplied with one number that does not depend on the signal, the bands, the overlap or the slope. Both bands have half the amplitude at their common cut-off frequency. Before windowing all filters are symmetric around their middle. Lengths other than powers of two from 2**5 to 2**17 raise AssertionError. (False of the code: the number is (1 + cos(pi/(n_samples-1)))/2 < 1, because the symmetric window of even length has no sample at its maximum; for the same reason no filter with a coefficient other than zero beside its middle has linear phase; and rounding to bins makes fades overlap, e.g. octave bands at 1 and 2 kHz with 64 coefficients at 8 kHz, where one bin of the sum is too large by 15 %.)", "quantifier": "all numbers of bands, cut-off bins, overlaps, slopes, lengths, sampling rates and signals", "why_tests_cant": "tests construct one bank and check that filtering runs; the sum of all bands is not compared, and overlaps depend on the rounding of the frequencies", "anchors": ["dsptoolbox/filterbanks/filterbanks.py:79-214", "dsptoolbox/tools.py:251-256"]}
{"id": "C93", "title": "The quadrature mirror filter crossover reconstructs the signal without aliasing", "statement": "For every lowpass prototype the highpass of qmf_crossover has the response H(-z) of the prototype and the synthesis filters are H(z) and -H(-z). Filtering in parallel with downsampling and reconstructing with upsampling therefore gives, for every signal, the response of H(z)^2 - H(-z)^2 with no trace of the mirrored spectrum: for FIR prototypes of four taps or more away from the ends, for recursive prototypes at every sample. With a power complementary FIR pair of even length the signal comes back exactly. Linear phase prototypes give a delay times the sum of the powers (even number of taps). FIR prototypes of first order, for which the documentation ensures perfect reconstruction, give empty bands; prototypes with an odd number of taps remove a quarter of the sampling rate; the sequential mode always fails.", "quantifier": "all prototypes (taps; zeros, poles, gain), all signals, all even sampling rates, all modes", "why_tests_cant": "one test compares two prototypes of one order on one noise signal within 1 dB; alignment of the decimation depends on the number of taps modulo four and on the parity of the signal", "anchors": ["dsptoolbox/filterbanks/_filterbank.py: BaseCrossover, QMFCrossover, _crossover_downsample, _reconstruct_from_crossover_upsample", "dsptoolbox/filterbanks/filterbanks.py: qmf_crossover", "dsptoolbox/classes/filter.py: filter_and_resample_signal"]}
{"id": "C94", "title": "The recursive gaussian kernel smooths with the requested width for every order", "statement": "gaussian_kernel refuses odd orders and returns order/2 equal stable one-pole sections otherwise. Applied forwards and backwards its response is (1 + sigma^2 (1 - cos w) / K)^-K with K = order/2: gain one at frequency zero, positive, never above one and strictly decreasing up to the Nyquist frequency. The variance of the effective kernel is exactly sigma^2 for every order, where sigma is the one whose gaussian reaches the boundary value after the given length. With growing order the response decreases to exp(-sigma^2 (1 - cos w)). Filtering with zero phase passes the signal, mirrored at its ends, forwards and backwards through the sections; it keeps the length and is linear, edges included, and multiplies constant signals with the squared gain at frequency zero without transients; the kernel leaves them unchanged. Signals of at most 3 (K + 1) samples raise ValueError. The impulse response with zero phase that get_ir returns is not the one of the kernel, because its impulse is the first sample and is mirrored: with the pole at m (order two) its samples are m^i plus a remainder instead of (1 - m) / (1 + m) m^i, and the first is above one.", "quantifier": "all lengths, boundary values below one, sampling rates, even orders above zero, frequencies", "why_tests_cant": "tests compare one kernel against one gaussian window within a tolerance; gain, monotony and width are claims over all parameters", "anchors": ["dsptoolbox/filterbanks/filterbanks.py: gaussian_kernel", "dsptoolbox/classes/filter_helpers.py:262-263", "dsptoolbox/classes/filter.py: get_ir"]}
{"id": "C95", "title": "The fractional delay allpass is stable, lossless and maximally flat", "statement": "fractional_delay accepts exactly positive orders and delays strictly between zero and one (AssertionError otherwise). Every filter it returns has all poles inside the unit circle and magnitude one at every frequency; its response at frequency zero is one, its delay there is exactly order + delay samples, and over the whole range of frequencies its response differs from the ideal delay by order + delay samples at most by a multiple of |w|^(2 order + 1).", "quantifier": "all orders, all delays, all frequencies", "why_tests_cant": "tests try a few orders and delays; stability, unit magnitude and flatness are claims over all orders, and the coefficients are products that grow with the order", "anchors": ["dsptoolbox/filterbanks/filterbanks.py: fractional_delay"]}
{"id": "C96", "title": "An FIR filter and its complement add up to a delay", "statement": "complementary_fir_filter refuses recursive filters. For every FIR filter of odd length the outputs of prototype and complement add up to the input delayed by the position of the largest tap; if the taps are symmetric about their largest tap the complement is symmetric too and the signed amplitudes add up to one at every frequency. For even lengths both add up to one windowed sinc function of that length, with constant group delay. Symmetric prototypes whose largest tap is not in the middle get a complement without linear phase; for even lengths the sum vanishes at the Nyquist frequency, whatever the prototype.", "quantifier": "all taps, all lengths, all signals, all frequencies", "why_tests_cant": "tests sum one lowpass of each parity and compare the magnitude in part of the range; the claim is about every prototype and every frequency", "anchors": ["dsptoolbox/filterbanks/filterbanks.py: complementary_fir_filter", "dsptoolbox/standard/_standard_backend.py: _kaiser_window_fractional"]}
{"id": "C97", "title": "The pinking filter falls by 3 dB per octave with gain one at the given frequency", "statement": "pinking_filter refuses exactly frequencies from the Nyquist frequency on. Every filter it returns has all poles and zeros inside the unit circle and magnitude one at the given frequency; its magnitude falls strictly from frequency zero to the Nyquist frequency, so that lower frequencies are amplified and higher ones attenuated. From 1/400 radians per sample up to the Nyquist frequency its power is a constant over 2 sin(w/2), up to factors between 0.74 and 1.3, hence a constant over the frequency (3 dB per octave) up to factors between 0.74 and 2.05.", "quantifier": "all frequencies for the gain, all sampling rates, all frequencies of evaluation", "why_tests_cant": "tests only call the function; gain, monotony and slope are claims over a continuum of frequencies and sampling rates", "anchors": ["dsptoolbox/filterbanks/filterbanks.py: pinking_filter"]}
{"id": "C98", "title": "Weighting filters have the responses of their analog prototypes", "statement": "weighting_filter returns for every sampling rate a filter of order six (A) or four (C) with all poles inside the unit circle whose response at w radians per sample is the analog response of the standard at 2 fs tan(w/2) radians per second. Constants and the Nyquist frequency are removed. For all sampling rates from 44.1 kHz the gain at 1 kHz is one within two percent. Without sampling rate a TypeError is raised.", "quantifier": "both weightings, all sampling rates, all frequencies", "why_tests_cant": "tests only call the function for one rate; the claims quantify over sampling rates and frequencies", "anchors": ["dsptoolbox/filterbanks/filterbanks.py: weighting_filter"]}
{"id": "C99", "title": "Oscillators hold exactly the harmonics below the cutoff, at the requested level and length", "statement": "oscillator returns round(rate*length) samples followed by the padding. Each sample is the wave scaled so that its peak is 10^(level/20), times a gain curve between 0 and 1 that differs from 1 only on the faded 5 % at either end; without a fade the peak of the result is exactly the requested one, for every wave of at least two samples and every phase as soon as the cutoff lies above the frequency (no wave is silent). The square wave, sawtooth and triangle are the Fourier series of these waves (peak 1) with exactly the harmonics whose frequency is below the cutoff, hence below half the sampling rate; the sine has the requested frequency. Frequencies, cutoffs and paddings outside the allowed ranges are refused. dirac returns 1 at the delay and 0 elsewhere in every channel. Code facts that contradict this: a permitted cutoff that is not above the frequency gives nan throughout; uncorrelated=True adds the same phase to every harmonic, which is not a delay and raises the crest (two-harmonic square wave: by a third); the default fade of a signal with fewer than 20 samples raises IndexError, with 20 to 39 samples the first sample is nan; dirac with one sample in one channel raises IndexError and with more channels than samples swaps the two.", "quantifier": "all frequencies, sampling rates, lengths, wave forms, cutoffs, levels, phases, fades and paddings; all impulse lengths, delays and channel counts", "why_tests_cant": "Tests generate a few waves and look at one level; they cannot show that no harmonic at or above the cutoff is ever present nor that the peak is met for every combination.", "anchors": ["dsptoolbox/generators/generators.py: dirac, oscillator", "dsptoolbox/helpers/gain_and_level.py: _normalize, _fade", "dsptoolbox/classes/filter_helpers.py: _impulse"]}
{"id": "C100", "title": "Sweeps run through the requested frequencies and synchronized sweeps keep harmonics in phase", "statement": "The linear chirp is the sine of a phase whose derivative is 2 pi times a frequency that runs linearly from the lower to the upper frequency over the length; the logarithmic chirp likewise with a frequency that grows exponentially. Both start with the requested phase. The synchronized chirp has a whole number k of cycles as sweep rate: its frequency runs from the lower to the upper one over its duration, and delaying by k/f1*log(m) turns it into the sine of the m-fold phase for every m >= 1; its duration differs from the requested one by at most log(f2/f1)/(2 f1). chirp returns round(rate*length) samples plus padding, scaled to the requested peak and faded; ranges outside (0, rate//2] and negative paddings are refused. Code facts that contradict this: the sample times include the end point, so neighbouring samples are further apart than the sampling period, and a constant sweep just below half the sampling rate is silent at all samples (nothing to scale to the requested level); a logarithmic chirp with equal frequencies is nan; the synchronized chirp ignores phase_offset, need not end with phase 0 as documented (witness: last sample 1), fails with ValueError for short lengths, and is cut off when its duration exceeds the requested one (witness: half of it is missing while the full duration is reported).", "quantifier": "all frequency ranges, lengths, phases, levels, sampling rates, fades, paddings, times and harmonic numbers", "why_tests_cant": "The frequency at every instant and the phase relation for every harmonic are statements about functions of a real variable; tests only call the function and inspect types and lengths.", "anchors": ["dsptoolbox/generators/generators.py: chirp", "dsptoolbox/generators/_generators.py: _sync_log_chirp"]}
{"id": "C101", "title": "Generated noise has the requested spectral slope, level and length", "statement": "For every draw of random magnitudes and phases, and noise longer than 1/30 s: the raw noise has no component at 0 Hz, and from the bin next to 15 Hz on the magnitude of its spectrum is the random magnitude times f^(-b/2), with b = 0, 1, 2, -1, -2 for white, pink, red, blue and violet noise and b for a given exponent; for grey noise the spectrum times the A-weighting is a constant times the random magnitudes. The returned signal is the raw noise scaled to the requested peak, faded at both ends and followed by the padding. Lengths that are not positive, levels above 0 dBFS and negative paddings are refused. Code facts that contradict the documentation: noise of at most 1/30 s with falling power (pink, red, positive exponents) and grey noise that short are nan throughout and returned without error, while white, blue, violet and other rising noise keep their slope at every bin above 0 Hz; white noise is not white, because the condition that should spare it from the 400 dB reduction below 15 Hz always holds.", "quantifier": "all random draws, lengths, sampling rates, noise types and exponents, levels, fades and paddings", "why_tests_cant": "The signal is random: a test sees single draws, while the spectrum must have its slope for every draw and length.", "anchors": ["dsptoolbox/generators/generators.py: noise", "dsptoolbox/helpers/frequency_conversion.py: _frequency_weightning", "dsptoolbox/helpers/gain_and_level.py: _normalize"]}
{"id": "C102", "title": "The value queried at a frequency lies on the polygon through the points", "statement": "For every strictly increasing frequency vector, every vector of values of the same length and every frequency between the first and the last entry, get_exact_value_at_frequency returns the value of the polygon through the points (linear interpolation on every segment that contains the frequency, the given value at a point); frequencies outside and other lengths are refused. The gain at 1 kHz used for normalisation is the value of the same polygon for every vector that starts below and ends above 1 kHz, and other vectors are refused. Code facts that contradict this: a vector that ends exactly at 1 kHz (every spectrum of an even number of samples at 2 kHz) passes the check of the gain at 1 kHz and then fails with an IndexError; a frequency that occurs twice is answered with nan.", "quantifier": "all frequency vectors, values and queried frequencies", "why_tests_cant": "The search has to hit the right segment for every vector and query; tests use a handful of grids, never one that ends at the queried frequency.", "anchors": ["dsptoolbox/tools.py: get_exact_value_at_frequency", "dsptoolbox/helpers/spectrum_utilities.py: _get_exact_gain_1khz", "dsptoolbox/helpers/other.py: find_nearest_points_index_in_vector"]}
{"id": "C103", "title": "Normalised spectra in decibel keep the shape of every channel and are 0 dB where they should be", "statement": "For every spectrum, frequency vector, range and number of channels: without normalisation the level of every entry within 500 dB of the largest one is 20 (10) times the logarithm of the amplitude (power), related to 20 uPa (or its square) for calibrated signals, and levels never lie more than 500 dB below each other; the frequencies are the part of the vector from the point nearest to the lower bound to the point nearest to the upper bound. Every normalisation moves the levels of a channel by one value, the variants for the first channel all channels by the same value; then the largest level (of every or the first channel) is 0 dB, the polygon through the levels passes 0 dB at 1 kHz, or the mean power is 1. With phase=True the levels are the same and the phases are the angles of the bins in the range, or, with smoothing, the smoothed continuous phase up to whole turns, between -pi and pi; spectra that are not complex are refused. Ranges that are not pairs are refused. Code facts that contradict the documentation: the normalisation to the energy of the first channel always raises ValueError for power spectra; power spectra are never smoothed; the normalisation at 1 kHz raises IndexError for spectra that end at 1 kHz.", "quantifier": "all spectra, frequency vectors, ranges, normalisations, scalings and numbers of channels; smoothing by any operator", "why_tests_cant": "Tests only check that plotting runs. The combinations of scaling, normalisation, range and number of channels are not enumerable, and some of them fail always.", "anchors": ["dsptoolbox/helpers/spectrum_utilities.py: _get_normalized_spectrum", "dsptoolbox/helpers/spectrum_utilities.py: _get_exact_gain_1khz", "dsptoolbox/classes/signal.py: plot_magnitude", "dsptoolbox/helpers/gain_and_level.py: to_db"]}
{"id": "C104", "title": "Fractional octave smoothing averages: same length, no value outside the range of the input", "statement": "For every vector, fraction and window without negative samples (the default Hann window is one), on the linear grid (at least two values) and on a logarithmic grid: the smoothed vector has the length of the input and no value lies outside the range of the input, so constants are not changed. Multiplying all values by a number or moving them by an amount does the same to the smoothed values. On a logarithmic grid every value is the weighted mean of its neighbours, with the first and last value continued beyond the ends, and the width of the window differs from the fraction of an octave by less than two bins. With clipping negative values become 0 and nothing else changes. Empty vectors and single values on the linear grid are refused. Code facts that contradict the documentation: the array given as window is overwritten (its sum is 1 afterwards); a given window whose length is not the one computed inside gives a result of another length on a logarithmic grid and a ValueError on the linear one.", "quantifier": "all vectors, fractions, spacings, window types and window vectors", "why_tests_cant": "Two interpolations and a convolution with padding have to fit for every length and fraction; tests compare a few curves and do not look at the arrays of the caller.", "anchors": ["dsptoolbox/helpers/smoothing.py: _fractional_octave_smoothing", "dsptoolbox/tools.py: fractional_octave_smoothing"]}
{"id": "C105", "title": "Logarithmic, fractional octave and ERB frequency grids cover exactly the requested range", "statement": "For all positive limits: the logarithmic vector starts at the lower limit, multiplies by 2^(1/n) in every step, stays below the upper limit, and one more step would reach it. For every number of fractions other than 1 and 3 the centre frequencies are numbers 1000*2^(k/b) within half a band of the limits, and every frequency of the range is at most half a band away from one of them. For octaves and third octaves exactly the nominal frequencies in the range are returned, and the exact ones have consecutive band numbers (-5..4 and -16..13) with the ratio 10^(3/10), so that neighbouring bands have a common limit. The ERB frequencies are exactly the frequencies of the range that lie a whole number of steps from the reference on the ERB scale, in ascending order, also for references outside the range. Band limits have the centre as geometric mean and the ratio 2^(1/n). Invalid ranges and resolutions are refused. Code fact that contradicts this: for fractions other than 1 and 3, there is a gap between any two neighbouring bands, because the centres use the ratio 2 and the limits 10^(3/10).", "quantifier": "all limits, numbers of fractions, resolutions and reference frequencies", "why_tests_cant": "Rounding of band numbers and the last entry depend on the limits; tests compare a few tables.", "anchors": ["dsptoolbox/tools.py: log_frequency_vector", "dsptoolbox/tools.py: fractional_octave_frequencies", "dsptoolbox/tools.py: erb_frequencies", "dsptoolbox/standard/_standard_backend.py: _center_frequencies_fractional_octaves_iec", "dsptoolbox/standard/_standard_backend.py: _exact_center_frequencies_fractional_octaves", "dsptoolbox/helpers/other.py: _get_fractional_octave_bandwidth"]}
{"id": "C106", "title": "Logarithmic mean and the crossover function over frequency", "statement": "For every vector with N >= 2 entries, log_mean is the mean of the values of the polygon through the entries at the positions N^(k/(N-1)) and lies between the smallest and the largest entry. For every region at least 4 Hz wide (linear) or an octave wide (logarithmic), the crossover function is 0 below the lower limit and 1 above the upper one; linear regions below 4 Hz are refused. Code facts that contradict the documentation: on the linear axis the value at the upper limit stays below 1 (the function jumps there); on the logarithmic axis the function is 1 already from the last grid point on, which lies below the upper limit.", "quantifier": "all vectors; all regions; every interpolating spline", "why_tests_cant": "The end of the region is only visible for exact limits; tests evaluate far away from them.", "anchors": ["dsptoolbox/tools.py: log_mean", "dsptoolbox/tools.py: frequency_crossover"]}
{"id": "C107", "title": "Saved objects are found again under the name they were saved with", "statement": "For every path and format: a file name without a dot is completed with the format, a name with that extension is used as it is, every other extension is refused; the resulting path always ends with the format and is accepted unchanged afterwards. After every history of saves, loading gives the object saved last under the same file, whether the extension is written in either call or not, and a save changes no other file. Signals are written in the sample format that belongs to the bit depth (16, 24, 32, 64), and all other bit depths and modes are refused. Code fact that contradicts the documentation: any dot in the name counts as a format, so that names such as take.1 are refused instead of completed.", "quantifier": "all paths, formats, objects and histories of saves", "why_tests_cant": "Paths have unbounded shapes (dots in folders, in names, several extensions); tests save to one or two names.", "anchors": ["dsptoolbox/helpers/other.py: _check_format_in_path", "dsptoolbox/classes/signal.py: Signal.save_signal", "dsptoolbox/classes/filter.py: Filter.save_filter", "dsptoolbox/classes/filterbank.py: FilterBank.save_filterbank", "dsptoolbox/classes/spectrum.py: Spectrum.save_spectrum", "dsptoolbox/classes/multibandsignal.py: MultiBandSignal.save_signal", "dsptoolbox/standard/other.py: load_pkl_object"]}
{"id": "C108", "title": "What is sent to the sound driver by play and play_and_record, and which device is used", "statement": "For every signal, duration, level and channel selection that is accepted: the driver gets the first samples of every channel, multiplied with one positive factor so that the largest sample has exactly the requested peak level (none exceeds full scale), for the given channels and on the given device, which becomes the default. Channel numbers below 1, durations that are not positive, levels above 0 dBFS and (for play_and_record) a wrong number of channels are refused. A device given by name is the first one whose name contains it, ignoring case; set_device accepts only existing devices and homogeneous pairs. record requests the whole samples of the duration and all given channels, and refuses exactly the channel numbers below 1; sleep never waits longer than asked and less than a millisecond too short. Code facts that contradict the documentation: record does not refuse negative durations; play_and_record refuses every duration given as a float; the order of the channels is ignored (they are sorted); a silent signal is played as nan.", "quantifier": "all signals, durations, levels, channel lists and device lists", "why_tests_cant": "No test runs the audio functions, they need hardware; selections and durations are unbounded.", "anchors": ["dsptoolbox/audio_io/audio_io.py: play", "dsptoolbox/audio_io/audio_io.py: play_and_record", "dsptoolbox/audio_io/audio_io.py: get_interface_number_by_name", "dsptoolbox/audio_io/audio_io.py: set_device"]}
{"id": "C109", "title": "FIR designers reach the desired magnitude and group delay", "statement": "For every magnitude, group delay and (sufficiently long) grid the untrimmed filter of FirDesigner has exactly the desired magnitude in every bin below Nyquist, phase zero at dc, and between two neighbouring bins a group delay equal to the mean of the two desired ones plus the increase; with ensure_integer_delay also the Nyquist bin, with one constant additional delay below a sample. A constant group delay of D whole samples gives exactly the impulse at sample D for every length (also when the grid is refined), both rules of integration and both options. The trimmed length is the largest delay in samples rounded down plus two (plus the additional ones). For every phase the PhaseLinearizer filter has magnitude one and turns the phase into a linear one up to a quarter of its second difference. Wrong lengths and negative parameters are refused. Code fact: a phase whose group delays are all negative gets a negative target, although causality is intended.", "quantifier": "all targets, lengths, sampling rates, phases and parameters", "why_tests_cant": "Tests design one or two filters and look at plots; the identities hold bin by bin for arbitrary targets.", "anchors": ["dsptoolbox/classes/group_delay_designer_phase_linearizer.py: FirDesigner", "dsptoolbox/classes/group_delay_designer_phase_linearizer.py: GroupDelayDesigner", "dsptoolbox/classes/group_delay_designer_phase_linearizer.py: PhaseLinearizer"]}
{"id": "C110", "title": "Kautz filters: streaming, orthonormal taps and least squares", "statement": "For every set of accepted poles and every history of samples on all channels, resets, channel changes, new coefficients and fits, process_sample of a KautzFilter returns the last sample of filter_signal with the current coefficients applied to all samples of the channel since the last reset; a missing channel raises IndexError. The impulse responses of the taps are orthonormal; the squares of the taps never exceed the energy of the input. fit_coefficients_to_ir gives the inner products with the taps, which is the unique least squares optimum for these poles: the squared error of any other coefficients d converges to the energy of the IR minus the sum of c^2 plus the sum of (c-d)^2. Poles below the real axis or not inside the unit circle and coefficients of the wrong number are refused. The fit to the filter's own impulse response recovers the coefficients in the limit of long responses. Code facts: it does not recover them for finite responses; fit_poles_and_coefficients_to_ir loses the number of channels.", "quantifier": "all poles, coefficients, histories, signals and impulse responses", "why_tests_cant": "Orthonormality, optimality and independence of the history are statements about all pole sets, all signals and infinite responses.", "anchors": ["dsptoolbox/classes/kautz_filter.py: KautzFilter"]}
{"id": "C111", "title": "Parallel filters: streaming, fitted response, spacing of the FIR part", "statement": "After every fit_to_ir (any poles, any delay, any solution of the least squares problem) and every history of samples on all channels, resets and channel changes, process_sample of a ParallelFilter returns the last sample of filter_signal applied to all samples of the channel since the last reset, and a missing channel raises IndexError. For stable sections and contiguous (or at most two) FIR coefficients the impulse response has at every frequency exactly the value that the model matrix of the fit assigns to the solution. Poles outside of the open unit disc, at the origin, below the real axis or (nearly) repeated are refused, as are negative numbers. Code facts: before a fit everything (also set_coefficients) raises AttributeError; delay_iir_samples=None raises TypeError; with a spacing of offset > 1 samples three or more FIR coefficients are placed at multiples of offset+1 instead of offset, one of offset+2 is overwritten and more raise ValueError; set_coefficients does not reach the realtime filters; a delay set after the fit breaks the realtime interface.", "quantifier": "all poles, solutions, delays, spacings, histories and signals", "why_tests_cant": "Tests fit one response and compare plots; agreement of both ways of filtering for all histories and the exact response cannot be tested.", "anchors": ["dsptoolbox/classes/parallel_filter.py: ParallelFilter"]}
{"id": "C112", "title": "Gammatone filter bank: responses, delays, reconstruction", "statement": "Every bank returned by auditory_filters_gammatone for a range without negative frequencies has exactly the frequencies of the ERB grid in the range as centre frequencies; each band convolves the signal with the gammatone response of order four with the documented bandwidth, is stable, and has the response 2 at its centre frequency and less everywhere else. The matrix used for the gains contains the responses of the corrected bands at the centre frequencies; gains at which the iteration rests (always those of a single band) make the summed response 1 there. reconstruct returns a real signal of the same shape: from 4 ms on it is the signal filtered with the weighted sum of the corrected impulse responses. Code facts: the impulse used to find the delays comes after the samples that are searched, so that all bands get the same delay and no envelope has its maximum at 4 ms; the bands are shifted circularly, so that the end of the signal appears at its beginning; a single band of one channel cannot be reconstructed; negative frequencies are accepted and give unstable bands.", "quantifier": "all ranges, resolutions, sampling rates, bands, frequencies and signals", "why_tests_cant": "The tests only call the functions; responses at all frequencies and reconstruction of all signals cannot be tested.", "anchors": ["dsptoolbox/filterbanks/filterbanks.py: auditory_filters_gammatone", "dsptoolbox/filterbanks/_filterbank.py: GammaToneFilterBank"]}
{"id": "C113", "title": "Integrated loudness is the gated loudness of the K-weighted blocks", "statement": "`lufs_integrated(s)` of a signal with at most five channels, longer than 400 ms and sampled above 3000 Hz returns -0.691 + 10 log10 of the mean energy of the blocks of 400 ms (a quarter of a block apart, channels weighted 1, 1, 1, 1.41, 1.41, K-weighted) that are louder than -70 LUFS and louder than 10 dB below the mean of all blocks louder than -70 LUFS. There is a result exactly if a block is louder than -70 LUFS; it lies above -70 LUFS, not below the loudness of the blocks that pass the first gate and not above the loudest block. A gain of g shifts it by 20 log10 |g| as long as no block crosses -70 LUFS, channels of equal weight can be exchanged and a silent channel changes nothing. More than five channels raise AssertionError. The signal of the caller is left as it was.", "quantifier": "For all signals (number of samples, channels, samples), sampling rates and gains.", "why_tests_cant": "The selection of blocks depends on all blocks together; a test compares single files with a reference value.", "anchors": ["dsptoolbox/standard/gain_and_level.py:203-281", "dsptoolbox/standard/_framed_signal_representation.py:9-67", "dsptoolbox/helpers/other.py:181-213", "dsptoolbox/classes/signal.py:428-455"]}
{"id": "C114", "title": "Peak levels, RMS and crest factor measure what they name", "statement": "`true_peak_level(s)` reports for every channel 20 log10 of its largest sample magnitude and 20 log10 of the largest magnitude after oversampling by four, with or without amplitude constraint as long as the oversampled signal stays below 12.04 dBTP (a constrained signal never reports more), and 20 log10(2^-1022) for silence. `rms` reports the standard deviation of every channel: its RMS value if it has no offset, less otherwise. `crest_factor(s)` is the largest magnitude over that value: at least 1 (0 dB), independent of the gain, in dB the difference of the peak level and the level of `rms`, the ratio of peak and RMS value if the channel has no offset and larger otherwise; a constant channel has no finite crest factor. For a `MultiBandSignal` the rows are the crest factors of the bands.", "quantifier": "For all signals (number of samples, channels, samples), homogeneous oversamplers, gains and lists of bands.", "why_tests_cant": "Bounds and invariances hold for every signal; the comparison of bands and signals concerns every output of both branches.", "anchors": ["dsptoolbox/standard/gain_and_level.py:121-200", "dsptoolbox/standard/gain_and_level.py:362-401", "dsptoolbox/helpers/gain_and_level.py:158-200"]}
{"id": "C115", "title": "A resampled filter keeps its response up to the frequency warping, and stays stable", "statement": "`resample_filter(filter, new_rate)` of a real filter given by zeros, poles and gain never refuses, and the response of the result at z' equals that of the given filter at z whenever both points stand for the same analog frequency, fs (z - 1)/(z + 1) = fs' (z' - 1)/(z' + 1); on the unit circle: at frequencies with fs tan(pi f/fs) = fs' tan(pi f'/fs'). A stable filter stays stable, zeros inside the unit circle or at -1 stay there, real filters stay real, the result has as many zeros as poles, resampling to the same rate keeps the response and so does resampling back.", "quantifier": "For all lists of zeros and poles, gains, rates, and points of the complex plane (the frequency response at every frequency).", "why_tests_cant": "Tests compare the plots or responses of a few designs; the map concerns every arrangement of zeros and poles.", "anchors": ["dsptoolbox/standard/resampling.py:46-83", "dsptoolbox/classes/filter.py:284-308", "dsptoolbox/classes/filter.py:955-964"]}
{"id": "C116", "title": "The frequency-weighted segmental SNR stays in its range and ignores levels", "statement": "`fw_snr_seg(x, xhat)` refuses exactly signals of different rates or lengths, differing numbers of channels unless the original has one, frequency ranges that are not positive or reach half the (integer) Nyquist frequency, and gammas outside [0.1, 2]. Otherwise there is one value per channel of `xhat`, the value of the call with the single channels (a single original is compared with all). Every value lies in the requested range, in whichever order its limits are given; it depends neither on the levels nor on the polarity of the two signals; a signal compared with a multiple of itself gets the upper limit as long as no bin falls too far below the others. Every accepted call returns numbers.", "quantifier": "For all signals (samples, lengths, channels, rates), homogeneous filter banks, ranges, gammas and gains.", "why_tests_cant": "The invariances and the range concern every signal; a single silent frame in one band decides about the result of the whole signal.", "anchors": ["dsptoolbox/distances/distances.py:275-387", "dsptoolbox/distances/_distances.py:104-195", "dsptoolbox/helpers/other.py:181-213"]}
{"id": "C117", "title": "Signals turned into spectra come back from them", "statement": "`Spectrum.from_signal(sig, complex=True).to_signal(fs)` returns the samples of the signal (scaled down to a peak of 1 if they exceed it), with zeros up to the length of the transform or, with `length_seconds`, up to the requested length, for every signal and every scaling that gives a complex spectrum. A spectrum whose frequencies do not fit the sampling rate, or are not linear, is interpolated: the signal has the requested or inferred length, its transform has the stored values at stored frequencies and zero outside the stored range. The magnitude spectrum is the same for power and amplitude scalings. Magnitudes, and complex spectra of power scalings or Welch's method, are refused with an AssertionError. `to_signal` does not change the spectrum.", "quantifier": "For all signals (lengths, channels, samples, rates), scalings, spectra, requested rates and lengths, and every interpolator through the given points.", "why_tests_cant": "The round trip depends on the parity of the length, the scaling and the distance of the rates; tests use one signal of one length.", "anchors": ["dsptoolbox/classes/spectrum.py:32-86", "dsptoolbox/classes/spectrum.py:316-403", "dsptoolbox/classes/spectrum.py:544-684", "dsptoolbox/classes/signal.py:861-946", "dsptoolbox/standard/enums.py:53-123"]}
{"id": "C118", "title": "The activity detector splits a signal by its level", "statement": "`activity_detector(signal, threshold_dbfs, relative_to_peak, pre_filter, attack_time_ms, release_time_ms)` returns the active samples, the rest as noise and the marks: every sample of the channel is in exactly one of the two signals and, put together as the marks say, they give the channel again. A sample is active exactly if the exponential average of the squared (filtered, peak normalized) samples with the release time exceeds the threshold. A higher threshold never makes a sample active; with a threshold relative to the peak neither gain nor polarity changes the marks. If nothing is active, 500 zeros are returned and the noise is the whole channel. Thresholds that are not negative and negative times are refused with an AssertionError.", "quantifier": "For all channels, filters that keep the length, thresholds, times and sampling rates.", "why_tests_cant": "The level is a recursion over all samples with a branch in every step; the tests call the function once and look at nothing but the absence of errors.", "anchors": ["dsptoolbox/standard/other.py:55-188", "dsptoolbox/standard/_standard_backend.py:324-379", "dsptoolbox/helpers/smoothing.py:132-166"]}
{"id": "C119", "title": "Detrending subtracts the closest polynomial, envelopes follow what is left", "statement": "`detrend(sig, polynomial_order)` keeps the shape of the signal and leaves in each channel the samples minus the closest polynomial of that order (least squares). Hence the result does not depend on how the polynomial is found, has no moments up to the order (no mean for order 0), polynomials and signals with no more samples than coefficients vanish, detrending is linear and idempotent, and a higher order never leaves more energy. Negative orders are refused with an AssertionError. `envelope(analytic=False, window_length_samples=w)` is, in every channel, the root of the mean square of the last w samples of the signal without linear trend (zeros before the beginning), never above their largest absolute value and for w=1 equal to it; missing and non-positive lengths are refused. `envelope(analytic=True)` is never below the absolute values of the signal without linear trend.", "quantifier": "For all signals, channels, orders, window lengths and every solution of the least squares problem.", "why_tests_cant": "The claims are about every signal and every order; the tests check the mean of one signal and that the calls return.", "anchors": ["dsptoolbox/standard/other.py:182-284", "dsptoolbox/standard/_standard_backend.py:382-405"]}
{"id": "C120", "title": "Dither stays within the quantization step", "statement": "`dither(s, triangular_distribution, epsilon, noise_shaping_filterbank, truncate)` returns a signal of the same shape whose samples differ from those of `s` by at most epsilon/2 (uniform) or epsilon (triangular); with a noise shaping filter bank the difference is the noise after all filters of the bank in series; with `truncate=True` all samples are numbers of 16-bit floating point, as close to the signal as rounding and noise allow.", "quantifier": "For all signals whose amplitude is not constrained, all draws of the noise, steps, filter banks and every way of breaking ties in the rounding.", "why_tests_cant": "The noise is random: a test sees one draw. The claims hold for all of them.", "anchors": ["dsptoolbox/standard/other.py:287-364", "dsptoolbox/classes/filter_helpers.py:432-438"]}
{"id": "C121", "title": "The difference of two spectra is their quotient within a dynamic range", "statement": "`spectral_difference(a, b, 0, energy_normalization, complex, dynamic_range_db)` returns a/b on the frequencies of `a`: without `complex` the divisor is the magnitude of `b`, raised in each channel to the largest one minus the dynamic range; with `complex` it is `b` itself. Between the bins of `b` its power is interpolated. Energy normalization divides each channel by the root of the area under its squared magnitudes, so that gains of channels do not matter and a spectrum differs from itself by 1 wherever the dynamic range is not exceeded. Inputs with different numbers of channels and magnitudes for a complex difference are refused. With smoothing, after the normalization, gains still do not matter, positive magnitudes differ from themselves by 1, and no value leaves the interval from the quotient of the smallest and largest to that of the largest and smallest magnitudes of the channels; frequencies that are neither linear nor logarithmic are refused.", "quantifier": "For all spectra, numbers of channels, ascending frequency vectors, gains, dynamic ranges and octave fractions.", "why_tests_cant": "The divisor depends on the largest value of a channel, on its energy and on two grids; tests use a few spectra on one grid.", "anchors": ["dsptoolbox/standard/other.py:408-482", "dsptoolbox/classes/spectrum.py:233-269", "dsptoolbox/classes/spectrum.py:544-760"]}
{"id": "C122", "title": "A room impulse response is convolved with every channel", "statement": "`convolve_rir_on_signal(s, rir, keep_peak_level, keep_length)` returns the convolution of every channel of `s` with `rir`, cut to the length of `s` or in full. With `keep_peak_level` each channel is multiplied by one factor so that its largest magnitude is that of the channel of `s`, whatever the gain of `rir`; without it a signal of constrained amplitude is scaled as a whole so that no sample exceeds 1. A response that is a single 1 changes nothing. Responses with several channels or another sampling rate are refused.", "quantifier": "For all signals and responses with at least two samples and one sample, all numbers of channels and flags.", "why_tests_cant": "Every output sample depends on all earlier input samples and on the peaks of two arrays; the code switches between two algorithms by the ratio of the lengths.", "anchors": ["dsptoolbox/room_acoustics/room_acoustics.py:216-265"]}
{"id": "C123", "title": "Energy decay curve", "statement": "For every response, sampling rate and end of the response, whenever _compute_energy_decay_curve (used by reverb_time) returns, its curve is not empty, starts with 0 dB, and value n is the level of the energy left after sample n relative to the first value: either the plain energy for 95 % of the samples from the start, or the energy less the noise power of every sample plus a constant compensation, as far as this is positive. Without noise the curve never rises. With noise it can rise (samples weaker than the noise), although reverb_time searches it as a sorted array; it changes with the gain of the response (level and slope of the fitted line are swapped); an untrimmed response that starts with its first sample raises IndexError.", "quantifier": "all responses, all sampling rates, all end indices", "why_tests_cant": "The curve is chosen by a fit, a comparison with the noise and the sign of energies; tests look at a few measured responses and at the resulting reverberation times.", "anchors": ["dsptoolbox/room_acoustics/_room_acoustics.py:1140-1222 (_compute_energy_decay_curve)", "dsptoolbox/room_acoustics/_room_acoustics.py:60-85"]}
{"id": "C124", "title": "Room modes from measured responses", "statement": "For all sets of spectra, ranges, distances and prominences, the modes returned by `find_modes` are in rising order, lie strictly inside of the range, are at least `dist_hz` apart, and the mode indicator is larger there than at two frequencies below and above with equal levels in between; without a required prominence no maximum is missed (another mode nearer than `dist_hz` with at least its level is returned instead). The indicator is the power of a single response, and for several responses the root of s^2 = |h_0| s + sum_{i>0} |h_i|^2 (largest singular value). A gain common to all responses does not change the modes. The modes depend on the order of the responses, and giving the same response twice halves all prominences. A range whose end is not above its start raises IndexError.", "quantifier": "For all spectra, numbers of channels, sampling rates, ranges, distances, prominences, both kinds of resonances.", "why_tests_cant": "The indicator is a singular value per frequency and the selection of peaks depends on all values; tests run it on one response.", "anchors": ["dsptoolbox/room_acoustics/room_acoustics.py:140-213", "dsptoolbox/room_acoustics/_room_acoustics.py:118-160"]}
{"id": "C125", "title": "Warping of frequency vectors", "statement": "For every factor between -1 and 1 and every sampling rate, `tools.warp_frequency` maps the point of the unit circle of each frequency by the allpass (z + lambda)/(1 + lambda z): the order of frequencies is kept, 0 and half of the sampling rate stay, the range in between is mapped onto itself, the opposite factor undoes the map, negative factors move frequencies up and positive ones down. The map agrees with `transforms.warp` (the spectrum of the warped response at the warped frequency is that of the response at the frequency) and `warp_filter`. `Spectrum.warp` succeeds exactly if the factor is between -1 and 1 and the last frequency is not above half of the sampling rate (or close to it), changes nothing but the frequency vector, and is undone by the opposite factor.", "quantifier": "For all frequency vectors, spectra, sampling rates, factors, responses.", "why_tests_cant": "Monotonicity, inverse and agreement with the warping of signals are statements about all frequencies and factors; tests compare single values.", "anchors": ["dsptoolbox/helpers/spectrum_utilities.py:456-489", "dsptoolbox/classes/spectrum.py:762-803", "dsptoolbox/classes/spectrum.py:151-179"]}
{"id": "C126", "title": "Appending spectra and filter banks", "statement": "Whenever `append_spectra` succeeds, the result has the frequencies of the first spectrum and the channels of all spectra in order, each interpolated with the parameters of its own spectrum, and never more channels than frequencies. Spectra with the same frequencies keep their values exactly: magnitudes always, complex values if their domain of interpolation is a complex one. With the default parameters complex spectra are turned into their powers (2i becomes 4). Fewer than two spectra, or magnitudes among complex spectra, raise AssertionError. `append_filterbanks` joins the filters of all banks in order and keeps the book-keeping right exactly if flag and sampling rates of all banks are those of the first one; multirate banks with different lists of rates cannot be joined.", "quantifier": "For all lists of spectra with all parameters of interpolation, all interpolators that return the given values, all lists of filter banks.", "why_tests_cant": "The result depends on grids, domains and schemes of every spectrum; the tests append spectra and banks of one kind and check lengths.", "anchors": ["dsptoolbox/standard/appending.py:131-204", "dsptoolbox/classes/spectrum.py:544-684", "dsptoolbox/classes/filterbank.py:198-241"]}
{"id": "C127", "title": "Spectral subtraction", "statement": "`SpectralSubtractor` splits every channel into windowed blocks and subtracts a multiple of a power of the noise from the same power of the magnitude of each bin: phases are kept, no magnitude grows, magnitudes stop at zero, and the result has the length of the signal. In the adaptive mode the noise is the weighted mean of the magnitudes of the blocks below the threshold so far, each weight fading by the forgetting factor, never above the largest of them. If every block is above the threshold or silent, the signal comes back unchanged, for all windows whose squares add up to 1e-4. In the static mode a given power spectrum is subtracted with the documented exponent; the noise found by the activity detector is subtracted with half of it. The peaks of the channels are restored; a silent channel turns into `nan`. All histories of setter calls keep the settings valid; a nonzero spectrum switches the adaptive mode off, but calling `set_parameters` for another parameter forgets the spectrum, and the adaptive mode can be switched on again with the spectrum kept.", "quantifier": "For all channels, windows, overlaps, thresholds, exponents, factors, spectra, lengths and histories of setter calls.", "why_tests_cant": "The noise estimate depends on all earlier blocks and reconstruction on window and overlap; the tests only check that the effect runs.", "anchors": ["dsptoolbox/effects/effects.py:138-551", "dsptoolbox/effects/effects.py:105-119"]}
{"id": "C128", "title": "Reading and filtering the bands of a multiband signal", "statement": "`get_all_bands(channel)` of a multiband signal with one sampling rate returns a signal whose channel n is the chosen channel (counted from the start or from the end) of band n, every sample unchanged, real and imaginary part; with different rates it returns these vectors and the rates. `get_all_time_data` returns every sample of every channel of every band at its place. Adding up the channels of `get_all_bands(c)` gives channel c of `collapse`. Missing bands and channels raise IndexError. `filter_multiband_signal` multiplies band n by the transfer function of filter n and of no other, keeps rates and shapes, rejects rates that do not match, and on equal bands does what parallel filtering does; filters beyond the number of bands are ignored. With more bands than samples `get_all_bands` returns the transposed signal.", "quantifier": "For all multiband signals, numbers of bands and channels, channel indices, filters and sampling rates.", "why_tests_cant": "It has to hold for every number of bands, channel and position; the tests call the methods on one signal and do not compare values.", "anchors": ["dsptoolbox/classes/multibandsignal.py:463-572", "dsptoolbox/classes/filterbank.py:479-530"]}
{"id": "C129", "title": "Adaptive reverberation time", "statement": "The default mode of `reverb_time` returns 60 dB divided by the slope of the line fitted to the decay curve between a start level and an end level 20 to 59 dB below it, together with the correlation of the same samples; no other end level that is tried has a lower correlation. The start level is -5 dB, or the common level of the early (EDT) and late (T30) line if the early decay is more than ten times faster. For every curve that never rises the time is positive and the correlation lies between -1 and 0; it is -1 only if the samples between the levels lie on a falling line, whose 60 dB time is then returned. The same curve at c times the sampling rate gives 1/c of the time. For a straight decay by D dB per second the correlation is -1, but the time is not 60/D: it is larger by the factor L/(L-1) for a curve of L samples. The documented end levels 10 and 60 dB below the start are not tried.", "quantifier": "For all decay curves, lengths, sampling rates and decay rates.", "why_tests_cant": "The choice of start and end depends on the whole curve; the tests check the type of the result for one measured response.", "anchors": ["dsptoolbox/room_acoustics/_room_acoustics.py:999-1137", "dsptoolbox/room_acoustics/_room_acoustics.py:60-68"]}
{"id": "C130", "title": "The correlation returned with a latency tells how well the channels agree", "statement": "latency returns for each channel, next to the delay in samples, the correlation of the two channels after compensating the delay. It lies between -1 and 1, does not depend on which of the channels is called the delayed one, is 1 (-1) exactly if the compared parts agree up to a positive (negative) gain and an offset, and raises inside for less than two common samples. Exact delayed copies therefore come back with their delays and correlation 1. Removing a latency from a phase turns it forward by 2 pi f latency/fs, wrapped into [-pi, pi), undoes exactly the phase of that delay and composes additively. Not so: one silent channel makes the correlations of all channels 0, because its latency leaves one sample in common and the exception of that channel is caught for all; and for one signal with three or more channels the reversed latencies are judged against the channels in forward order (exact copies get correlation -1).", "quantifier": "All pairs of channels, all integer latencies, all numbers of channels, all gains, offsets, phases and frequencies", "why_tests_cant": "The claim is about every pair of waveforms and every delay; the tests check one noise signal with one delay.", "anchors": ["dsptoolbox/standard/latency_delay.py:14-115", "dsptoolbox/helpers/latency.py:152-181", "dsptoolbox/helpers/latency.py:218-265"]}
{"id": "C131", "title": "The bank of fractional octave filters", "statement": "fractional_octave_bands returns one Butterworth filter for each centre frequency of the grid (C105), in order, with limits half a band below and above the centre (octave 10^(3/10)); it is a band-pass filter if the upper limit is at most half the sampling rate, else a high-pass filter. Without a sampling rate, without exactly two limits, or with a limit from half the sampling rate on, the call is refused; the order of the limits does not matter; all frequencies handed to the design lie between zero and half the sampling rate. Each filter passes half the power at its limits and never more than the full power. The documented claim that the bank is energy preserving for even orders is false for every bank of at least two filters and every order: inside each band-pass band there is a frequency where the powers of all filters add up to more than one. A band whose upper limit is exactly half of an even sampling rate is neither made a high-pass filter nor accepted.", "quantifier": "All frequency ranges, fractions, sampling rates, filter orders and frequencies", "why_tests_cant": "The claim about the energy is about all frequencies of all banks; the tests only construct a bank and filter noise with it.", "anchors": ["dsptoolbox/filterbanks/filterbanks.py:336-413"]}
{"id": "C132", "title": "Room acoustical descriptors with trimming, for bands, and the bass ratio", "statement": "descriptors gives one value per channel, depending on this channel only, and for a MultiBandSignal one row per band. With automatic trimming D50 is the energy of the first 50 ms over the energy until the end found (at least 50 ms) and lies between 0 and 1; trimming never lowers D50 or C80; if the end lies within 80 ms the clarity is not finite; the centre time lies between 0 and the duration of the response. The bass ratio is the ratio of the reverberation times of the octaves around 125 and 250 Hz to those around 500 and 1000 Hz; it is refused for bands and for sampling rates up to 2001 Hz. Not so: for a MultiBandSignal the argument automatic_trimming_rir is dropped, the bands are always trimmed, and the values differ from those of the same responses without trimming.", "quantifier": "All responses, sampling rates, numbers of channels and bands, and all results of the trimming", "why_tests_cant": "The effect of the trimming has to be ordered for every response and every end found; the tests only run the function.", "anchors": ["dsptoolbox/room_acoustics/room_acoustics.py:452-541", "dsptoolbox/room_acoustics/_room_acoustics.py:889-997"]}
{"id": "C133", "title": "Complex smoothing takes weighted means over fractions of an octave", "statement": "complex_smoothing replaces every bin by a weighted mean of the bins within half of the smoothing width above and below it (up to half a bin); the weights are not negative, sum to one and do not depend on the spectrum, and the bin at 0 Hz is kept. A constant spectrum is not changed in any smoothing domain, all domains commute with a gain, and RealImaginary is linear. The magnitudes are ordered: RealImaginary gives at most Magnitude and this at most Power; MagnitudePhase has the magnitude of Magnitude, PowerPhase and EquivalentComplex have that of Power; Magnitude and Power keep the phase, EquivalentComplex has the phase of RealImaginary. The smoothed magnitudes lie between bounds of the magnitudes in the range. The window is skewed: of two bins placed symmetrically in the range the lower one counts at least as much. A fraction that is not positive is refused.", "quantifier": "All spectra, smoothing fractions, frequency steps, numbers of bins and all windows that are not negative and positive inside", "why_tests_cant": "The mean property, the orderings and the bounds have to hold for every spectrum, every bin and every width, also where the range is cut at the last bin; the tests only run the function.", "anchors": ["dsptoolbox/transfer_functions/transfer_functions.py:1788-1876", "dsptoolbox/transfer_functions/_transfer_functions.py:430-476", "dsptoolbox/transfer_functions/_transfer_functions.py:509-555"]}
{"id": "C134", "title": "Frequency-dependent windowing is a DFT with Gaussian windows around the peak", "statement": "window_frequency_dependent gives at every frequency above 0 Hz the DFT of the response weighted by a Gaussian window that is 1 at the first largest sample and has the end value at the distance of the requested cycles of this frequency (up to half a sample). End values that are not below 0 dB are refused. A single impulse has its exact spectrum, no bin exceeds the sum of the magnitudes of the response, more cycles give a window that is nowhere smaller and higher frequencies one that is nowhere larger, and with growing cycles the spectrum tends to the DFT of the response. Not so: the value at 0 Hz is always 0 (an IRFFT of the output has no mean); cycles that are not positive are not refused: a negative number acts like the positive one and zero gives nan.", "quantifier": "All impulse responses, sampling rates, numbers of cycles, end values and bins", "why_tests_cant": "The windows have to be right for every frequency and position of the peak, and the limit needs all numbers of cycles; the tests only run the function.", "anchors": ["dsptoolbox/transfer_functions/transfer_functions.py:1288-1377", "dsptoolbox/transfer_functions/_transfer_functions.py:489-504", "dsptoolbox/transfer_functions/_transfer_functions.py:557-571"]}
{"id": "C135", "title": "Fractional positions of peaks stay next to the largest sample", "statement": "With one polynomial point the position of a peak (find_ir_latency without minimum phase, fractional latency) is the first largest sample of the channel or the zero of the straight line through two neighbouring values of the analytic part of which one belongs to this sample; it is at most one sample away from it, in every channel and wherever the arrays are cut. If the analytic part changes its sign after the sample the zero lies there. The fractional latency of two signals, and of the channels of one signal in the same (reversed) order, is at most one sample away from the whole latency. With any number of points around a change of sign next to the largest sample, not all of them zero, the position is a zero of the polynomial through the points, between the two samples of the change; without a change on both sides it is the largest sample; positions and latencies stay within one sample of the whole ones. Not so: the integer latency is returned if no root is found. If the points reach over an end of the array TypeError is raised. If the largest sample is the last one IndexError is raised; if it is the first one and the zero would lie before it TypeError is raised.", "quantifier": "All signals, numbers of channels and all Hilbert transforms (any function keeping the length)", "why_tests_cant": "The position has to be right for every signal, every alignment of the peaks of the channels and every analytic part; the tests compare a few delays within half a sample.", "anchors": ["dsptoolbox/helpers/latency.py:10-98", "dsptoolbox/helpers/latency.py:101-149", "dsptoolbox/transfer_functions/transfer_functions.py:1380-1406"]}
{"id": "C136", "title": "The low-frequency oscillator as an object and its smoothed waveforms", "statement": "set_parameters of an LFO changes exactly the fields whose arguments are given and fails exactly for a frequency of another type or length, a note without a frequency or an unknown waveform. After any history of calls the frequency is not negative if no rhythm has negative beats per minute. get_waveform without a length gives as many samples as fit into one period. The smoothed triangle (smoothing below 125) stays in [-1, 1] and reaches the bound, and is nan exactly if all samples of the sine are zero; the smoothed sawtooth never exceeds 1, reaches 1 if any value is positive, and is periodic. Not so: a failing call leaves the object unchanged (the frequency is set before the waveform is checked); negative beats per minute give a negative frequency and an empty period; any smoothing can be passed (above 12 the sawtooth raises TypeError).", "quantifier": "All states, histories of calls, frequencies, rhythms, smoothings, phases, sampling rates and lengths", "why_tests_cant": "Histories of calls and all real parameters have to be covered; the tests plot a few waveforms.", "anchors": ["dsptoolbox/effects/_effects.py:290-397", "dsptoolbox/effects/_effects.py:439-472"]}
{"id": "C137", "title": "Interpolation of a frequency response in another representation", "statement": "tools.interpolate_fr gives one value per target frequency. Inside of the frequency range it is the converted value of the polygon through the converted input; at an input frequency it is the input value (its magnitude for amplitudes, not below the limit of to_db in the modes with dB), and it never leaves the range of the input values. Outside it is 0 for no conversion and for amplitude/power, the lowest level for input in dB and the edge value for an interpolation in dB. Capital letters in the mode do not matter. Not so: every mode that is not documented is refused (any text that starts with db2 or ends with 2db is accepted and, unless it contains amplitude, taken as power).", "quantifier": "All increasing frequency vectors, responses, target frequencies and modes", "why_tests_cant": "The claim is about all real vectors and all texts; the tests interpolate one response per mode.", "anchors": ["dsptoolbox/helpers/spectrum_utilities.py:331-453", "dsptoolbox/helpers/gain_and_level.py:28-46", "dsptoolbox/helpers/gain_and_level.py:158-200"]}
{"id": "C138", "title": "Mixing time, reverberant tail and synthetic room impulse response", "statement": "get_mixing_time returns and saves the time that solves 4 pi c^3 t^2 = n V (physical) or (21.2 + 0.58 sqrt(V)) ms (perceptual), grows with the volume, and refuses other modes and non-positive numbers of reflections. generate_synthetic_rir needs source and receiver in the room, gives exactly the requested number of samples, and with a tail changes only samples that are 0 and come after the mixing time; the noise is a common gain times magnitudes of random numbers times a decaying exponential, and never louder than half of the loudest sample around its start. A mixing time of the room is used and kept, otherwise the physical one is saved. With detailed absorption the response is the sum of the bands, each of the response for the absorption in this band; with bands that add up to the signal and the same absorption in all of them it is the response of the image source method; rooms without detailed absorption are refused. Not so: a tail can be added to every response: fewer than two nonzero samples raise IndexError, a response that ends before the mixing time raises ValueError; with at most 50 samples of tail, or silent surroundings, every zero of the tail becomes nan; a response without zeros, like a filtered one, gets no tail.", "quantifier": "All rooms, positions, responses, mixing times, reverberation times, sampling rates and random numbers", "why_tests_cant": "The noise is random and the claims hold for each draw and each response; the tests generate one response.", "anchors": ["dsptoolbox/room_acoustics/_room_acoustics.py:451-504", "dsptoolbox/room_acoustics/_room_acoustics.py:840-886", "dsptoolbox/room_acoustics/room_acoustics.py:300-451"]}
{"id": "C139", "title": "Linear predictive coding describes each frame by its own all-pole model", "statement": "lpc cuts a signal into frames that start every hop samples for as long as they start in the signal, windows them, and with the default method returns, for each frame that is not silent after the windowing, order + 1 coefficients with a leading 1 that solve the normal equations of the frame's autocorrelation together with a positive source variance equal to the prediction error; the call never fails for 1 <= order < window length. A gain on the input leaves the coefficients alone and multiplies the variances by its square. The synthesised signal has the length of the input and is a number wherever no covering frame is silent. With either method every returned model is stable.", "quantifier": "for every signal, window, hop, order below the window length and source noise", "why_tests_cant": "tests encode one speech-like signal; the normal equations, the frame that holds one sample and the effect of silence have to hold for every signal, window and hop", "anchors": ["dsptoolbox/transforms/transforms.py:1199-1283", "dsptoolbox/helpers/ar_estimation.py:100-205"]}
{"id": "C140", "title": "Minimum and excess group delay", "statement": "minimum_group_delay returns the difference quotients of the minimum phase of a response (the phase that together with the logarithm of the magnitude is the spectrum of a causal sequence), as long as it changes by less than half a turn per bin, and depends only on the magnitude of the spectrum. excess_group_delay is the group delay minus the minimum group delay at each returned frequency, the former taken from the polygon through its values when the numbers of bins differ: it is 0 for a minimum-phase response of fast length and d/fs for an impulse at sample d of the first half. With remove_ir_latency the group delay without the latency takes its place; then the result does not change when all channels are delayed (under the conditions of C152), and it is 0 at every frequency for an impulse before the last sample. (With analytic_computation an impulse after the first sample keeps one sample.)", "quantifier": "for every response, length, sampling rate and fast FFT length, analytic or numerical", "why_tests_cant": "the delays are compared on two frequency grids whose lengths depend on the signal length; tests use one response of one length", "anchors": ["dsptoolbox/transfer_functions/transfer_functions.py:990-1083", "dsptoolbox/helpers/minimum_phase.py:30-49", "dsptoolbox/standard/_standard_backend.py:37-63"]}
{"id": "C141", "title": "Window types, their parameters and the spectrogram, and the gaussian window", "statement": "Whatever a program did before, a Window is handed to scipy under the name scipy knows, with as many parameters as that window needs, namely those given last; a missing parameter raises AttributeError, a number or short sequence for GeneralGaussian TypeError or IndexError; different types have different names. The spectrogram a signal returns is that of the window type set last, however calls are ordered, as long as no parameters are given to windows afterwards and the cache is not switched off. gaussian_window has the requested length and samples a bell of the standard deviation of _gaussian_window_sigma, symmetric without offset, at most 1 and equal to 1 exactly at its middle; a periodic window is the symmetric one of one sample more without the last.", "quantifier": "for every window type, parameter and sequence of with_extra_parameter, set_spectrogram_parameters, activate_cache and get_spectrogram; for every length, alpha and offset", "why_tests_cant": "enumeration members are shared by the whole process, so what a window means depends on the history of all code; tests look at one use", "anchors": ["dsptoolbox/standard/enums.py:340-437", "dsptoolbox/helpers/windows.py:79-136", "dsptoolbox/classes/signal.py:752-773", "dsptoolbox/classes/signal.py:1030-1056"]}
{"id": "C142", "title": "Chroma features, log mel spectrogram and MFCC", "statement": "chroma_stft takes exactly positive tunings and compressions. Each pitch feature is the compressed energy of the bins less than a quarter tone from the note, each chroma feature that of the bins sounding as a note of its class in any octave: the energy between the lowest and the highest note is shared among the twelve classes without loss or double counting, and shifting everything by an octave changes nothing. The log mel spectrogram holds in each resolved band the level of a weighted mean of the energies of the bins. mfcc with given filters returns the absolute values of the cosine sums of the band levels, refuses filters of another number of bins, and a gain changes only the first coefficient as long as no band is at the limit of the logarithm.", "quantifier": "for every spectrogram frame, frequency vector, tuning, compression, range, number of bands and filter matrix", "why_tests_cant": "the bins near the borders of the notes and the bands without a bin depend on the resolution; tests only check that the functions run", "anchors": ["dsptoolbox/transforms/transforms.py:113-195", "dsptoolbox/transforms/transforms.py:335-441", "dsptoolbox/transforms/transforms.py:589-684", "dsptoolbox/transforms/_transforms.py:10-26"]}
{"id": "C143", "title": "Continuous wavelet transform and synchrosqueezing", "statement": "For every positive frequency a MorletWavelet returns a wavelet that is not zero, read from the mother wavelet (by linear interpolation except for its last sample, or from the sample before) at distances that turn its period into that of the frequency. cwt has a row per frequency and a column per sample: the convolution of the signal with the wavelet divided by the sum of its absolute values and centred; no entry exceeds the largest sample, and delayed signals have delayed scalograms. Synchrosqueezing adds to each row the coefficients of the same time that belong to it, the row being the first nearest to the momentary frequency within 5 % of the frequency of the coefficient: nothing is counted twice. Less than two samples raise ValueError. The centre frequency that a real wavelet inherits is the lower one of the two mirrored peaks of its spectrum. The length of the longest wavelet is the largest of the lengths for the given frequencies. Not so: it is that of the wavelet; a tone with k periods in N samples gets its frequency times N / (N - 1).", "quantifier": "for every bandwidth, scale, step, bounds, frequency, sampling rate, signal, wavelet and scalogram", "why_tests_cant": "the index arithmetic at the end of the mother wavelet depends on the rounding of lengths for each frequency; tests run one frequency vector and only look at shapes", "anchors": ["dsptoolbox/transforms/_transforms.py:53-324", "dsptoolbox/transforms/transforms.py:687-760"]}
{"id": "C144", "title": "Variable-Q transform", "statement": "vqt returns bins_per_octave rows for each octave, from low to high and each as long as the signal: the row d places before the last belongs to the tone d steps below the B of the highest octave and is the signal, resampled to the rate of the octave, convolved (centred) with a complex exponential of that tone under a window that sums up to one, and resampled back. A tone on the frequency of a row gives magnitude one. The frequency vector gives the frequency of every row, channels can be selected, and gamma widens the bands by the given number of Hz.", "quantifier": "for every signal, sampling rate, quality, gamma, range of octaves, number of bins, tuning, window and resampler", "why_tests_cant": "tests look at one setting; which rows and frequencies belong together depends on octaves, bins, sampling rate and the rounding of np.arange", "anchors": ["dsptoolbox/transforms/transforms.py:812-923", "dsptoolbox/transforms/_transforms.py:327-383"]}
{"id": "C145", "title": "ARMA approximation of impulse responses", "statement": "arma refuses several channels, a denominator order below one or not below the length, a negative numerator order, unknown methods and cutoffs outside of [0, 1). Otherwise the denominator is the autoregressive estimate, and the numerator is, among all of its order, one whose transfer function is nearest (in squares, at the bins of the DFT) to the spectrum of the impulse response; if the impulse response is exactly that of a filter with this denominator and a numerator of this order, the numerator is found.", "quantifier": "for every impulse response, orders, method, cutoff and least-squares solver", "why_tests_cant": "the frequencies at which both sides are compared depend on the parity of the length; tests run one impulse response and only that a filter is returned", "anchors": ["dsptoolbox/filterbanks/_filterbank.py:1507-1644"]}
{"id": "C146", "title": "A spectrum keeps its grid, data, coherence and parameters together", "statement": "Whatever successful calls a `Spectrum` has gone through (setting data, coherence or interpolator parameters, swapping or removing channels, trimming, resampling, smoothing), it has one row of data for each frequency, ascending non-negative frequencies, no more channels than frequencies and no negative magnitudes; its coherence has the shape of its data and belongs to its channels. Coherence is accepted exactly if it is real and has the shape of the data. `get_channels` returns the chosen channels in the given order with the coherence that belongs to them, `sum_channels` the root of the summed powers or the sum, both with the stored parameters; `resample` uses and keeps the stored parameters; every spacing of the frequencies can be smoothed, and the spacing is logarithmic only if all ratios agree.", "quantifier": "For all spectra, sequences of calls, orders and choices of channels, grids, coherences, interpolation parameters, splines and smoothing windows.", "why_tests_cant": "The invariants must survive every order of calls, and the coherence is only looked at by later calls; tests call each method once on a spectrum without coherence.", "anchors": ["dsptoolbox/classes/spectrum.py:32-53", "dsptoolbox/classes/spectrum.py:151-179", "dsptoolbox/classes/spectrum.py:232-331", "dsptoolbox/classes/spectrum.py:407-492", "dsptoolbox/classes/spectrum.py:686-724", "dsptoolbox/classes/spectrum.py:805-885", "dsptoolbox/classes/spectrum.py:1008-1022", "dsptoolbox/classes/_multichannel_data.py:32-118"]}
{"id": "C147", "title": "Signal-to-noise and scale-invariant signal-to-distortion ratio", "statement": "snr accepts two signals exactly if the sampling rates match and the noise has one channel or as many as the signal, and returns one value per channel of the signal, the ratio of the powers in decibels; a single channel of noise counts for all. Gains add their levels and exchanging signal and noise changes the sign. si_sdr accepts exactly equal rates and lengths and a target with one channel or as many as the modified signal; a modified channel a·t + e with a distortion e orthogonal to the target gives the ratio of the energies of a·t and e. Gains do not matter.", "quantifier": "for every pair of signals, their lengths and numbers of channels", "why_tests_cant": "the values must hold for every signal and pairing of channels; tests compare a few noisy signals with stored numbers", "anchors": ["dsptoolbox/distances/distances.py:194-272", "dsptoolbox/distances/_distances.py:64-101"]}
{"id": "C148", "title": "Reverberation times of several channels and the start argument", "statement": "reverb_time returns one value per channel (per band and channel for a MultiBandSignal of impulse responses), each estimated from its own channel and in order. ir_start may be None, one integer for all, a list or array with one number per channel or, for bands, a matrix of shape (band, channel), whose values are used as the starts of the impulse responses; everything else is refused before anything is computed. Bands that are plain signals and other objects are refused.", "quantifier": "for every signal, number of bands and channels, estimation and argument", "why_tests_cant": "the shapes of the argument are unbounded and only a few are tried in tests, which check that numbers come back, not which channel they belong to", "anchors": ["dsptoolbox/room_acoustics/room_acoustics.py:34-137", "dsptoolbox/room_acoustics/room_acoustics.py:544-593", "dsptoolbox/room_acoustics/_room_acoustics.py:17-85"]}
{"id": "C149", "title": "Spectra of filters, of filter banks and of the bands of a signal", "statement": "Spectrum.from_filter stores, for every filter and every ascending vector of non-negative frequencies, exactly the response of the filter at those frequencies (complex, or its magnitude), as one channel; other frequency vectors are refused. Spectrum.from_filterbank stores in parallel mode one channel for each filter with the response of that filter, in sequential mode the product of the responses and in summed mode their sum. spectrum_via_filterbank accepts exactly one positive bandwidth; the band of a frequency has the given width and the frequency in its (arithmetic or geometric) middle; the value at a frequency is the RMS value of the channel filtered with the band-pass of that frequency and no other.", "quantifier": "All filters (FIR, b/a, second-order sections), filter banks of any size, frequency vectors, signals of any length and number of channels, bandwidths and band-pass designs.", "why_tests_cant": "The shape of the stored data depends on the number of filters or channels compared with the number of frequencies, and the values on every coefficient and sample; tests look at a few shapes.", "anchors": ["dsptoolbox/classes/spectrum.py:87-136", "dsptoolbox/classes/filterbank.py:614-654", "dsptoolbox/transforms/transforms.py:1330-1393"]}
{"id": "C150", "title": "The poles found for a Kautz filter are stable and complete", "statement": "KautzFilter.fit_poles_and_coefficients_to_ir succeeds exactly for at least one iteration and an order between one and the length of the impulse response. Every pole it finds lies strictly inside the unit circle and has no negative imaginary part (what the constructor demands and the fit does not check); together with the conjugates of the complex ones they are all roots of the polynomial that was taken, so that the filter has exactly as many taps as the order. In every iteration the new polynomial is the best monic polynomial for the response divided by the last one; the polynomial that is taken has the smallest all-pass error of all iterations, and more iterations never give a larger error.", "quantifier": "All impulse responses (including silence and a single pulse), orders, numbers of iterations, and all solvers that return the shortest least squares solution.", "why_tests_cant": "Stability of the poles of an iterative least squares fit is a statement about every response and every iteration; a test can only look at the poles of a few responses.", "anchors": ["dsptoolbox/classes/kautz_filter.py:337-421", "dsptoolbox/classes/kautz_filter.py:101-112"]}
{"id": "C151", "title": "Phases shown without the latency do not depend on a pure delay", "statement": "In plot_phase, plot_group_delay and plot_bode the phase after remove_ir_latency is the same for a multichannel impulse response and for its version delayed by d samples (nothing but zeros pushed out at the end): with \"peak\" whenever the peaks stay 200 samples away from both ends, with \"min_phase\" whenever the peaks of the correlations with the minimum-phase responses do, and with given latencies when d is added to them. Each value lies in [-pi, pi) and is the phase of the bin turned forward by the latency; \"peak\" takes a latency at most one sample from the largest sample; a pure delay has phase zero at every frequency. Other texts and a number of latencies that is not the number of channels are refused.", "quantifier": "for every impulse response without zero bins, number of channels, delay, transform length, sampling rate and, for the invariance, any substitute of the Hilbert transform", "why_tests_cant": "the invariance couples the crop around the peaks of all channels, the fraction of a sample, the cepstral minimum phase, correlation and wrapping; tests compare one response", "anchors": ["dsptoolbox/helpers/latency.py:152-215", "dsptoolbox/helpers/minimum_phase.py:82-117", "dsptoolbox/classes/signal.py:1343-1364", "dsptoolbox/classes/signal.py:1501-1524", "dsptoolbox/classes/impulse_response.py:315-336"]}
{"id": "C152", "title": "group_delay without the latency of an impulse response", "statement": "group_delay(ir, remove_ir_latency=True) does not change when all channels are delayed by d samples (nothing lost at the end): with analytic_computation if no channel begins with its largest sample, without it if the peaks of the correlations with the minimum-phase responses stay 200 samples away from the ends. A pure delay gives zero at every frequency without analytic_computation. With analytic_computation and zeros before the sample in front of the largest one at p the values are the group delays minus p-1 samples: the latency is not removed completely, a pure delay keeps one sample (unless it is zero), and everything before the sample p-1 is forgotten, so responses with different group delays give the same result. Only the numerical computation refuses signals that are not impulse responses.", "quantifier": "for every impulse response, number of channels, delay, sampling rate and any fast lengths", "why_tests_cant": "couples padding, peak search, cepstral minimum phase, correlation, wrapping and the derivative of the phase; the missing sample is below the tolerance of plots", "anchors": ["dsptoolbox/transfer_functions/transfer_functions.py:893-933", "dsptoolbox/helpers/minimum_phase.py:82-117", "dsptoolbox/classes/filter_helpers.py:190-205"]}
{"id": "C153", "title": "Saved properties of microphone arrays", "statement": "For a MicArray whose coordinates are not assigned again, array_center_coordinates, array_center_channel_number, aperture, min_distance, he_to_hz, hz_to_he, get_maximum_frequency_range and the frequency range of a beamformer are, after every history of readings in any order, those of its coordinates; dim contains the axes along which points differ. After assignments to coordinates, coordinates and dim follow the last one, but center, aperture and min_distance stay those of the coordinates at the time when they were first read: they are wrong for the array as it is now.", "quantifier": "for all arrays and all histories of assignments and readings, also failed ones", "why_tests_cant": "values are computed on demand and saved; whether they are right depends on the order of all calls before", "anchors": ["dsptoolbox/beamforming/_beamforming.py:59-79", "dsptoolbox/beamforming/beamforming.py:472-603", "dsptoolbox/beamforming/beamforming.py:720-737"]}
{"id": "C154", "title": "Realtime filtering is offline filtering", "statement": "After every history of process_sample, reset_state and set_n_channels calls (channels interleaved in any way), the value that FIRFilter, IIRFilter, StateSpaceFilter, the list of StateSpaceFilter.from_filter_as_sos_list in a FilterChain, LatticeLadderFilter or a FilterChain of such filters returns for a sample is the last sample that Filter.filter_signal gives for the channel received since the last reset with the same coefficients; so a whole channel sent sample by sample gives the filtered channel. from_filter_as_sos_list succeeds for all sections with a leading coefficient other than zero. Filters with a single coefficient raise on every call.", "quantifier": "for all coefficients, all channels of any length, all chains and all histories of calls", "why_tests_cant": "two implementations with different states (shift register, canonical form, lattice, difference equation over the whole signal) have to agree for every input and every interleaving", "anchors": ["dsptoolbox/classes/state_space_filter.py:57-106", "dsptoolbox/classes/fir_filter_realtime.py:11-70", "dsptoolbox/classes/iir_filter_realtime.py:9-66", "dsptoolbox/classes/filter_chain.py:4-35", "dsptoolbox/classes/filter_helpers.py:205-382"]}
{"id": "C155", "title": "The group delay of a filter object", "statement": "Filter.get_group_delay returns, one value per frequency, the negative derivative of the phase of the filter at this frequency, in seconds or in samples, wherever the filter has neither a zero nor a pole. For a filter given by sections this is the group delay of the chain of the sections, and the sum of the values of filters with one section each. Symmetric and antisymmetric FIR filters give half of their order at every frequency, and a stable all-pass a positive delay at every frequency. (Zeros at the beginning of the numerators of sections are lost in the conversion to ba coefficients: the group delay is then too small by exactly their number in samples. Where the response is zero, the group delay is 0, also for symmetric filters.)", "quantifier": "all coefficients and sections, sampling rates and frequencies", "why_tests_cant": "a relation to the derivative of a phase over all coefficients and frequencies; tests compare a few filters with scipy, which computes the values itself", "anchors": ["dsptoolbox/classes/filter.py:901-925", "dsptoolbox/classes/filter.py:927-955"]}
{"id": "C156", "title": "Smoothed group delays", "statement": "group_delay, minimum_group_delay and excess_group_delay with smoothing return the frequencies and as many values as without it, and no value leaves the range of the values without smoothing; smoothing=0 returns these. Smoothing commutes with changes of scale and offset: delaying a response by d samples adds d / fs to every smoothed analytic value, in samples the smoothed values do not depend on the sampling rate, and pure impulses keep their delay, or have delay zero after the removal of the latency. (Excess group delays that are nan without smoothing raise ValueError with it. Single samples are accepted only by the analytic computation without smoothing. Responses of one second are excluded for impulses, see C89.)", "quantifier": "all responses, sampling rates, octave fractions, delays and lengths", "why_tests_cant": "bounds and equivariance of a nonlinear interpolation and smoothing for every response; tests call the functions without comparing the values", "anchors": ["dsptoolbox/transfer_functions/transfer_functions.py:893-930", "dsptoolbox/transfer_functions/transfer_functions.py:1021-1026", "dsptoolbox/transfer_functions/transfer_functions.py:1063-1083", "dsptoolbox/helpers/smoothing.py:9-129"]}
{"id": "C157", "title": "FIR filters designed by windowing", "statement": "Filter.fir_filter(order, frequency_hz, type_of_pass, sampling_rate_hz, window) returns order + 1 taps without a recursive part. For every symmetric window the taps are symmetric and the phase is exactly linear: the frequency response is a real function times the response of a delay of order / 2 samples. The gain is exactly 1 at 0 Hz for low-pass and band-stop filters, at half of the sampling rate for high-pass filters and in the middle of the (first) band for band-pass filters. The taps are those of the ideal filter (the integral of the cosine over the bands that pass) times the window and a constant. A filter of odd order has gain zero at half of the sampling rate. (All this if the sum that scales the taps is not zero; a Hann window with order 1 is zero throughout and the taps are nan.) A request is refused (ValueError) exactly if the frequencies do not increase strictly between 0 Hz and half of the sampling rate, if their number does not fit the type, or if the order is odd and the filter should pass half of the sampling rate. A low-pass filter whose main lobe holds all taps, with a window that is not negative, is always defined, its taps are not negative and their sum is 1.", "quantifier": "all orders, frequencies, types, sampling rates and windows", "why_tests_cant": "identities of the response at all frequencies for every order, window and edge; tests design single filters and look at a plot", "anchors": ["dsptoolbox/classes/filter.py:190-235", "dsptoolbox/standard/enums.py:295-305"]}

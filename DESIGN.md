# Formal model of dsptoolbox: design

## What this is

`lean/Verif` contains a Lean 4 model of parts of dsptoolbox (python sources in
`/repo/dsptoolbox`, read as text, never executed) and machine-checked proofs of
the properties listed in `properties.jsonl`.  `MANIFEST.json` maps properties
to theorem names, `seeded/LOG.jsonl` records mutation experiments on the model.

Layout

* `lean/Verif/Spec/*.lean`   specification vocabulary (convolution, difference
  equation, histories, ...), written without looking at the model's helpers.
* `lean/Verif/Model/*.lean`  the model: one definition per python function,
  each with a comment citing file and lines.
* `lean/Verif/Lemmas/*.lean` helper lemmas (no property is claimed there).
* `lean/Verif/Props/*.lean`  the property theorems `Cnn_...`, each followed by
  `example`s showing that a concrete non-trivial case meets the hypotheses.

## Modelling conventions

* Numbers.  `float64` values are modelled by exact elements of a commutative
  ring / (ordered) field `K`, of `Rat`, or of the reals, depending on what the
  function needs.  Rounding, overflow, NaN and inf are NOT modelled; where the
  code would produce NaN/inf (division by zero, log of zero) the model has an
  explicit error or the theorem an explicit hypothesis.
* Arrays.  A one dimensional array is a `List`, or a function on indices with
  an explicit length when the code updates it in place.  Out-of-range reads
  that numpy answers with IndexError are explicit error results.
* Python exceptions are values (`Except Err`), the class of the exception is
  kept only where a property mentions it.
* In-place mutation is modelled by returning the new contents of every object
  that the code may change (including arrays of the caller where aliasing is
  the point of the property).
* FFTs (`numpy.fft`, `scipy.fft`) are modelled by the DFT sum they document
  (complex case) or by the operation they are used for (circular convolution),
  stated at each definition.

## Trusted base

* Lean 4.33.0 kernel; axioms used by the theorems: only `propext`,
  `Classical.choice`, `Quot.sound` (checked with `#print axioms`).  No own
  axioms, no `decide` by compiled code; concrete witnesses are evaluated by the
  kernel (`decide +kernel`).
* The correspondence between the python text and the Lean definitions (manual;
  each definition cites its lines).
* numpy / scipy routines behave as documented.  They are modelled, not verified:
  `np.fft` / `scipy.fft` (DFT sums), `lfilter`, `sosfilt`, `oaconvolve`,
  `correlate`, `freqz` (their formulas), `tf2ss` (controller canonical form),
  `np.interp`, `np.squeeze`, `np.trim_zeros`, `np.delete`, `np.std`, `np.argmin`.
  `tf2sos`, `zpk2sos`, `sosfilt_zi`, `lfilter_zi`, `next_fast_len` are parameters
  of the model; a theorem that needs something of them says so in a hypothesis.
* Exact arithmetic.  Rounding is only modelled where a disagreement depends on it
  (`Model/Double.lean`: rounding to nearest even of 53 bit rationals, used for
  frame lengths in C22 and sample formats in C25; C25 also quantifies over every
  monotone rounding).

## What is modelled, and what is not

Modelled (file, functions; details and line numbers at the definitions)

* `classes/`: `fir_filter_realtime` (all four classes), `iir_filter_realtime`,
  `filter_chain`, `sv_filter`, `warped_filters`, `lattice_ladder_filter`,
  `state_space_filter`, `exponential_average_filter`; `signal` (time data,
  constraint, imaginary part, channels, caches, spectrum parameters, spectrum /
  CSM scaling), `_multichannel_data`, `multibandsignal` (book-keeping, collapse),
  `filter` (coefficients, filtering, carried state), `filterbank` (book-keeping,
  modes, transfer functions), `filter_helpers` (FIR and zi routines, biquads),
  `spectrum` (trim, energy, interpolation), `calibration`.
* `standard/`: `pad_trim`, `trim_with_*`, `append_*`, `delay`, `latency`,
  `normalize`, `fade`, `apply_gain`, `merge_filters`, framing and
  reconstruction, `_csm_welch`, `_csm_fft`.
* `helpers/`: levels, smoothing, latency, autoregressive estimation, `find_nearest`,
  `_wrap_phase`, `_toeplitz`, `_get_next_power_2`, interpolation.
* `effects/`: distortion (curves, mix, peak restoration), compressor (curve, gain smoothing,
  gains), digital delay, low-frequency oscillators, tremolo, chorus, musical rhythms.  The spectral
  subtractor is not modelled.
* `distances/`: log spectral distance, Itakura-Saito measure, SI-SDR, clamping of the segmental SNR.
* `room_acoustics/`: start of a response, D50, C80, center time; the energy decay curve, its fit and its
  noise compensation; the room classes (Sabine, modes, detailed absorption, analytical transfer function);
  the image source method.
* `audio_io` sample formats and 24 bit packing, requests for playback and the choice of a device; polyphase
  resampling helpers.
* Names of saved files (`_check_format_in_path`, pickled objects, audio files), not their contents.
* The table below is authoritative: each row names the modules and lines; rows C37 and later cover
  parts of `transforms/`, `transfer_functions/`, `beamforming/`, `generators/`, `filterbanks/`, `tools`
  and of the remaining classes.

Not modelled: plotting, contents of files, audio streams, printing and warnings,
random numbers, running time, data types other than where stated, arrays with more
than two dimensions where the code accepts them, and the functions not listed above or in the table.

## Plan per property

| id | what is modelled | how it is proved |
|----|------------------|------------------|
| C01 | `FIRFilter` state (ring buffer per channel, write index), all three operations, IndexError for one tap | invariant: buffer contents = last samples of the channel, induction over arbitrary operation histories |
| C02 | `IIRFilter` (normalisation, zero padding, transposed direct form II loop) | invariant: state cell = partial sums of the difference equation, induction over histories |
| C03 | `FilterChain` over abstract state machines | induction over list of filters and input |
| C04 | `StateVariableFilter.process_sample` over an ordered field | algebraic identity per sample, telescoping induction |
| C05, C06 | `WarpedFIR/IIR.process_sample`, sigma recursion | buffer invariant = allpass chain, induction over order and history |
| C07, C08 | lattice coefficients + lattice structures | induction over order; refinement to difference equation |
| C09, C10 | overlap-save and partitioned convolution with circular convolution standing for FFT products | buffer invariant; counterexamples for odd FFT length and shared index |
| C11 | `_lfilter_fir` | list algebra, induction over list of blocks |
| C12 | zi plumbing of `Filter.filter_signal` (shapes and transposition) | counterexample + partial theorem |
| C13 | `StateSpaceFilter` | invariant linking states with delayed inputs |
| C14-C16 | `Signal` as state machine with cache flags | invariants by induction over operation histories; counterexamples for stale cache |
| C17-C20 | list functions | list lemmas |
| C21, C22 | frame count, framing, weighted overlap-add | arithmetic + finite sums |
| C23 | polyphase, plain resampling, choice of the branch | list/index arithmetic, power series |
| C24, C25 | byte packing, format conversion over integers / rationals | arithmetic |
| C26, C27 | Levinson-Durbin, Burg over ordered fields | induction over order |
| C28, C29 | scaling factors, one-sided PSD | case analysis, Parseval over the complex DFT |
| C30-C33 | dB, normalise, fade, calibration over reals | real analysis lemmas |
| C34, C35 | biquad formulas over reals | algebra, stability triangle |
| C36-C39 | filter bank, multiband signal, channel ops | induction over operations; counterexamples |
| C40-C42 | spectrum trimming, energy, interpolation | list lemmas |
| C43 | CSM as sum of outer products | positive semidefinite form |
| C44-C47 | smoothing, search, wrapping, powers of two | order lemmas |
| C48 | cross-correlation argmax | Cauchy-Schwarz style inequality |
| C49-C53 | as listed | list algebra / case analysis |
| C54 | distortion curves over the reals, mix and peak restoration with nan as `none` | order lemmas, fold over the list of settings |
| C55 | compressor curve, one-pole gain smoother, gain stages | real analysis, invariants over the samples |
| C56 | feedback loop writing ahead into the padded signal | loop invariant: every sample is the sum of echoes |
| C57, C58 | waveforms, modulated reads, constructor book-keeping | bounds, periodicity, witnesses |
| C59 | note text as characters, substring tests | all documented notes by the kernel, all tempos by algebra |
| C60 | Simpson weights, logarithms of spectra | weighted Minkowski inequality |
| C61 | search for the start, slices, energies | specification `IsStart` has one solution; energies as sums |
| C62 | least-squares line, decay curve, compensation | algebra of the fit; compensation specified as an improper integral |
| C63 | constructors as partial functions, mode list, modal density | case analysis; permutation and sortedness of the mode list; counting lattice points of an ellipsoid |
| C64 | loops over orders, NumPy's fancy `+=` as read-all-then-write | induction over the loops; involution of the images for reciprocity |
| C65 | Welch spectra of all channels | Parseval per segment, real scale factors |
| C66 | `hilbert` of a signal and of a multiband signal | inverse DFT, mirrored bins |
| C67 | `stereo_mid_side` | samples, constrained amplitude |
| C68 | `dft` at real frequencies | Fourier sum |
| C69 | `cepstrum`, `from_complex_cepstrum` | inverse DFT, principal logarithm |
| C70 | `mel_filterbank` | nearest bins, triangles |
| C71 | `warp` (`Model/Warp`, `Model/WarpSignal`) | allpass substitution, limit of the way back, channels and shift to the start |
| C72 | `laguerre` | inner products, orthonormal sequences |
| C73 | `warp_filter`, `_get_warping_factor` | roots, named factors |
| C74 | `_stft`, `istft`, `_reconstruct_framed_signal` | padding, overlap and step rounding, scalings, axes |
| C75 | `_euclidean_distance_matrix`, array center, steering vectors, `BeamformerDASFrequency` | points, formulations, removal of the diagonal, bands and integration |
| C76 | `BeamformerFunctional`, `BeamformerMVDR`, `BeamformerOrthogonal`, `BeamformerCleanSC`, `_clean_sc_deconvolve` | one frequency; `svd`, `eigh`, `inv` as relations, the loop of CLEAN-SC with its stopping test |
| C77 | `fractional_delay`, `_fractional_delay_filter`, `_kaiser_window_fractional`, `_kaiser_window_beta` | real delays, Kaiser window with the Bessel function as its power series, full convolution; integer arrays of channels |
| C78 | `Regular2DGrid`, `Regular3DGrid`, `LineGrid`, `MicArray` (aperture, Helmholtz numbers), `MonopoleSource`, `mix_sources_on_array`, `BeamformerDASTime` | exact arithmetic; one-channel signals without constrained amplitude |
| C79 | `Model/LinkwitzRiley` (`_filterbank.py` 142-368, 1329-1345) | `Props/C79` (bands, sum, allpass, crossing gains, zero phase), `Props/C79Stream` (states), `Props/C79Examples`; `scipy.signal.butter` is assumed to return stable sections of the bilinear transform of the analog Butterworth filters (`IsButter`, proved to exist for the orders 1 and 2) |
| C80 | `Model/MatchedBiquad` (`filterbanks.py` 535-633, `_filterbank.py` 1348-1506) | exact arithmetic over the reals, a root of a negative number or a division by zero is the result `none` (nan); `Props/C80`, the inequalities behind existence and stability in `Lemmas/MatchedExistence`, `MatchedLowpass`, `MatchedShelf`, `MatchedTotal` |
| C81 | `Model/Deconvolution`, `Model/TukeyWindow` (`transfer_functions.py` 61-184, `_transfer_functions.py` 19-42, `windows.py` 8-76, `other.py` 34-41, `signal.py` 899-937) | exact arithmetic, `nan` is `none`; no smoothing of the spectra; `numpy.fft.irfft(X, n)` by its documentation, for every length; specification `Spec/Deconvolution` |
| C82 | `Model/TransferEstimate` (`transfer_functions.py` 419-539) | exact arithmetic, quotients by zero are `none` |
| C83 | `Model/WindowIR` (`transfer_functions.py` 187-365, `_transfer_functions.py` 45-147) | exact arithmetic; windows are functions of length and index |
| C84 | `Model/CenteredIR` (`transfer_functions.py` 368-416, `_transfer_functions.py` 150-213) | exact arithmetic; symmetric windows are functions of length and index |
| C85 | `Model/IRFilter` (`transfer_functions.py` 1193-1286) | exact arithmetic; phase mode "direct" |
| C86 | `Model/AverageIR` (`transfer_functions.py` 571-612, 1143-1162) | latencies are an input (theorems: whole samples); real responses; the average of magnitudes and phases is a parameter; `Model/CombineIR` (1133-1190): the bands of the crossover, latencies and impulses are arguments, a rescaling of bands by constrained amplitudes is left out |
| C87 | `Model/MinimumPhase` (`helpers/minimum_phase.py` 8-79, `_standard_backend.py` 66-119, `transfer_functions.py` 636-663, 789-858, 928-987, `_transfer_functions.py` 574-606) | exact reals, one channel; `next_fast_len` is a parameter; the interpolated magnitudes are an input; nan is `none` |
| C88 | `Model/LinearPhase` (`transfer_functions.py` 709-786, `helpers/spectrum_utilities.py` 229-266) | exact arithmetic, delays are rational; interpolated magnitudes and the group delays of the minimum-phase versions are inputs; negative delays fail with an error of another kind |
| C89 | `Model/GroupDelay` (`filter_helpers.py` 190-205, `_standard_backend.py` 57-63, `transfer_functions.py` 893-930, `signal.py` 663-664) | exact reals; one channel; no smoothing, no removal of latency; `np.polyval`, `np.convolve`, `np.unwrap`, `np.gradient` by their documentation |
| C90 | `Model/Harmonics` (`transfer_functions.py` 1450-1484, 1557, 1590-1591, `_transfer_functions.py` 233-236, 272-273) | exact reals; one channel; spectra and THD of the analysis not modelled; metadata of the snippets not modelled |
| C91 | `Model/TrimIR` (`_transfer_functions.py` 300-411, `transfer_functions.py` 1752-1786) | exact reals; the smoothed envelope of the samples after the peak is a parameter; `pearsonr` of constant values (nan) not modelled; `Polynomial.fit` is the regression line |
| C92 | `Model/OctaveBands` (`filterbanks.py` 124-214, `tools.py` 252-254) | exact reals; the centre frequencies are parameters; `irfft`, `hann` by their documentation |
| C93 | `Model/QMF` (`filterbanks/_filterbank.py` 842-951, 1077-1304) | one channel, exact arithmetic; amplitude not constrained; transfer function of zeros/poles/gain as the product over the roots (zpk2sos, sos2tf exact); filter states not used with downsampling |
| C94 | `Model/GaussianKernel` (`filterbanks/filterbanks.py` 636-699) | real numbers; tf2sos of one pole as the section it stands for; zero-phase filtering as the squared magnitude for responses; `Model/ZeroPhase` (`classes/filter_helpers.py` 262-263) has the steps of scipy's sosfiltfilt (odd extension, initial states, both passes) for any sections, and `Filter.get_ir` with zero phase (`classes/filter.py` 848-856) filters an impulse with them; order zero and kernels without extent (nan in the code) left out |
| C95 | `Model/Thiran` (`filterbanks/filterbanks.py` 702-741) | exact arithmetic; the order is an integer |
| C96 | `Model/Complementary` (`filterbanks/filterbanks.py` 453-493) | exact arithmetic; the Kaiser window of `Model/FractionalDelay` |
| C97 | `Model/AudioFilters` (`filterbanks/filterbanks.py` 416-450, 496-532) | real numbers; zeros, poles and gain not converted to sections; `bilinear_zpk` and `freqz_zpk` of scipy by their formulas, real zeros and poles |
| C98 | `Model/AudioFilters` (see C97) | as for C97 |
| C99 | `Model/Generators` (generators/generators.py 272-454; helpers/gain_and_level.py 49-84; classes/filter_helpers.py 146-164) | real arithmetic; undefined samples are `none`; one channel of the oscillator; lengths non-negative; the while loops are given enough rounds (proved) |
| C100 | `Model/Generators` (generators/generators.py 147-269; generators/_generators.py 5-44) | real arithmetic; undefined samples are `none`; OverflowError for equal frequencies is represented by ValueError; one channel |
| C101 | `Model/Generators` (generators/generators.py 20-144; helpers/frequency_conversion.py 49-95) | real arithmetic; the random magnitudes and phases are inputs; undefined samples are `none`; irfft by its formula; one channel |
| C102 | `Model/ExactValue` (tools.py 68-103; helpers/spectrum_utilities.py 29-57) | any ordered field; one column of values; np.searchsorted as the number of entries below the query; nan as `none` |
| C103 | `Model/NormalizedSpectrum` (helpers/spectrum_utilities.py 60-226) | real and complex arithmetic; smoothing is an arbitrary operator (for phases one that commutes with offsets); arrays of nan or -inf are `none`; two-dimensional spectra |
| C104 | `Model/OctaveSmoothing` (helpers/smoothing.py 9-129) | real arithmetic; one column; positive fractions and spacings, non-empty windows; PCHIP, linear interpolation and valid convolution of scipy by their formulas; the Gaussian parameter conversion is not modelled |
| C105 | `Model/FrequencyGrids` (tools.py 42-65, 186-258, 261-336; standard/_standard_backend.py 122-256; helpers/other.py 156-178) | real arithmetic; positive limits and fractions; np.arange by its exact number of entries |
| C106 | `Model/LogMean` (tools.py 106-131, 134-183) | real arithmetic; the cubic spline of scipy is any function through the points; vectors with at least two entries |
| C107 | `Model/SavePaths` (helpers/other.py 69-92; signal.py 1572-1610; filter.py 1242-1254; filterbank.py 1009-1021; spectrum.py 974-987; multibandsignal.py 575-587; standard/other.py 33-52) | strings as lists of characters; pickle and soundfile are external (a file holds what was written); file system errors left out |
| C108 | `Model/AudioIO` (audio_io/audio_io.py 94-199, 202-343, 341-409, 420-430) | real samples and durations; the request to the driver is the result; the prompt of set_device and its sampling rate left out |
| C109 | `Model/FirDesigner` (group_delay_designer_phase_linearizer.py 48-349; spectrum_utilities.py 229-265) | real arithmetic; irfft, PCHIP, cumulative integrals of scipy by their formulas; group delays below minus one sample (negative lengths) left out; warnings left out |
| C110 | `Model/Kautz` (kautz_filter.py 13-359) | real arithmetic; the search for poles is a parameter (its poles are not checked against the unit circle); sampling rates left out |
| C111 | `Model/Parallel` (parallel_filter.py) | real arithmetic; `zpk2sos` and `lstsq` are parameters of the fit; `sos2tf` drops leading zeros (excluded in the streaming theorem, negated separately) |
| C112 | `Model/Gammatone` (filterbanks.py 217-303, _filterbank.py 664-838) | exact arithmetic (no underflow of the last sample of the impulse responses); all bands of a multiband signal have the same shape; scaling of the test impulse by a constrained amplitude left out (it cancels) |
| C113 | `Model/Loudness` (gain_and_level.py 203-281) | exact arithmetic, `tf2sos` external (keeps transfer functions); only the real part of the filtered signal |
| C114 | `Model/CrestFactor` (gain_and_level.py 121-200, 362-401) | exact arithmetic, `resample_poly` external (homogeneous, four times as many samples), `inf` and `nan` as `none` |
| C115 | `Model/ResampleFilter` (resampling.py 46-83, scipy `bilinear_zpk`) | exact arithmetic, values that are not finite as `none`, the zpk representation is an input |
| C116 | `Model/SegmentalSNR` (distances.py 275-387, _distances.py 104-195) | exact arithmetic; the gammatone bank (`Model/Gammatone`) is a homogeneous parameter; `nan` as `none` |
| C117 | `Model/SpectrumConversion` (spectrum.py 32-86, 153-176, 233-269, 316-403; enums.py 94-107; with `Model/Deconvolution`: signal.py 899-940) | exact arithmetic; Pchip interpolation and Welch spectra are parameters; no smoothing, lengths not negative |
| C118 | `Model/Activity` (other.py 55-175; _standard_backend.py 324-379) | exact arithmetic; the zero-phase filter is a parameter; the channel is a list of samples |
| C119 | `Model/Detrend` (other.py 182-205, 215-263; _standard_backend.py 382-405; with `Model/Transforms` for the analytic signal) | exact arithmetic; `np.polyfit` is a parameter that solves the least squares problem; no multiband signals |
| C120 | `Model/Dither` (other.py 287-364) | exact arithmetic; draws and the rounding to 16 bit are parameters |
| C121 | `Model/SpectralDifference`, `Model/SmoothedDifference` (other.py 408-482, spectrum.py 805-869) | exact arithmetic; spectra instead of signals; octave fractions are natural numbers; at least two bins and not more channels than bins |
| C122 | `Model/ConvolveRir` (room_acoustics.py 216-265) | exact arithmetic: both convolution algorithms are one; real signals that are not empty |
| C123 | `Model/DecayCurve` (room_acoustics/_room_acoustics.py 1140-1222) | one channel, exact arithmetic; the end index found by `_trim_ir` is an argument (modelled in `Model/TrimIR`); a fit that the points do not determine is an error |
| C124 | `Model/RoomModes` (room_acoustics.py 140-213, _room_acoustics.py 118-160) | exact arithmetic; the spectra of the padded responses are an argument; the largest singular value is the largest norm of the image of a unit vector; `scipy.signal.find_peaks` (local maxima, distance, prominence) is modelled, equal heights in order of position; inverses of spectra with zeros are not modelled |
| C125 | `Model/WarpFrequency` (spectrum_utilities.py 456-489, spectrum.py 762-803, 151-179) | exact arithmetic, sampling rate not zero; the type of the spacing is not stored |
| C126 | `Model/Append` (appending.py 131-204, spectrum.py 544-684) | exact arithmetic; the splines of scipy are an argument that returns the given values; copies of filters are not distinguished from the filters |
| C127 | `Model/SpectralSubtraction` (effects.py 138-551) | exact arithmetic; `scipy.signal.get_window` is an argument; the overlap is a whole number of percent; multiband signals and messages left out |
| C128 | `Model/MultibandAccess` (multibandsignal.py 463-572, filterbank.py 479-530, filter.py 648-743) | exact arithmetic; filtering of real bands without initial values and zero phase; numpy's repetition of a band of one sample left out |
| C129 | `Model/AdaptiveReverb` (_room_acoustics.py 60-68, 999-1137) | exact reals, curves that never rise; exceptions, nan and undetermined fits are one case; `pearsonr` and `polyfit` by their formulas |
| C130 | `Model/LatencyQuality` (`helpers/latency.py` 152-181, 218-265, `standard/latency_delay.py` 84-115) | polynomial_points = 0 (whole latencies); exact reals; `scipy.stats.pearsonr` is external and given by its formula, nan is `none`; the phase of one channel at one frequency |
| C131 | `Model/OctaveBank` (`filterbanks.py` 336-413) | exact reals; the design (`scipy.signal.iirfilter`) is external: filters are given by type and cut-off frequencies, their power response by the Butterworth formula with prewarped frequencies |
| C132 | `Model/Descriptors` (`room_acoustics.py` 452-541, `_room_acoustics.py` 889-997) | exact reals; the end found by `_trim_ir` (`Model/TrimIR`) and the reverberation times of the filtered bands are arbitrary functions; bands are impulse responses with equal numbers of channels; a vector is one row |
| C133 | `Model/ComplexSmoothing` (`transfer_functions.py` 1788-1876, `_transfer_functions.py` 430-476, 509-555) | exact reals, one channel; the interpolated window prototype is a function on [-1, 1]; frequencies are multiples of the step; the spectrum is given |
| C134 | `Model/FreqDependentWindow` (`transfer_functions.py` 1332-1377, `_transfer_functions.py` 490-504, 557-571) | exact arithmetic, one channel; a window of zero samples gives nan (`none`); the type check of the object is not modelled |
| C135 | `Model/FractionalPeak` (`helpers/latency.py` 31-98, 140-149), `Model/PeakPoints` (31-98, 140-149) | `Model/PeakPoints` has any number of points, with the polynomial through the points for `np.polyfit` and the order of the real roots left open; `Model/FractionalPeak` has polynomial_points = 1; the imaginary part of `scipy.signal.hilbert` is any function on lists; `np.polyfit`/`np.roots` of a straight line by their formula; exact arithmetic; warnings are not modelled |
| C136 | `Model/Lfo` (`_effects.py` 290-397, 439-472) | exact reals, python numbers; names of waveforms are given after `lower()`; the random phase is a parameter; OverflowError of `int(inf)` stands as `zeroDivision` |
| C137 | `Model/InterpolateFr` (`helpers/spectrum_utilities.py` 331-453) | exact reals, one channel, linear scheme, ASCII modes; negative powers with power2amplitude (nan) and fewer than two points are not modelled |
| C138 | `Model/ReverbTail` (`_room_acoustics.py` 451-504, 840-886; `room_acoustics.py` 300-451) | exact reals; random numbers are an argument; modes of the mixing time after `lower()`; `Model/DetailedRir` (`room_acoustics.py` 393-424): the bands of the crossover are an argument; not modelled: band-pass, the constructor of the result |
| C139 | `Model/Lpc` (transforms/transforms.py 1199-1283, helpers/ar_estimation.py 100-205) | one channel, exact reals, window and random numbers as arguments, nan as `none` |
| C140 | `Model/ExcessDelay`, `Model/ExcessDelayLatency` (transfer_functions/transfer_functions.py 990-1083) | exact arithmetic, smoothing 0, one channel without the removal of the latency, `next_fast_len` as an argument, nan as `none` |
| C141 | `Model/WindowType` (standard/enums.py 340-437, helpers/windows.py 79-136, classes/signal.py 752-773 and 1030-1056) | the window values of scipy are not modelled; of the spectrogram and its parameters only the window; exact arithmetic, nan as `none` |
| C142 | `Model/Chroma` (transforms/transforms.py 113-195, 335-441 and 589-684, transforms/_transforms.py 10-26) | one frame of one channel, exact arithmetic, nan as `none`; plots and the setting of STFT parameters left out |
| C143 | `Model/Wavelet` (transforms/_transforms.py 64-300, transforms/transforms.py 687-760) | one channel, exact arithmetic; `Model/WaveletCenter` (transforms/_transforms.py 53-62, 303-324) for the longest wavelet and for `get_center_frequency` of the base class, the arrays of the subclass being arguments; other wavelets as a function |
| C144 | `Model/Vqt` (transforms/transforms.py 812-923, transforms/_transforms.py 327-383) | one channel; resampling and window as functions; exact arithmetic except for the number of frequencies; kernels have at least one sample |
| C145 | `Model/Arma` (filterbanks/_filterbank.py 1507-1644) | exact arithmetic; `lstsq` as a function with its defining property (a solver with it exists); denominators without zeros at the bins |
| C146 | `Model/SpectrumObject` (classes/spectrum.py 32-53, 151-179, 232-331, 407-492, 686-724, 805-885, 1008-1022; classes/_multichannel_data.py 32-118) | exact arithmetic; splines and `fractional_octave_smoothing` are arguments; frequency vectors are real and one-dimensional |
| C147 | `Model/SignalRatios` (distances/distances.py 194-272, distances/_distances.py 64-101) | exact arithmetic, `none` for nan and infinities |
| C148 | `Model/ReverbStart` (room_acoustics/room_acoustics.py 34-137, 544-593) | the estimation from one channel is a parameter (see C62, C123); bands with the same number of channels |
| C149 | `Model/BankSpectrum` (`classes/spectrum.py` 87-136, `classes/filterbank.py` 614-654, `transforms/transforms.py` 1330-1393) | exact arithmetic; filters of one sampling rate; the Butterworth band-pass design is a parameter; no zero-phase filtering; at least one frequency |
| C150 | `Model/KautzPoles` (`classes/kautz_filter.py` 361-421) | exact arithmetic (no `nan` errors); `scipy.linalg.lstsq` is a parameter that returns the shortest least squares solution (one exists: `exists_solver`); `np.roots` as a multiset; more than one sample |
| C151 | `Model/LatencyPhase` (helpers/latency.py 152-215, helpers/minimum_phase.py 52-117, classes/signal.py 1343-1364, 1501-1524, classes/impulse_response.py 315-336) | exact reals; Hilbert transform and `next_fast_len` as arguments; scalings with physical power units, smoothing and the drawing are left out; a minimum phase with nan raises at once |
| C152 | `Model/GroupDelayLatency` (transfer_functions.py 893-933) | exact reals; Hilbert transform and fast lengths as arguments; without smoothing; the change of the spectrum parameters is part of C89 |
| C153 | `Model/MicArray` (_beamforming.py 59-79, beamforming.py 472-603, 720-737) | exact arithmetic; coordinates with three columns; the array given to the setter is not changed by its owner afterwards (it is kept without a copy) |
| C154 | `Model/StateSpace`, `Model/FIRFilter`, `Model/IIRFilter`, `Model/Lattice`, `Model/FilterChain`, `Model/FilterBank` (state_space_filter.py 57-106, filter_helpers.py 205-382) | exact arithmetic; conditions of C01, C02, C08 and C13; lattice filters with leading denominator coefficient 1 |
| C155 | `Model/FilterGroupDelay` (classes/filter.py 901-925, 952-955) | exact arithmetic; `sos2tf`, `polymul` and `group_delay` of SciPy and NumPy as documented, nan and infinities replaced by 0 without the warning |
| C156 | `Model/SmoothedDelay` (transfer_functions.py 927-930, 1024-1026, 1080-1083) on top of `Model/OctaveSmoothing` | exact arithmetic; `smoothing` not negative; ValueError of `PchipInterpolator` for nan by its implementation in SciPy |
| C157 | `Model/FirDesign` (classes/filter.py 190-235; `scipy.signal.firwin` by its implementation) | real arithmetic; the values of the window are inputs and errors of `get_window` are left out; a sum of zero, which divides the taps, gives `none` |

Properties found false of the code are kept in full in `properties.jsonl`; the
negation is proved on a concrete witness and a `_partial` theorem covers the
largest region where they hold (see "Disagreements" below, filled in as the
work proceeds).  A property with such a negation inside its statement has status
`partial`, also when the exception is a corner case.

## Disagreements between the properties and the code

Each entry is proved about the model (theorem names contain the property id and are listed in
`MANIFEST.json`) unless marked (noted).

* C01, C02: a filter with a single tap / of order 0 raises IndexError.
* C06: a denominator with one coefficient is handled wrongly.
* C07: `LatticeLadderFilter.from_filter` of an FIR filter drops the gain `b[0]`.
* C08: `a[0] != 1` is not normalised; unnormalised cascades raise.
* C09: for odd transform lengths the overlap-save output is wrong (`irfft` without length).
* C10: `FIRUniformPartitioned` shares one buffer index between the channels;
  `FIRUniformPartitionedMultichannel` normalises coefficients larger than one.
* C11: with one tap the final state is the whole output.
* C12: the state array is stored with swapped axes: lost, transposed or raising.
* C13: a numerator shorter than the denominator gives a delayed filter.
* C14: assigned imaginary data is not constrained; the scale factor is forgotten when the
  constraint is switched on a second time; switching it on drops the imaginary part; one sample in
  one channel raises IndexError.
* C15: stale results after smoothing changes, `plot_magnitude`, group delay plots, `set_window`, and
  spectrograms with the cache switched off.
  A `get_csm` call that raises leaves the scaling changed for all later calls (C15_scaling_lost).
* C16: `get_csm` of a windowed signal with physical FFT scaling raises and leaves the scaling changed.
* C17, C19: imaginary parts are lost; results shorter than the number of channels are transposed
  (proved for C17, noted for C19).
* C18: multiband signals are appended with the bands of the first band; transposition as in C17
  (noted).
* C20: an inclusive off-grid start, an exclusive start at 0 and an end time 0; an exclusive off-grid
  end (noted).
* C21: without `keep_last_frames` the last complete frame is dropped whenever the step divides L - W.
* C22: (double precision) some single-frame signals come back one sample short; samples below the
  threshold are attenuated.
* C23: the padding reported when nothing is padded is wrong; downsampling is misaligned in general;
  short filters give empty results.
* C25: unsigned round trips lose one unit in double precision, full scale in single precision leaves the range of
  the 32 bit formats, widening loses, the lowest value is clipped, bytes in floating formats raise.  Signed round
  trips are exact with the rounding of the processor (f64: all formats, f32: up to 24 bits).
* C26: zero variance gives nan (noted; an error in the model); orders not below the length give fewer coefficients.
* C27: multichannel results have one row too many.
* C29: the default padding to a fast length makes the power too small.
* C30: a silent array gives -inf in spite of the dynamic range.
* C31, C33: "RMS" is the standard deviation; constrained signals do not reach targets above 0 dBFS;
  `high_snr=False` always raises; an assigned level is ignored.
* C32: fades of one sample or no sample.
* C34: the type `Inverter` does not invert; a design at Nyquist has a pole on the unit circle.
* C36: the summed transfer function is off by one; constrained signals are normalised band by band.
* C37: rejected insertions and assignments can change what is reported; flag unchecked.
* C38: collapsing real bands overwrites the first band.
* C39: more channels than samples are transposed; adding channels drops the imaginary part of the old ones.
* C40: an exclusive off-grid limit loses a bin; rejected trims leave a broken object.
* C42: complex output in the power domain is the power; `extend` raises with several channels.
* C43: matrices with amplitude scalings are not Hermitian; medians are not positive semidefinite;
  single-frame signals raise; windowed FFT with several channels raises.
* C44: the realtime average starts at 0 and raises with several channels.
* C47: `closest` is closest in the logarithm (23 gives 32); numbers below one raise.
* C48: with three or more channels in one signal the delays come in reversed order; trimmed copies
  and silence.
* C51: the imaginary part is lost.
* C52: the arrays given to a constraining `Signal`, to `IIRFilter`, to the window envelope and to
  the reconstruction are modified; a signal shares memory with the array it was built from.
* C53: all three coefficient kinds at once are accepted; FIR sections count as IIR; trailing zeros
  count for the order.
* C54: the mix amounts have no effect, because the peak is restored after multiplying with the
  amount; with several entries the peak is not kept; the soft clip folds over at its default level;
  a silent channel becomes nan.
* C55: attack and release are swapped; the pre gain is applied again instead of the post gain; the
  mix is ignored; the branch for python floats uses the wrong formula; a threshold at the peak with a
  hard knee gives nan.  With `pre_gain_db=None` the caller's signal is modified (noted).
* C56: any positive feedback is accepted; `None` and callables raise; delays rounding to zero samples
  do nothing; silence becomes nan.
* C57: the smooth square exceeds 1; the triangle depends on the requested length (normalised by its
  own maximum); modulation arrays are rejected.
* C58: the voices read the future of the signal; partial updates of the voice lists leave lists of
  different lengths; silence becomes nan.
* C59: the tempo enters inverted (right only at 60 bpm); `'32th'` is taken for a triplet.
* C60: the Itakura-Saito measure uses the decadic logarithm and is negative for attenuated copies; the
  bin nearest to the upper frequency limit is left out.  `log_spectral` and `itakura_saito` leave the
  spectrum method of the caller's signals changed (noted).
* C61: the time vector ends at `L / fs` (linspace including its end), so the center time is too long by
  `L / (L - 1)`; silence in front of a response whose first sample is above the threshold shifts the
  start to the sample before it and changes D50, C80 and the center time.  With automatic trimming C80 is
  infinite when the trimmed response is shorter than 80 ms; `descriptors` ignores
  `automatic_trimming_rir` for multiband signals (noted).
* C62: for the same reason every reverberation time is too long by `L / (L - 1)`; `ir_start` has no effect;
  the noise compensation takes the coefficients of the fitted line in the wrong order.
* C63: giving both T60 and absorption raises AttributeError; `check_if_in_room` accepts negative
  coordinates; `add_detailed_absorption` leaves Schroeder frequency and critical distance stale, and stores
  its results in the caller's dictionary, which is then rejected by a second call.
* C64: `rir_vec[idx] += vals` adds only the last of several values for the same sample: reflections
  arriving together, or a direct sound arriving together with the floor reflection, are lost.  The
  response has a fixed length, but the order is chosen from the mean dimensions: elongated rooms raise
  IndexError.  The absorption area takes north/south for the walls perpendicular to y, the image source
  method for those perpendicular to x.
* C65: a single channel with a single segment raises; amplitude scalings apply their factor under the root (the
  amplitude of a tone grows with the window length); the zero-padded last segment counts like the others; the
  bias of the median is `1/n` instead of the alternating sum, so that medians are up to `n` times too large.
* C66: a signal of constrained amplitude whose Hilbert transform exceeds 1 is scaled down as a whole, the real part
  is then not the signal (`C66_rescaled`).
* C67: mid-side to left-right of a constrained signal is scaled down if the sum exceeds 1; the way back does not
  restore the level (`C67_reverse_loses_level`).  Left-right to mid-side and back is exact.
* C69: `from_complex_cepstrum` always constrains the amplitude, so louder signals come back scaled
  (`C69_level_lost`); the complex cepstrum uses the principal phase and is not additive
  (`C69_complex_not_additive`).
* C70: a band between whose corners no bin has a height above zero is divided by a sum of zero: the whole row is nan
  (`C70_normalized_partial`; unavoidable with more corners than twice the bins, `C70_too_many_bands`).
* C71: warping with a factor and then with the opposite one does not return the signal, since the
  samples beyond the length are cut off (`C71_not_reversible`; it does in the limit of long zero
  padding, `C71_reversible_limit_partial`). A `total_length` above the length of the signal is not
  respected (`C71_total_length_ignored`). `shift_ir` puts the sample before the first one above -20 dB at
  the beginning, not that sample itself (`C71_shift_one_early`).
* C72: the docstring says that the transform can be reversed with the opposite factor. For every
  finite length and every factor except 0 this is false (`C72_not_reversible`); it holds in the
  limit of long zero padding (`C72_reversible_limit_partial`).
* C73: the formulas of the publication for the Bark and ERB warping factors have the sampling rate
  in kHz, the code uses it in Hz, so that the factors are too close to -1
  (`C73_named_factors_wrong`). "The overall filter gain is not modified" holds for `k`, not for the
  gain at zero frequency (`C73_gain_changes`). The docstring has `(1 + λ z⁻¹)` for the additional
  factor, the code has (correctly) `(1 - λ z⁻¹)`.
* C74: the transform rounds the overlap to the nearest sample, the inverse truncates step and
  overlap (`C74_lengths`): the inverse is one sample late (`C74_one_sample_late`) or puts the frames
  together with another step (`C74_wrong_step`) whenever the overlap is not a whole number of samples.
  Without overlap and with the default padding the inverse is silent (`C74_no_overlap_silent`, the
  slice `[0:-0]`). Amplitude spectra come back with their mean divided by √2
  (`C74_amplitude_spectrum_mean`); for densities passing the original signal is not enough
  (`C74_density_error`). The frequency vector ignores `fft_length_samples` (`C74_frequencies_wrong`)
  and the time vector is stretched (`C74_times_stretched`). The scalings with power lose the phase
  (noted).
* C75: the default parameters of `set_spectrum_parameters` (Welch's method, scaling `FFTBackward`, which
  counts as an amplitude scaling) make `get_csm` return element-wise square roots of the cross-spectra.
  The phases are halved and the maps of the beamformers have their maximum in the wrong place
  (`C75_default_scaling_wrong`, from signals to maps); with a power scaling, or with the FFT method, the
  matrix is right (`C75_signals_partial`, `C75_fft`). The map of a band with one bin has other units than the one of a
  band with several bins: it is not multiplied with the bandwidth, and the last bin of a band is excluded
  (`C75_map_partial`). With the formulations inverse and true power other points can have larger values than the
  source (`C75_maximum_elsewhere`; a known limitation of these formulations), and the removal of the
  diagonal lowers the level of true power (`C75_true_power_without_diagonal`).
* C76: `BeamformerMVDR` divides by the form of the inverse matrix with the steering vector `h` of the chosen
  formulation, which has the norm `1/‖a‖` for the field `a` of the source; the level at the source is therefore
  too large by the fourth power of the norm (`C76_mvdr_level`), for all arrays with two or more microphones
  above the power of source and noise (`C76_mvdr_not_distortionless`). Its argument `gamma` is not used.
  `BeamformerOrthogonal` overwrites a point when a second eigenvector has its peak there, so the smaller
  eigenvalue replaces the larger one (`C76_orthogonal_overwrites`). `_clean_sc_deconvolve` uses the formula for
  matrices without diagonal in all cases; the power of a single source is underestimated for every number of
  iterations, by at least the factor `n/(n+1)` (`C76_clean_underestimates`), also with the default
  `remove_csm_diagonal=False`. The power is added to the map before the stopping test, i.e. also in the last,
  rejected iteration. The theorems on CLEAN-SC are for one source and equidistant microphones.
* C77: the imaginary part of a signal is lost (`C77_imaginary_lost`), as for `delay`. The arguments of `setdiff1d`
  are swapped so that `channels_not` is empty; harmless, as all channels are padded anyway. (noted) The docstring of
  the filter design says that `None` avoids windowing, but `np.abs(None)` raises; an order of 0 divides by zero; an
  empty list of channels is an array of floats, which is no valid index, in `fractional_delay` and `delay`.
* C78: lines with a single point are rejected by all regular grids with a `TypeError` or an assertion
  (`C78_single_points`), by the effect of `squeeze`. `mix_sources_on_array` removes the first source from the list of
  the caller, so that a second call gives another result or raises (`C78_mix_consumes`), and replaces the longer
  signals of the sources by trimmed ones (`C78_mix_trims`). The signals of a simulated source decay with
  `1 / (1 + r)`, the beamformer in the time domain compensates `1 / r`: its level for simulated sources is always too
  low, by the mean of `r / (1 + r)` (`C78_simulated_level`). The focus theorem (`C78_das_time_partial`) is for delays of
  whole samples; the general delays give the interpolation of C77, which is not exact.
* C79: zero-phase filtering with a crossover of the order 2 applies the whole second-order filter twice (`factor = 1`), so that the bands add up to one half at the crossover frequency (`C79_zero_phase_second_order_wrong`). `initialize_zi` appends the same list `al` for every band, so that all bands share the states of the allpasses: from three crossovers on, block-wise filtering differs from filtering the whole signal (`C79_stream_three_wrong`; one and two crossovers are correct, `C79_stream_partial`). The initial states are those of a constant one and are not scaled with the signal, so that silence gives output (`C79_stream_silence_wrong`). With an amplitude constraint every band is normalised on its own and the sum is no longer an allpass (noted, not modelled).
* C75: the bin nearest to the upper edge is not part of a band, so that consecutive bands share no bin (`C75_bands_tile`), except for bands narrower than a bin.
* C80: `matched_biquad` makes the same filter for both bandpass types, so that the one with constant skirt gain has the gain `g` instead of `q·g` at its frequency (`C80_skirt_wrong`; compare C34). A shelf with a gain of 0 dB is not transparent: the gain is replaced by `1 + 1e-6` (`C80_zero_shelf_wrong`). For gains closer to one than 1e-6 the claims on the shelves hold for the replaced gain only.
* C81: `spectral_deconvolve` transforms back with the original length although the spectra have been padded to a fast length (the default of every signal): wrong for every length with a prime factor above 5 (`C81_fast_length_wrong`). Power scalings of the signals are kept and lose the phase (`C81_power_wrong`). In the automatic mode (default) the last bin is fully regularized when the input reaches half the sampling rate, so that an impulse deconvolved with itself is no impulse (`C81_nyquist_wrong`), and the range found for the first channel is used for all (`C81_first_channel_wrong`).
* C82: for a signal with its default spectrum parameters (`FFTBackward`) `_welch` returns square roots of the averaged products, so that `compute_transfer_function` estimates a gain of 4 as 2 (`C82_default_scaling_wrong`), an inverted polarity as `i` (H1) or `-i` (H2) (`C82_polarity_wrong`) and stores the square root of the coherence (`C82_default_coherence_wrong`). With `average="median"` the coherence may exceed one (`C82_median_coherence_wrong`: it is 4).
* C83: `_window_this_ir_tukey` sets the index of the peak to `offset` after padding to the offset, so that the offset is not applied, and zeroes the window over the padded samples: a unit impulse at the start is erased if the offset exceeds the left flank (`C83_offset_wrong`). With `adaptive=True` an impulse before the offset stays where it is, although "the offset is always maintained" (`C83_adaptive_offset_wrong`). `left_to_right_flank_length_ratio=2` should make the left flank twice as long as the right one, but there is no right flank (`C83_ratio_wrong`). The start is an absolute value: removed and added samples are not told apart (`C83_start_wrong`).
* C84: `_window_this_ir` raises ValueError whenever the number of samples is even and equals peak + half the length of the window, unless the length is kept (`C84_refused_wrong`: e.g. 1000 samples, peak at 100, 1800 samples). `ind_up_w = peak_ind + half_length + 1 - len(vec)` is the number of missing samples and not the end of the window: with an even length that exceeds the impulse response and the peak at half of it, everything is multiplied by the first value of the window, which is zero for Hann (`C84_silence_wrong`). The returned start refers to the reversed vector (`C84_start_wrong`), and padding is added in front for peaks in the second half (`C84_padding_wrong`), although the documentation says at the end.
* C85: `filter_to_ir` builds the impulse response with the default `constrain_amplitude=True`: taps are divided by their peak if it exceeds one (`C85_gain_wrong`), a filter with a single tap raises IndexError (`C85_single_tap_wrong`), and a bank with more filters than taps is transposed (`C85_transposed_wrong`).
* C86: the loop of `combine_ir_with_dirac` takes channel `ch` of the growing `imp`, which for `ch > 0` is the impulse delayed in the pass before: latencies add up (`C86_dirac_positions`, `C86_dirac_wrong`). `average_irs` multiplies by the ratio of the energies (instead of dividing by its root), `signal` instead of `avg_sig` is used afterwards, so that the normalization only reaches the channel with the largest latency (`C86_average_weights`, `C86_normalize_wrong`, `C86_normalize_wrong_way`, `C86_spectral_normalize_wrong`). `type(normalization) in (float, int, np.floating, np.int_)` of `combine_ir_with_dirac` is false for `np.float64`, so that the level is ignored (`C86_numpy_level_ignored`).
* C87: a bin with magnitude zero gives log 0 and nan in every sample of `min_phase_ir` (`C87_zero_bin_wrong`; `_minimum_phase` clips instead). `ir_length_samples` is rounded to a multiple of four (`C87_length_wrong`), one or two samples raise IndexError (`C87_length_short`). (noted) The message for `padding_factor` says "at least 1" but 1 is refused.
* C88: `_correct_for_real_phase_spectrum` takes `phase[-1] % np.pi`, so that the delay is always rounded up to whole samples (`C88_delay_wrong`, `C88_delay_error`). (noted) In floating point a delay of whole samples can become one sample longer, because the phase at the Nyquist frequency is a rounded multiple of pi.
* C89: `_group_delay_direct` takes `delta_f == 1` to mean "in samples", but callers pass the resolution in Hz: signals of one second are wrong by the factor 2 pi (`C89_one_second_wrong`; also concerns `minimum_group_delay`, the plots of group delays and `lin_phase_from_mag`). For odd lengths `group_delay` evaluates at `linspace(0, pi, N//2+1)` but returns `rfftfreq` (`C89_odd_wrong`). `spec_parameters` is a reference to the dictionary that is changed afterwards, not a copy (`C89_parameters_wrong`).
* C90: `harmonics_from_chirp_ir` does not check that the positions of the harmonics are inside the response; negative indices are taken from the other end, so samples are passed to two harmonics although the documentation excludes it (`C90_short_wrong`). `harmonic_distortion_analysis` calls `ir.pop(0)` on the list of the caller and pads the caller's fundamental (`C90_list_wrong`).
* C91: `_trim_ir` starts the search with `current_window_mean_db = 0`: for responses with levels above 0 dB in the first window the end is found at once (`C91_loud_wrong`). If the decay reaches the end of the data, `np.var` of an empty array is nan and `int(nan)` raises ValueError (`C91_clean_wrong`); this concerns noise-free responses of reverberation simulations, also in `reverb_time` and `descriptors`, which trim by default.
* C92: the reconstruction of `reconstructing_fractional_octave_bands` is not perfect: `windows.hann(n)` is symmetric around (n-1)/2, the filters around n/2 (`C92_gain_wrong`, `C92_phase_wrong`; `sym=False` repairs both), and for full overlap the rounded fades of neighbouring bands can overlap (`C92_overlap_wrong`).
* C93: C93: `qmf_crossover` documents perfect reconstruction for FIR filters of first order, but `_filter_and_downsample` returns an empty array for two taps (`C93_first_order_empty`). The sequential mode with downsampling always raises AssertionError (`C93_refused`), the summed mode raises ValueError for odd numbers of samples (`C93_summed`). Reconstruction is one sample late if the number of taps is a multiple of four, one more for odd signal lengths (`C93_perfect`). Prototypes with an odd number of taps lose a quarter of the sampling rate (`C93_odd_taps_lose_quarter`).
* C94: C94: with growing order the kernel of `gaussian_kernel` tends to exp(-sigma^2 (1 - cos w)), the kernel of discrete diffusion, and not to the gaussian exp(-sigma^2 w^2 / 2) that the documentation names (`C94_order`); only the variance agrees (`C94_variance`). Order zero gives a filter without sections instead of a refusal (noted). `get_ir(length, zero_phase=True)` is not the impulse response of the kernel: the impulse is the first sample and the odd extension puts twos before it, so the first sample of the response exceeds one for every width (`C94_impulse_response` has all samples, `C94_impulse_wrong`, order two) although the kernel smooths with gain one.
* C96: C96: `complementary_fir_filter` documents perfect magnitude reconstruction with some quantization error, for even lengths a small error. For even lengths prototype and complement always cancel at the Nyquist frequency (`C96_even_nyquist`). For symmetric prototypes whose largest tap is not the middle one the complement has no linear phase (`C96_off_center`).
* C98: C98: the response of `weighting_filter` is that of the standard at a warped frequency: it vanishes at the Nyquist frequency for every sampling rate (`C98_ends`), where the documentation only speaks of an approximation.
* C99: **Generators, waves and impulses** (C99): a cutoff not above the frequency makes square, sawtooth and triangle `nan`; `uncorrelated=True` shifts every harmonic by the same phase, so the wave form changes; the default fade fails below 20 samples and yields `nan` at the ends below 40; `dirac(1, …)` raises IndexError and more channels than samples are transposed.
* C100: **Generators, sweeps** (C100): sample times include the end point (frequencies too high by n/(n-1)), so that a constant sweep just below half the sampling rate is silent and only rounding errors are scaled to the requested level; equal frequencies give `nan`; the synchronized sweep ignores `phase_offset`, may end anywhere in its cycle although the documentation promises phase 0, fails for short lengths and is truncated when its adjusted duration exceeds the requested one, while the full duration is returned.
* C101: **Generators, noise** (C101): pink, red, grey and other noise with falling power of at most 1/30 s is `nan` throughout (0/0 at 0 Hz); `type != White or type != 0.0` always holds, so white noise loses its components below 15 Hz.
* C157: `fir_filter` with order 1 and a Hann window, whose two values are zero, returns taps that are `nan` (`C157_hann_nan`).
* C102: **Gain at 1 kHz** (C102): `np.max(f) >= 1e3` lets vectors pass that end exactly at 1 kHz, then `f[ind + 1]` is behind the end (IndexError, e.g. normalised magnitude plots of signals sampled at 2 kHz); a repeated frequency in `get_exact_value_at_frequency` gives 0/0.
* C103: **Normalised spectra** (C103): `EnergyFirstChannel` with power scaling averages all channels with `keepdims` and the in-place subtraction raises ValueError; the branch that should smooth power spectra is nested in `if is_amplitude_scaling` and never reached; `OneKhz` raises IndexError when the vector ends at 1 kHz (signals at 2 kHz).
* C104: **Fractional octave smoothing** (C104): `window /= window.sum()` overwrites the array passed as `window_vec`; a window vector of a length other than the internal one changes the length of the result (logarithmic grid) or raises ValueError (linear grid).
* C105: **Fractional octaves** (C105): for fractions other than 1 and 3 the centres are spaced by 2^(1/b), but the cutoff frequencies computed with 10^(3/10): neighbouring bands leave gaps.
* C106: **Crossover function** (C106): half a Hann window of even length never reaches 1, so the function jumps at the upper limit; on the logarithmic axis the upper limit is not part of the grid.
* C107: **Names of saved files** (C107): a dot anywhere in the file name counts as a format, names such as `take.1` are refused although the documentation promises to add the format.
* C108: **Playing and recording** (C108): `play_and_record` multiplies a float duration with the sampling rate and slices with the float (TypeError); the channels are sorted, so that their order has no effect; silence is divided by its peak (nan).
* C109: **Phase linearizer** (C109): the largest group delay is multiplied by the increase factor; if all group delays are negative, the target becomes negative and the filter cannot be causal.
* C110: **Kautz filter** (C110): `fit_poles_and_coefficients_to_ir` builds new realtime filters with one channel, so that a second channel raises IndexError although set_n_channels(2) was called before; the poles found are not checked (the constructor would refuse those outside of the unit circle).
* C111: **Parallel filter** (C111): AttributeError from `set_coefficients` before a fit; `None` as delay raises TypeError although it is handled afterwards; FIR coefficients at multiples of offset+1 although fitted at multiples of offset (ValueError or an overwritten coefficient for larger numbers); `set_coefficients` changes `filter_signal` but not `process_sample`; a delay set after the fit raises AttributeError in `process_sample`; a section whose leading numerator coefficient is zero loses this delay in `process_sample` (`C111_leading_zero_wrong`).
* C112: **Gammatone filter bank** (C112): in `_compute_delays_and_phase_factors` the impulse is placed at `delay_samples + 3` while only the first `delay_samples + 1` samples are searched, so every delay is `delay_samples` and the phase factor comes from the last sample of the impulse response (in floating point this sample underflows for bands above about 2 kHz, which makes all gains and the reconstruction nan); `np.roll` moves the end of the bands to the beginning; a single band with one channel raises AxisError; negative frequencies are accepted.
* C113: a block that ends with the last sample is dropped (`_compute_number_frames` without padding rounds `(L - W) / step` up), so that a signal of exactly 400 ms has the loudness `nan` (`C113_one_block_dropped`, `C113_short`), and `lufs_integrated` writes to the signal of the caller: switching the amplitude constraint back on deletes its imaginary part and sets its scale factor to 1 (`C113_constrained_signal`).
* C114: `crest_factor` of a `MultiBandSignal` with `in_db=True` (the default) converts to dB twice, a square wave (0 dB) is reported with about -6153 dB (`C114_bands_db`, `C114_bands_db_wrong`), and `rms`/`crest_factor` use the standard deviation, so that an offset lowers the RMS value and raises the crest factor (`C114_rms`, `C114_crest_offset`).
* C115: `resample_filter` removes zeros at -1 before it compares the numbers of zeros and poles. If these differ, the removed zeros are replaced by zeros at the origin (fewer zeros than poles) or dropped (FIR filters): the FIR filter `1 + z^-1` becomes a wire at every rate, and the gain at 0 Hz is halved for every lost zero (`C115_response`, `C115_lost_dc`, `C115_fir_becomes_wire`, `C115_iir_zero_lost`).
* C116: a frame of 75 ms that is silent in one band of one of the signals (digital silence at the beginning, say) makes the value of the whole channel `nan`, since the range is applied with comparisons that are false for `nan` (`C116_nan`, `C116_silent_frame`); an inverted signal is reported with the best value (`C116_gain`, `C116_identical`).
* C117: a signal of odd length loses its last sample in `to_signal` and what is left is distorted, since `irfft` is called without a length; with `length_seconds` a zero takes its place (`C117_odd_wrong`), and for spectra that are not linear every frequency is then shifted by n/(n-1) (`C117_interpolated_odd_wrong`). Spectra with scalings other than `FFTBackward` come back with the gain of the scaling, with physical scalings also with another balance between the constant and the other parts (`C117_scaled`, `C117_scaled_wrong`). A requested sampling rate within two frequency steps of the original one returns the samples unchanged, i.e. a detuned signal (`C117_rate_wrong`). Interpolation overwrites the interpolator parameters of the spectrum (`C117_object`). Any three frequencies count as logarithmically spaced (`C117_spacing_wrong`).
* C118: the attack time has no effect at all, since `momentary_gain[i]`, which is compared, is still zero then (`C118_attack_wrong`); for the same reason the level is frozen after a sample that is zero, so that digital silence after an active part stays active for ever, whatever the release time (`C118_silence_wrong`), and the first sample is never active (`C118_first`). If exactly one sample is noise (or active), the call fails with an IndexError, which is not caught (`C118_single_wrong`, e.g. every constant signal with `release_time_ms=0`, `C118_constant_wrong`).
* C119: a signal of constrained amplitude whose rest leaves [-1, 1] is scaled down by `detrend`, so that the result is not the signal without its trend (`C119_scaled_wrong`), and its envelope is the one of the scaled signal (`C119_envelope_wrong`).
* C120: the default `epsilon` is the smallest subnormal number of 16-bit floating point, not its step: a sample from -66 dBFS on that has 16 bit comes back unchanged from truncation, whatever the noise (`C120_default_wrong`), and other samples are affected only next to the middle between two numbers. A signal of constrained amplitude at full scale is scaled down after the noise was added, so that samples change by more than the noise (`C120_full_scale_wrong`) and truncated samples do not have 16 bit.
* C121: with `complex=True` and a dynamic range (the default is 100 dB), NumPy compares the real parts, so every bin of the divisor with a negative real part is replaced by a small positive number: a spectrum with the values 1 and -1 differs from itself by 1 and -100000 (`C121_complex_wrong`). `complex=False` keeps the phase of a complex first input (`C121_phase_wrong`). Without dynamic range, magnitudes that are both zero at a bin raise AssertionError (`C121_zero_wrong`) and frequencies outside the second input give infinite values (`C121_outside_wrong`); with energy normalization one silent channel of magnitudes is refused (`C121_silence_wrong`).
* C122: with `keep_peak_level` (the default) a channel that is silent after the convolution consists of `nan` (`C122_silence_wrong`): a silent channel of the signal, or all channels if the response starts later than the signal ends and the length is kept (`C122_silence_cases`). (noted) The choice of the algorithm tests `length_ratio < 15.0 or length_ratio < 1.0 / 15.0`, whose second part is implied by the first; it does not affect the result.
* C123: C123: the energy decay curve with noise correction is not monotone (`C123_rises_wrong`): it rises wherever a sample is weaker than the noise power, and `_get_polynomial_coeffs_from_edc` applies `searchsorted` to it. It depends on the gain of the response (`C123_gain_wrong`): the correction is used only if the fitted LEVEL at time 0 is below 0 dB, because slope and level of `np.polyfit` are swapped (lines 1191-1199). For an untrimmed response that starts with its first sample the noise power is `nan` and IndexError is raised (`C123_start_wrong`, line 1188).
* C124: the matrix of `_complex_mode_identification` holds the responses in its first row and first column, so that its largest singular value singles out the first response: exchanging two channels can move a mode (`C124_order_wrong`). For a single response the power is used, for several ones the singular value itself, and both are converted to dB as powers: the same response given twice has half the prominence (`C124_repeated`, `C124_repeated_wrong`). (noted) The spectrum method of the caller's signal is set to FFT; the upper end of the range is excluded; a mode at the edge of the range is not found.
* C125: (noted) **C125**: the documentation of `Spectrum.warp` promises warping "through interpolation with the stored interpolation parameters"; there is no interpolation, the values stay and the frequencies move. A last frequency slightly above half of the sampling rate is accepted by `np.isclose`, but may not be accepted any more when warping back.
* C126: `append_spectra` asks complex spectra for complex output in their stored domain of interpolation, which is power by default: the joined spectrum holds squared magnitudes without phase and is marked as complex (`C126_complex_default_wrong`, `C126_complex_witness_wrong`). `append_filterbanks` compares whole lists of sampling rates, so that multirate banks with different lists are refused although their filters may be in one bank (`C126_multirate_wrong`). Interpolating in the complex domain with extended edges keeps only the real part of the edge value outside of the range (`C126_outside_wrong`). (noted) The parameters of interpolation and the coherence of the spectra are lost; the class of the first bank is kept, so that appending to a `GammaToneFilterBank` leaves its centre frequencies behind.
* C127: the static mode takes the periodogram of the detected noise for powers ("already raised to the power of 2!"), but with the scaling `FFTBackward` it is an amplitude, so that the noise is subtracted with half of the exponent and the effect depends on the level of the signal (`C127_detected_noise_wrong`, `C127_detected_noise_example_wrong`). A silent channel becomes `nan` (`C127_silent_wrong`). `set_parameters` without a spectrum forgets the stored one although unnamed parameters are to be kept (`C127_spectrum_forgotten_wrong`), and the unsupported combination of adaptive mode and spectrum can be reached (`C127_adaptive_with_spectrum_wrong`). (noted) The restored peaks undo the reduction of the level; the threshold in dBFS is relative to the peak in the static mode; blocks with a large mean count as noise since the variance is compared; `maximum_amplification_db` is documented but does not exist.
* C128: with more bands than samples `get_all_bands` swaps bands and samples (`C128_many_bands_wrong`). (noted) The amplitude constraint of the bands is lost (`C128_unconstrained`); surplus filters are ignored without a message although too few raise IndexError.
* C129: also in the adaptive mode every straight decay gets a reverberation time that is too long by L/(L-1), with a perfect correlation (`C129_too_long_wrong`; the time vector includes its end point). The fit is documented "from T10 until T60", but the end levels are 20 to 59 dB below the start (`C129_end_levels_wrong`). (noted) A curve that ends less than 20 dB below the start is not rejected (`C129_short_curve`).
* C130: C130: `latency` catches every exception of the correlations and reports 0 for all channels: one silent channel (its latency is the length minus one, so that a single common sample is left) hides the quality of all others. For one signal with more than two channels the reversed latencies (C48) are paired with the channels in forward order: the correlation of an exact copy can be -1.
* C131: `fractional_octave_bands` is documented as energy preserving for even filter orders, but the powers of the filters add up to more than 1 inside every band (`C131_energy_preserving_wrong`), for every order. (noted) An upper limit of exactly half the sampling rate raises ValueError (`C131_limit_at_nyquist`).
* C132: `descriptors` ignores `automatic_trimming_rir` for a MultiBandSignal (`C132_flag_ignored_wrong`): the recursive call passes only the descriptor, so bands are always trimmed.
* C134: `window_frequency_dependent` pads the bin at 0 Hz with zero for every response (`C134_dc_wrong`), although its documentation offers the IRFFT of the output; negative cycles are taken by their magnitude and zero cycles give nan (`C134_negative_cycles_wrong`).
* C135: `_get_fractional_impulse_peak_index` promises the integer position where no root is found, but raises IndexError if the largest sample is the last one (`C135_last_sample_wrong`) and TypeError if it is the first one and the zero lies before it (`C135_first_sample_wrong`). More points raise TypeError wherever they reach over an end of the array (`C135_points_edge_wrong`).
* C136: `LFO.set_parameters` with an unknown waveform has already changed the frequency (`C136_not_atomic_wrong`); rhythms with negative beats per minute give a negative frequency and a period without samples (`C136_negative_rhythm_wrong`); a smoothed sawtooth with a smoothing above 12 raises TypeError although any value may be passed (`C136_sawtooth`).
* C137: `tools.interpolate_fr` accepts modes that are not documented: any text that starts with `db2` or ends with `2db`, such as `foo2db`, is taken as a conversion of powers (`C137_unknown_mode_wrong`); `C137_refused_partial` says exactly which modes are refused.
* C138: adding a reverberant tail raises IndexError for a response with a single nonzero sample (`np.squeeze` removes the only axis, `C138_single_wrong`), ValueError if the response ends before the mixing time (`C138_errors`), and fills the tail with nan if at most 50 samples remain or if the 100 samples around the start are silent (`C138_short_tail_wrong`, `C138_silent_window_wrong`). The tail only replaces exact zeros; a response without zeros, as the filters of detailed absorption leave it, gets none (`C138_no_zeros_no_tail`).
* C139: `lpc` returns nan for each frame that is silent after the windowing, and nan for every sample such a frame covers in the synthesised signal. The default Hann window starts with 0, so a signal of q·hop + 1 samples always ends with a nan frame (`C139_last_frame_wrong`). Burg's method returns window length + 1 coefficients instead of order + 1 (`C139_burg_wrong`). With `synthesize_encoded_signal=True` the signal alone is returned, although three results are documented (`C139_return_wrong`). The documented order of the axes, (time window, coefficient, channel), is in fact (coefficient, time window, channel).
* C140: `excess_group_delay` compares the lengths of the frequency vectors instead of their values: for an even length n whose next fast length is n + 1 (26 and 27) the delays of different frequencies are subtracted (`C140_grid_wrong`). For odd lengths that are not fast the last bin lies above the last frequency of the group delay, which `_interpolate_fr` fills with 0 (`C140_odd_wrong`). Responses of one second are too large by 2 pi (`C140_one_second_wrong`, from C89), and responses whose samples add up to 0 give nan in each bin (`C140_zero_mean_wrong`). With `remove_ir_latency` and `analytic_computation` an impulse keeps an excess group delay of one sample (`C140_removed_analytic_wrong`, from C152).
* C141: `with_extra_parameter` writes to the enumeration member, so a window made earlier changes its parameter (`C141_shared_wrong`), and a signal whose spectrogram parameters get the same type with another parameter keeps its saved spectrogram (`C141_stale_wrong`). A parameter for Tukey, Taylor or Exponential is ignored without notice (`C141_ignored_wrong`). After `activate_cache` is switched off, the second call of `get_spectrogram` after a change returns the old spectrogram (`C141_cache_off_wrong`). The offset of `gaussian_window` is added to the middle and is not the middle, as its documentation says (`C141_offset_wrong`); length 1 gives nan (`C141_single_wrong`).
* C142: tones above a quarter tone over MIDI pitch 127 (12.9 kHz) have no chroma (`C142_high_wrong`); the first pitch is an octave below C0, which the documentation names (`C142_first_pitch_wrong`). `mfcc` takes absolute values of the coefficients, so that levels in reversed order of the bands give the same result (`C142_mirror_wrong`); one automatic band without a bin turns all coefficients to nan, which are replaced by 0 without notice, whatever the signal, for spectrograms of up to 20 bins (`C142_unresolved_wrong`).
* C143: `get_scale_lengths` is one less than the length of the wavelet unless its duration is a whole number of samples (`C143_lengths_wrong`). `_squeeze_scalogram` estimates the momentary frequency with `np.gradient`, which gives fs sin(w)/(2 pi) for a tone of w radians per sample: high tones are moved to lower rows or are dropped; of a tone at fs/4 nothing is left (`C143_high_tone_wrong`). `get_center_frequency` of the base class divides by `x[-1] - x[0]` instead of the length of the transform: a tone with k periods in N samples gets its frequency times N / (N - 1) (`C143_center_wrong`). The note of `cwt` about zero-padding in the beginning is not implemented.
* C144: the frequency vector of `vqt` is always that of 12 bins per octave: with the default of 24 it does not fit to the rows (`C144_bins_wrong`); also with 12 bins the highest B is missing in exact arithmetic, and with binary64 rounding it is there for octaves [1, 5] but not for [1, 4] (`C144_axis_short_wrong`). Selecting some channels raises ValueError (`C144_channel_wrong`), a sampling rate below 2.2 times the highest tone ZeroDivisionError (`C144_low_rate_wrong`). The rate after decimation is taken as `fs // decimation`: rows are tuned too high if it is not a whole number (`C144_tuning_wrong`). `gamma` is not in Hz: it is divided by the decimation and halved with every octave (`C144_bandwidth_wrong`). Coefficients are late by one sample of the octave (`C144_tone_partial`).
* C145: for impulse responses of odd length `__ma_parameters` compares the DFT at k fs/N with the transfer function at k fs/(N + 1), since `freqz` without the Nyquist frequency divides by the number of bins (`C145_odd_wrong`); a pulse delayed by one sample in an array of length 3 is not found (`C145_delay_wrong`). With `order_b = 0` the level of the impulse response is lost (`C145_level_wrong`).
* C146: `swap_channels` and `get_channels` move the channels but not their coherence, `remove_channel`, `trim` and `resample` leave a coherence of the old shape, after which `get_channels` and `sum_channels` always raise; `get_channels` with another number of channels and `sum_channels` on several channels raise as soon as there is a coherence. `resample` overwrites the stored domain of interpolation, after which a complex spectrum cannot be summed in power; resampling to fewer frequencies than channels raises after the frequencies were replaced. The setter of the frequency vector accepts any length. `apply_octave_smoothing` raises TypeError for every spacing that is neither linear nor logarithmic (`np.linspace` with a float), and [1, 10, 20, 40] counts as logarithmic because the first ratio is left out.
* C147: `snr` is the ratio of the variances, not of the powers: `_rms` is `np.std`, so offsets of signal and noise are ignored, and with any offset the returned value is below the ratio of the powers (`C147_snr_offset_wrong`). `si_sdr` is symmetric in target and modified signal (`C147_sdr_swap`), so it cannot tell which of the two is the reference.
* C148: the argument `ir_start` of `reverb_time` is checked and handed on, but `_reverb` never uses it: every valid start gives the result of `None` (`C148_start_ignored_wrong`).
* C149: `Spectrum.from_filterbank` in summed mode stores the sum of the responses plus one (`C149_summed_wrong`), and refuses in parallel mode every bank with more filters than frequencies, because the data setter transposes it (`C149_parallel_wrong`). `spectrum_via_filterbank` refuses signals with more channels than frequencies for the same reason (`C149_channels_wrong`), and for signals that constrain their amplitude (the default) a band that exceeds one in some channel is scaled down in all of them, so that its value is too small (`C149_constrained_wrong`). The RMS value is the standard deviation.
* C152: with `remove_ir_latency` the analytic computation cuts the response one sample before its largest one: a pure delay keeps the group delay of one sample (`C152_one_sample_wrong`) while the numerical computation gives zero (`C152_pure_delay`), and all that comes before is lost although it contributes to the group delay (`C152_forgotten_wrong`). The documentation speaks of the minimum-phase equivalent and a padding factor of 8; the analytic computation uses no minimum phase at all and the numerical one the padding factor 1. Only the numerical computation checks the type of the signal (`C152_refused`).
* C153: center, aperture and minimum distance of a `MicArray` are saved when they are first read, and assigning `coordinates` does not discard them (`C153_stale`, `C153_stale_wrong`: two microphones at distance 2 with the aperture 1 and wrong frequencies for Helmholtz numbers). An array without another assignment is right after every history (`C153_unchanged`).
* C154: filters with a single coefficient cannot be streamed: each call of `process_sample` raises (`C154_order_zero_wrong`), whereas `filter_signal` works.
* C155: `Filter.get_group_delay` of a filter of sections loses the zeros at the beginning of the numerators, since `np.polymul` drops them: a delay of one sample has group delay 0 (`C155_delay_lost_wrong`; `C155_sections` has the exact difference). At zeros of the response the value is 0, also for linear-phase filters (`C155_zero_wrong`).
* C156: `excess_group_delay` and `minimum_group_delay` of responses with a zero in the spectrum return nan without smoothing and raise ValueError with it (`C156_zero_mean_refused`).

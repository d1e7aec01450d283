import Verif.Model.Transforms
import Verif.Model.Deconvolution

/-!
# Model of minimum-phase spectra and impulse responses

`helpers/minimum_phase.py: _get_minimum_phase_spectrum_from_real_cepstrum,
_min_phase_ir_from_real_cepstrum`, `standard/_standard_backend.py: _minimum_phase`,
`transfer_functions/transfer_functions.py: min_phase_ir, minimum_phase, min_phase_from_mag`,
`transfer_functions/_transfer_functions.py: _get_frequency_vector_with_frequency_resolution`.
Exact arithmetic; `nan` is `none`.
-/

namespace Verif.MinimumPhase

open Complex Transforms

/-- The real cepstrum of a channel at `N` points (`minimum_phase.py`, line 34). -/
noncomputable def realCepstrum (N : ℕ) (x : ℕ → ℝ) (n : ℕ) : ℝ :=
  (ifft N (fun k => (Real.log ‖DFT.rfft N x k‖ : ℂ)) n).re

/-- The window in the cepstral domain (`minimum_phase.py`, lines 38-46). -/
def fold (N : ℕ) (y : ℕ → ℝ) (n : ℕ) : ℝ :=
  if N % 2 = 0 then
    if 1 ≤ n ∧ n < N / 2 then y n * 2
    else if N / 2 + 1 ≤ n then 0
    else y n
  else
    if 1 ≤ n ∧ n < (N + 1) / 2 then y n * 2
    else if (N + 1) / 2 ≤ n then 0
    else y n

/-- `_get_minimum_phase_spectrum_from_real_cepstrum` (`minimum_phase.py`, lines 30-49) with
`fft_length = N`.  A bin that is zero has the logarithm `-inf`, which spreads to the whole result. -/
noncomputable def spectrum (N : ℕ) (x : ℕ → ℝ) : Option (ℕ → ℂ) :=
  open Classical in
  if ∃ k < N, DFT.rfft N x k = 0 then none
  else some fun k => exp (DFT.rfft N (fold N (realCepstrum N x)) k)

/-- `_min_phase_ir_from_real_cepstrum` (`minimum_phase.py`, lines 74-79). -/
noncomputable def cepstrumIr (N : ℕ) (x : ℕ → ℝ) : Option (ℕ → ℝ) :=
  (spectrum N x).map fun S n => (ifft N S n).re

/-- `min_phase_ir` with `use_real_cepstrum=True` for a channel (`transfer_functions.py`, lines
832-858).  `fast` is `scipy.fft.next_fast_len` (external). -/
noncomputable def minPhaseIr (fast : ℕ → ℕ) (x : List ℝ) (padding : ℕ) (alpha : ℝ) :
    Except Err (Option (List ℝ)) :=
  if ¬ 1 < padding then .error .assertionError
  else if ¬ (alpha ≤ 1 ∧ 0 < alpha) then .error .assertionError
  else
    let N := fast (max (x.length * padding) x.length)
    let new : ℕ → ℝ := fun n => if n < x.length then (if alpha ≠ 1 then x.getD n 0 * alpha ^ n else x.getD n 0) else 0
    .ok ((cepstrumIr N new).map fun y => (List.range x.length).map fun n : ℕ =>
      if alpha ≠ 1 then y n * alpha ^ (-(n : ℤ)) else y n)

/-- `np.fft.fftfreq(N, 1 / fs)` -/
noncomputable def fftfreq (N fs : ℕ) : List ℝ :=
  (List.range N).map fun k : ℕ => (if k < (N + 1) / 2 then (k : ℝ) else (k : ℝ) - N) * fs / N

/-- The frequencies and bins that `minimum_phase` returns for a spectrum with `N` bins
(`transfer_functions.py`, lines 981-986). -/
noncomputable def positiveBins (N fs : ℕ) : List (ℝ × ℕ) :=
  let f := (List.range N).map fun k =>
    if N % 2 = 0 ∧ k = N / 2 then -(fftfreq N fs).getD k 0 else (fftfreq N fs).getD k 0
  ((List.range N).map fun k => (f.getD k 0, k)).filter fun p => 0 ≤ p.1

/-- `minimum_phase` with `use_real_cepstrum=True` for a channel (`transfer_functions.py`, lines 963-987). -/
noncomputable def minimumPhase (N fs : ℕ) (x : ℕ → ℝ) : Option (List (ℝ × ℝ)) :=
  (spectrum N x).map fun S => (positiveBins N fs).map fun p => (p.1, arg (S p.2))

/-- Logarithm of the whole magnitude spectrum (`_standard_backend.py`, lines 98-115) for `M` bins of a
channel, at least two; `top` is the largest magnitude of all channels. -/
noncomputable def logWhole (M : ℕ) (odd : Bool) (top : ℝ) (mag : ℕ → ℝ) (k : ℕ) : ℝ :=
  let half : ℕ → ℝ := fun k => Real.log (max (mag k) ((10 : ℝ) ^ (-500 / 20 : ℝ) * top))
  if k < M then half k
  else half ((if odd then 2 * M - 1 else 2 * (M - 1)) - k)

/-- Number of entries of the whole spectrum. -/
def wholeLength (M : ℕ) (odd : Bool) : ℕ := if odd then 2 * M - 1 else 2 * (M - 1)

/-- `_minimum_phase` with `unwrapped=True` (`_standard_backend.py`, lines 95-119) for a half spectrum with
`M` bins; `scipy.signal.hilbert` (external) is the analytic signal. -/
noncomputable def phaseOfMag (M : ℕ) (odd : Bool) (top : ℝ) (mag : ℕ → ℝ) (k : ℕ) : ℝ :=
  -(analytic (wholeLength M odd) (logWhole M odd top mag) k).im

/-- The impulse response of `min_phase_from_mag` (`transfer_functions.py`, lines 657-662) for the
interpolated magnitudes `mag` of a channel, with a positive magnitude in some channel. -/
noncomputable def irOfMag (M n : ℕ) (top : ℝ) (mag : ℕ → ℝ) (j : ℕ) : ℝ :=
  Deconv.irfft n M (fun k => (mag k : ℂ) * exp (I * phaseOfMag M (n % 2 == 1) top mag k)) j

/-- `_get_frequency_vector_with_frequency_resolution` (`_transfer_functions.py`, lines 599-606):
frequencies, resolution and length of the time data.  A single frequency raises IndexError. -/
def frequencyVector (delta : ℚ) (fs : ℕ) : Except Err (List ℚ × ℚ × ℕ) :=
  if delta = 0 then .error .zeroDivision
  else
    let nyquist : ℚ := fs / 2
    let l := ⌊nyquist / delta + 0.5⌋₊
    let l := if l % 2 = 0 then l + 1 else l
    if l ≤ 1 then .error .indexError
    else
      let f := (List.range l).map fun k : ℕ => nyquist * k / (l - 1 : ℕ)
      .ok (f, f.getD 1 0, (l - 1) * 2)

/-- The resolution of `min_phase_from_mag` (`transfer_functions.py`, lines 644-652). -/
def magGrid (fs : ℕ) (length : Option ℕ) : Except Err (List ℚ × ℚ × ℕ) :=
  match length with
  | none => frequencyVector 0.5 fs
  | some n => if n = 0 then .error .zeroDivision else frequencyVector (fs / n) fs

end Verif.MinimumPhase

import Verif.Model.Framing
import Verif.Model.Scaling
import Verif.Model.Deconvolution
import Mathlib.Algebra.Order.Floor.Semiring
import Mathlib.Data.Rat.Floor

/-!
# Model of the short-time Fourier transform and its inverse

`standard/_spectral_methods.py: _stft` and `transforms/transforms.py: istft`, one channel, exact
arithmetic.  The window is a list of values, its length is the parameter
`window_length_samples`; the overlap in percent is a rational number.
-/

namespace Verif.STFT

open Scaling

/-- The parameters of the transform. -/
structure Params where
  /-- `get_window(window_type, window_length_samples)` -/
  w : List ℝ
  overlap : ℚ
  fftLen : Option ℕ
  detrend : Bool
  padding : Bool
  scaling : Scaling

/-- The overlap in samples in `_stft` (`_spectral_methods.py`, line 247). -/
def overlapSamples (W : ℕ) (p : ℚ) : ℕ := ⌊p / 100 * W + 1 / 2⌋₊

/-- The step in `istft` (`transforms.py`, line 566). -/
def inverseStep (W : ℕ) (p : ℚ) : ℕ := ⌊(1 - p / 100) * W⌋₊

/-- The overlap in samples in `istft` (`transforms.py`, line 570). -/
def inverseOverlap (W : ℕ) (p : ℚ) : ℕ := ⌊p / 100 * W⌋₊

/-- `has_physical_units` (`enums.py`, lines 109-123). -/
def physical : Scaling → Bool
  | .fftBackward | .fftForward | .fftOrthogonal => false
  | _ => true

/-- The factor of `np.fft.rfft(…, n=F, norm=scaling.fft_norm())` (`enums.py`, lines 53-75). -/
noncomputable def forwardNorm (s : Scaling) (F : ℕ) : ℝ :=
  match s with
  | .fftForward => 1 / F
  | .fftOrthogonal => 1 / √F
  | _ => 1

/-- The factor of `np.fft.irfft(…, n=F, norm=…)` with respect to the default norm. -/
noncomputable def inverseNorm (s : Scaling) (F : ℕ) : ℝ :=
  match s with
  | .fftForward => F
  | .fftOrthogonal => √F
  | _ => 1

/-- Windowing and detrending of a frame (`_spectral_methods.py`, lines 262-266). -/
noncomputable def prepareFrame (P : Params) (frame : List ℝ) : List ℝ :=
  let f := (List.range P.w.length).map fun i => P.w.getD i 0 * frame.getD i 0
  if P.detrend then f.map fun v => v - f.sum / f.length else f

/-- The bins of a frame (`_spectral_methods.py`, lines 268-278); `F` is the length of the
transform, the bins are `0 … F / 2`. -/
noncomputable def frameSpectrum (P : Params) (F fs : ℕ) (frame : List ℝ) (k : ℕ) : ℂ :=
  let X : ℕ → ℂ := fun k => DFT.rfft F (fun n => frame.getD n 0) k * (forwardNorm P.scaling F : ℂ)
  if physical P.scaling then
    let Y := edgeFix (F / 2 + 1) X F k
    (if P.scaling.isAmplitude then Y else ((‖Y‖ ^ 2 : ℝ) : ℂ)) * (factor P.scaling F fs (some P.w) : ℂ)
  else X k

/-- The padding of the signal (`_spectral_methods.py`, lines 258-259). -/
def padded (P : Params) (x : List ℝ) : List ℝ :=
  let o := overlapSamples P.w.length P.overlap
  if P.padding then List.replicate o 0 ++ x ++ List.replicate o 0 else x

/-- The complex values of `_stft` (`_spectral_methods.py`, lines 232-278).  The check of the
window for constant overlap only prints a warning. -/
noncomputable def stft (P : Params) (fs : ℕ) (x : List ℝ) : Except Err (List (ℕ → ℂ)) :=
  if P.w.length ∉ (List.range 13).map (fun n => 2 ^ (n + 4)) then .error .assertionError
  else if ¬ (0 ≤ P.overlap ∧ P.overlap < 100) then .error .assertionError
  else
    let F := P.fftLen.getD P.w.length
    let step := P.w.length - overlapSamples P.w.length P.overlap
    match Framing.framed (padded P x) P.w.length step true with
    | .error e => .error e
    | .ok frames => .ok (frames.map fun f => frameSpectrum P F fs (prepareFrame P f))

/-- The time vector of `_stft` (`_spectral_methods.py`, line 280) for `n` frames. -/
noncomputable def times (P : Params) (fs : ℕ) (x : List ℝ) (n k : ℕ) : ℝ :=
  if n = 1 then 0 else k * ((padded P x).length / fs / (n - 1))

/-- The frequency vector of `_stft` (`_spectral_methods.py`, line 281): its length and values. -/
noncomputable def frequencies (P : Params) (fs : ℕ) : ℕ × (ℕ → ℝ) :=
  (P.w.length / 2 + 1, fun k => k * fs / P.w.length)

/-- The time frame of a column of `bins` bins (`transforms.py`, lines 553-563) for the length `F` of
the transform: the first `min F W` samples. -/
noncomputable def recoverFrame (P : Params) (F fs bins : ℕ) (X : ℕ → ℂ) : List ℝ :=
  (List.range (min F P.w.length)).map fun i =>
    let v := Deconv.irfft F bins X i * inverseNorm P.scaling F
    if physical P.scaling then v / factor P.scaling F fs (some P.w) else v

/-- `td[a:-a]`. -/
def sliceBoth (a : ℕ) (td : List ℝ) : List ℝ :=
  if a = 0 then [] else (td.drop a).take (td.length - 2 * a)

/-- `_reconstruct_framed_signal` with its default threshold. -/
noncomputable def overlapAdd (P : Params) (frames : List (List ℝ)) (step : ℕ) :
    Except Err (List ℝ) :=
  if ¬ ∀ f ∈ frames, f.length = P.w.length then .error .valueError
  else Framing.reconstruct frames P.w.length step (some P.w) none (some (1 / 10000)) (1 / 2 ^ 1022)

/-- `istft(stft, original_signal=…)` (`transforms.py`, lines 521-583): `L` is the length of the
original signal, whose parameters are used; `fs` is the argument `sampling_rate_hz`, which is not
taken from the signal.  The length of the transform is the parameter `fft_length_samples` or, if it
is `None`, the one of the columns, which have `bins` rows. -/
noncomputable def istft (P : Params) (fs : Option ℕ) (L bins : ℕ) (X : List (ℕ → ℂ)) :
    Except Err (List ℝ) :=
  if P.scaling.isDensity ∧ fs = none then .error .typeError
  else
    let F := P.fftLen.getD (2 * (bins - 1))
    let frames := X.map (recoverFrame P F (fs.getD 0) bins)
    let step := inverseStep P.w.length P.overlap
    if P.padding then
      match overlapAdd P frames step with
      | .error e => .error e
      | .ok td =>
        .ok (SignalData.padTrim (sliceBoth (inverseOverlap P.w.length P.overlap) td) L true)
    else
      let extra := List.replicate (min F P.w.length) 0
      match overlapAdd P (extra :: frames ++ [extra]) step with
      | .error e => .error e
      | .ok td => .ok (SignalData.padTrim (sliceBoth step td) L true)

end Verif.STFT

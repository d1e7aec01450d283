import Verif.Model.DFT
import Verif.Spec.Realtime
import Mathlib.Analysis.SpecialFunctions.Pow.Real

/-!
# Model of the spectrum scalings

`standard/enums.py` (`SpectrumScaling`) and `helpers/spectrum_utilities.py`
(`_scale_spectrum`), one channel, exact arithmetic over the real numbers.
-/

set_option linter.dupNamespace false

namespace Verif.Scaling

/-- `SpectrumScaling` (`standard/enums.py`, lines 20-57). -/
inductive Scaling
  | ampSpectrum | ampDensity | powSpectrum | powDensity | fftBackward | fftForward | fftOrthogonal
  deriving DecidableEq

/-- `is_amplitude_scaling` (`enums.py`, lines 77-92). -/
def Scaling.isAmplitude : Scaling → Bool
  | .ampSpectrum | .ampDensity | .fftBackward | .fftForward | .fftOrthogonal => true
  | .powSpectrum | .powDensity => false

/-- `is_spectral_density` (`enums.py`, lines 125-139). -/
def Scaling.isDensity : Scaling → Bool
  | .ampDensity | .powDensity => true
  | _ => false

/-- `get_scaling_factor` (`enums.py`, lines 183-229). -/
noncomputable def factor (s : Scaling) (N fs : ℕ) (window : Option (List ℝ)) : ℝ :=
  match s with
  | .fftBackward => 1
  | .fftForward => 1 / N
  | .fftOrthogonal => (1 / N : ℝ) ^ (0.5 : ℝ)
  | s =>
    let f : ℝ :=
      if s.isDensity then
        match window with
        | none => (2 / N / fs : ℝ) ^ (0.5 : ℝ)
        | some w => (2 / (w.map (· ^ 2)).sum / fs : ℝ) ^ (0.5 : ℝ)
      else
        match window with
        | none => (2 : ℝ) ^ (0.5 : ℝ) / N
        | some w => (2 : ℝ) ^ (0.5 : ℝ) / w.sum
    if s.isAmplitude then f else f ^ (2 : ℝ)

/-- `conversion_factor` (`enums.py`, lines 141-181). -/
noncomputable def conversionFactor (a b : Scaling) (N fs : ℕ) (window : Option (List ℝ)) : ℝ :=
  let fi := factor a N fs window
  let fo := factor b N fs window
  if a.isAmplitude = b.isAmplitude then fo / fi
  else if a.isAmplitude then fo / fi ^ (2 : ℝ)
  else fo ^ (2 : ℝ) / fi

/-- The division of the first bin and, for an even length, of the last bin by `2 ** 0.5`
(`spectrum_utilities.py`, lines 317-320). -/
noncomputable def edgeFix (M : ℕ) (X : ℕ → ℂ) (N k : ℕ) : ℂ :=
  let y : ℂ := if k = 0 then X k / ((2 : ℝ) ^ (0.5 : ℝ) : ℝ) else X k
  if N % 2 = 0 ∧ k = M - 1 then y / ((2 : ℝ) ^ (0.5 : ℝ) : ℝ) else y

/-- `_scale_spectrum` (`spectrum_utilities.py`, lines 309-328) for the bins `0 … M - 1`;
amplitude scalings keep the complex values, power scalings return squared magnitudes (as
complex numbers with imaginary part 0). -/
noncomputable def scaleSpectrum (M : ℕ) (X : ℕ → ℂ) (s : Scaling) (N fs : ℕ)
    (window : Option (List ℝ)) : Except Err (ℕ → ℂ) :=
  if N = (M - 1) * 2 ∨ N = M * 2 - 1 then
    .ok fun k =>
      (if s.isAmplitude then edgeFix M X N k else ((‖edgeFix M X N k‖ ^ 2 : ℝ) : ℂ)) *
        (factor s N fs window : ℝ)
  else .error .assertionError

end Verif.Scaling

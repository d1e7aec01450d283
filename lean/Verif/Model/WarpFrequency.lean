import Verif.Model.SpectrumConversion
import Mathlib.Analysis.SpecialFunctions.Trigonometric.Arctan

/-!
# Model of the warping of frequency vectors (`dsptoolbox/helpers/spectrum_utilities.py`,
lines 456-489, exported as `tools.warp_frequency`, and `Spectrum.warp`,
`dsptoolbox/classes/spectrum.py`, lines 762-803)

Exact arithmetic; the sampling rate is not zero.
-/

namespace Verif.WarpFrequency

open Spectrum SpecConv

/-- One frequency in `_warp_frequency_vector` (`spectrum_utilities.py`, lines 486-489). -/
noncomputable def warpOne (fs : ℕ) (lam f : ℝ) : ℝ :=
  let omega := 2 * Real.pi * f / fs
  f + fs / Real.pi *
    Real.arctan (-lam * Real.sin omega / (1 + lam * Real.cos omega))

/-- `_warp_frequency_vector` (`spectrum_utilities.py`, lines 456-489). -/
noncomputable def warpFrequencies (freqs : List ℝ) (fs : ℕ) (lam : ℝ) : Except Err (List ℝ) :=
  if ¬ |lam| < 1 then .error .assertionError
  else .ok (freqs.map (warpOne fs lam))

open Classical in
/-- Setter of `frequency_vector_hz` (`spectrum.py`, lines 151-179) for a vector of reals.  The type
of the spacing is a function of the vector (`SpecConv.spacing`) and not stored here. -/
noncomputable def setFrequencies (s : CSpec) (f : List ℝ) : Except Err CSpec :=
  if ¬ ∀ x ∈ f, 0 ≤ x then .error .assertionError
  else if ¬ ∀ i < f.length - 1, 0 < f.getD (i + 1) 0 - f.getD i 0 then .error .assertionError
  else .ok { s with freqs := f }

open Classical in
/-- `Spectrum.warp` (`spectrum.py`, lines 762-803): the object after the call; it is unchanged if an
exception is raised.  `frequency_vector_hz[-1]` of an empty vector raises IndexError. -/
noncomputable def warp (s : CSpec) (lam : ℝ) (fs : ℕ) : Except Err CSpec :=
  match s.freqs.getLast? with
  | none => .error .indexError
  | some last =>
    if ¬ isClose ((fs : ℝ) / 2) last ∧ ¬ last ≤ (fs : ℝ) / 2 then .error .assertionError
    else
      match warpFrequencies s.freqs fs lam with
      | .error e => .error e
      | .ok f => setFrequencies s f

end Verif.WarpFrequency

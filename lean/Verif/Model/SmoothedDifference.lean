import Verif.Model.SpectralDifference
import Verif.Model.SpectrumConversion
import Verif.Model.OctaveSmoothing

/-!
# The difference of smoothed spectra (`standard/other.py`: `spectral_difference`)

`spectral_difference` with `octave_fraction_smoothing` (lines 408-482).  Exact arithmetic; the fraction is a natural
number.
-/

namespace Verif.SpectralDifference

open Spectrum Complex OctaveSmoothing SpecConv

/-- `fractional_octave_smoothing(data, beta, fraction, "hann")` of a channel of reals with `N` bins. -/
noncomputable def smoothReal (beta : Option ℝ) (fraction N : ℕ) (v : ℕ → ℝ) : Except Err (ℕ → ℝ) :=
  match smooth ((List.range N).map v) beta fraction (.type hann) false with
  | .error e => .error e
  | .ok (none, _) => .error .valueError
  | .ok (some r, _) => .ok fun k => r.getD k 0

/-- `apply_octave_smoothing` for the data of a channel (`spectrum.py`, lines 853-869): the magnitudes, for complex data
the magnitudes and the unwrapped phases. -/
noncomputable def smoothData (beta : Option ℝ) (fraction N : ℕ) (isMagnitude : Bool) (x : ℕ → ℂ) :
    Except Err (ℕ → ℂ) :=
  if isMagnitude then
    match smoothReal beta fraction N fun k => (x k).re with
    | .error e => .error e
    | .ok m => .ok fun k => (m k : ℂ)
  else
    match smoothReal beta fraction N fun k => ‖x k‖ with
    | .error e => .error e
    | .ok m =>
      match smoothReal beta fraction N (unwrap fun k => (x k).arg) with
      | .error e => .error e
      | .ok p => .ok fun k => (m k : ℂ) * exp (I * (p k : ℂ))

/-- The spacing in octaves that is handed over (`spectrum.py`, lines 832-836). -/
noncomputable def octaves (f : List ℝ) : Option ℝ :=
  if spacing f = .logarithmic then some (Real.logb 2 (f.getD (f.length - 1) 0 / f.getD (f.length - 2) 0)) else none

/-- `apply_octave_smoothing` (`spectrum.py`, lines 805-869).  For other frequency vectors `np.linspace` raises
TypeError (see `SpectrumObject.octaveSmoothing`). -/
noncomputable def smoothSpec (fraction : ℕ) (s : Spec) : Except Err Spec :=
  if spacing s.freqs = .other then .error .typeError
  else
    match (List.range s.channels).mapM
        (fun c => smoothData (octaves s.freqs) fraction s.freqs.length s.isMagnitude (s.x c)) with
    | .error e => .error e
    | .ok l => .ok { s with x := fun c => l.getD c fun _ => 0 }

/-- The energy normalization before the smoothing (`other.py`, lines 461-463).  A silent channel is nan, which the setter
of magnitudes refuses (`normalized`) and the smoothing of complex data too. -/
noncomputable def normalizeSpec (norm : Bool) (s : Spec) : Except Err Spec :=
  match normalized norm s with
  | .error e => .error e
  | .ok n =>
    if ∃ c < s.channels, (n c).isNone then .error .valueError
    else .ok { s with x := fun c k => ((n c).getD fun _ => 0) k }

open Classical in
/-- `spectral_difference` with smoothing (`other.py`, lines 408-482): after the checks the spectra are normalized, then
smoothed, then divided. -/
noncomputable def smoothedDifference (fraction : ℕ) (s1 s2 : Spec) (norm complex : Bool) (dr : Option ℝ) :
    Except Err (ℕ → ℕ → Option ℂ) :=
  if fraction = 0 then spectralDifference s1 s2 norm complex dr
  else if s1.channels ≠ s2.channels then .error .assertionError
  else if complex = true ∧ s1.isMagnitude = true then .error .assertionError
  else if complex = true ∧ s2.isMagnitude = true then .error .assertionError
  else
    match normalizeSpec norm s1 with
    | .error e => .error e
    | .ok n1 =>
      match normalizeSpec norm s2 with
      | .error e => .error e
      | .ok n2 =>
        match smoothSpec fraction n1 with
        | .error e => .error e
        | .ok t1 =>
          match smoothSpec fraction n2 with
          | .error e => .error e
          | .ok t2 => spectralDifference t1 t2 false complex dr

end Verif.SpectralDifference

import Verif.Model.CSM

/-!
# Model of spectra by the method of Welch

`classes/signal.py: get_spectrum` with `SpectrumMethod.WelchPeriodogram` and
`standard/_spectral_methods.py: _welch` for the autospectra of all channels.
-/

namespace Verif.CSM

open Scaling

/-- Exceptions of `_welch` for `n` channels of `L` samples (`_spectral_methods.py`, lines 64-172).
A single channel is squeezed before the average over axis 1 (lines 131-134 and 152-154), so that
a single frame raises `AxisError` (a ValueError); several channels are not. -/
def welchCheck (p : Params) (n L : ℕ) : Option Err :=
  if n = 1 then check p L
  else if (∃ e ∈ List.range 19, 3 ≤ e ∧ p.W = 2 ^ e) then
    if p.overlap < 100 then
      match Framing.framed (List.replicate L (0 : ℚ)) p.W p.step true with
      | .error e => some e
      | .ok _ => none
    else some .assertionError
  else some .assertionError

/-- `get_spectrum` (`signal.py`, lines 886-898): bin `k` of channel `c`. -/
noncomputable def welchSpectrum (p : Params) (s : Scaling) (n L : ℕ) (x : ℕ → List ℝ) :
    Except Err (ℕ → ℕ → ℂ) :=
  match welchCheck p n L with
  | some e => .error e
  | none => .ok fun k c => welch p s (x c) none k

end Verif.CSM

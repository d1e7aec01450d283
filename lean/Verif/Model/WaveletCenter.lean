import Verif.Model.Wavelet
import Verif.Model.DFT
import Mathlib.Analysis.Complex.Norm

/-!
# Model of the centre frequency of a wavelet and of the longest wavelet

`transforms/_transforms.py: Wavelet.get_center_frequency` (lines 53-62), the method that a wavelet inherits if it does not
define its own, and `_get_length_longest_wavelet` (lines 303-324).

Exact arithmetic; `get_base_wavelet()` of the subclass is given by its two arrays.
-/

namespace Verif.Wavelet

/-- `np.argmax(np.abs(np.fft.fft(func)))` (line 59): the first of the largest bins; `np.fft.fft` raises ValueError for no
samples. -/
noncomputable def peakBin (func : List ℂ) : Except Err ℕ :=
  if func = [] then .error .valueError
  else Helpers.argmin ((List.range func.length).map fun k => -‖DFT.dft func.length (fun n => func.getD n 0) k‖)

/-- `get_center_frequency` of the base class (lines 53-62) for `x, func = self.get_base_wavelet()`; `none` stands for the nan or
infinity of the division by zero. -/
noncomputable def centerFrequency (x : List ℝ) (func : List ℂ) : Except Err (Option ℝ) := do
  let ind ← peakBin func
  if x = [] then throw .indexError
  let domain := x.getD (x.length - 1) 0 - x.getD 0 0
  if domain = 0 then return none
  return some (ind / domain)

/-- `_get_length_longest_wavelet` (lines 303-324) for a `MorletWavelet`; `np.min` of no frequencies raises ValueError. -/
noncomputable def longestWavelet (m : Morlet) (f : List ℝ) (fs : ℝ) : Except Err ℕ :=
  match f with
  | [] => .error .valueError
  | f0 :: rest =>
    match m.wavelet fs (rest.foldl min f0) with
    | .error e => .error e
    | .ok w => .ok w.length

end Verif.Wavelet

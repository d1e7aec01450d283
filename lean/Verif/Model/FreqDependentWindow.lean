import Verif.Model.OctaveBands
import Verif.Model.RoomDescriptors
import Verif.Model.Helpers

/-!
# Frequency-dependent windowing

`transfer_functions/transfer_functions.py: window_frequency_dependent`,
`transfer_functions/_transfer_functions.py: _fdw_backend` (both versions).  One channel, exact
arithmetic.  The object is an impulse response.
-/

namespace Verif.Fdw

open Complex

/-- `cycles_per_freq_samples` (line 1340) for the frequency `j fs / N` of bin `j ≥ 1` (line 1339). -/
noncomputable def cycleSamples (fs N : ℕ) (cycles : ℤ) (j : ℕ) : ℤ :=
  OctaveBands.roundEven (fs / ((j : ℝ) * fs / N) * cycles)

/-- `half` (line 1345). -/
noncomputable def half (N : ℕ) : ℝ := ((N : ℝ) - 1) / 2

/-- `alpha_factor` (line 1346); `1 / end_window_value ** 2` is larger than 1. -/
noncomputable def alphaFactor (e : ℝ) (N : ℕ) : ℝ := Real.sqrt (Real.log (1 / e ^ 2)) * half N

/-- Entry `k` of `n` (lines 1349-1355). -/
noncomputable def position (N p k : ℕ) : ℝ := -(1 / 2) * (((k : ℝ) - p) / half N) ^ 2

/-- One row of the spectrum (`_transfer_functions.py`, lines 567-570) with `dft_factor` (lines
1361-1367) and `freqs_normalized` (line 1360), `alpha` (lines 1356-1358); `none` is nan (a window of length 0). -/
noncomputable def row (x : List ℝ) (fs : ℕ) (cycles : ℤ) (e : ℝ) (j : ℕ) : Option ℂ :=
  let N := x.length
  let c := cycleSamples fs N cycles j
  let p := Room.argmaxAbs x
  let alpha := (alphaFactor e N / c) ^ 2
  if c = 0 then none
  else some (∑ k ∈ Finset.range N,
    exp (-2 * I * Real.pi * ((k : ℝ) / N : ℝ) * ((j : ℝ) * fs / N * (N / fs) : ℝ) + ((alpha * position N p k : ℝ) : ℂ)) *
      (x.getD k 0 : ℂ))

/-- `window_frequency_dependent` (`transfer_functions.py`, lines 1332-1377): the values of the
spectrum at the frequencies `0, fs / N, …`. -/
noncomputable def fdw (x : List ℝ) (fs : ℕ) (cycles : ℤ) (endDb : ℝ) : Except Err (List (Option ℂ)) :=
  if ¬ endDb < 0 then .error .assertionError
  else .ok (some 0 :: (List.range (x.length / 2)).map fun (j : ℕ) =>
    row x fs cycles (Level.fromDb endDb true) (j + 1))

end Verif.Fdw

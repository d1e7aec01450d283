import Verif.Model.Distances
import Verif.Model.Calibration
import Verif.Model.Mat

/-!
# Model of the signal-to-noise and signal-to-distortion ratios

`distances/distances.py: snr, si_sdr` (lines 194-272), `distances/_distances.py: _snr, _sisdr`
(lines 64-101), `helpers/gain_and_level.py: _rms` (lines 7-25).

Exact arithmetic.  The time data is real; a signal is its sampling rate and its time data.
-/

namespace Verif.Ratios

open Finset Verif.Distances

/-- Sampling rate and time data of a `Signal`. -/
structure Sig where
  fs : ℕ
  A : Mat ℝ

/-- `_rms` of one channel of `n` samples (`gain_and_level.py`, lines 7-25): `np.std`. -/
noncomputable def rms (n : ℕ) (x : ℕ → ℝ) : ℝ :=
  √((∑ i ∈ range n, (x i - (∑ j ∈ range n, x j) / n) ^ 2) / n)

/-- `_snr` from the two levels (`_distances.py`, line 80); `none` for nan, inf and -inf. -/
noncomputable def ratio (a b : ℝ) : Option ℝ :=
  if a = 0 ∨ b = 0 then none else some (20 * Real.logb 10 (a / b))

/-- `snr` (`distances.py`, lines 194-222): one value per channel of the signal; the division
broadcasts a single channel of noise. -/
noncomputable def snr (s n : Sig) : Except Err (List (Option ℝ)) :=
  if s.fs ≠ n.fs then .error .assertionError
  else if n.A.cols ≠ 1 ∧ s.A.cols ≠ n.A.cols then .error .assertionError
  else .ok ((List.range s.A.cols).map fun (c : ℕ) =>
    ratio (rms s.A.rows fun r => s.A.val r c)
      (rms n.A.rows fun r => n.A.val r (if n.A.cols = 1 then 0 else c)))

/-- `si_sdr` (`distances.py`, lines 225-272). -/
noncomputable def siSdr (t m : Sig) : Except Err (List (Option ℝ)) :=
  if m.fs ≠ t.fs then .error .assertionError
  else if t.A.cols ≠ 1 ∧ m.A.cols ≠ t.A.cols then .error .assertionError
  else if m.A.rows ≠ t.A.rows then .error .assertionError
  else .ok ((List.range m.A.cols).map fun (c : ℕ) =>
    sisdr t.A.rows (fun r => t.A.val r (if t.A.cols = 1 then 0 else c)) fun r => m.A.val r c)

end Verif.Ratios

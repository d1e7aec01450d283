import Verif.Model.Reverb
import Mathlib.Analysis.Real.Sqrt

/-!
# The adaptive reverberation time (`room_acoustics/_room_acoustics.py`, lines 999-1137)

The default mode of `reverb_time`.  One channel, exact reals, a decay curve that never rises
given on `0, ..., L - 1`.  `none` stands for an exception (`scipy.stats.pearsonr` needs two
points), for a fit that is not determined and for results that are not numbers.
-/

namespace Verif.Room

open Finset

/-- Both coefficients of `np.polyfit(t[i1:i2], y[i1:i2], 1)`. -/
noncomputable def polyfitLine (i1 i2 : ℕ) (t y : ℕ → ℝ) : Option (ℝ × ℝ) :=
  (polyfitSlope i1 i2 t y).map fun a => (a, mean i1 i2 y - a * mean i1 i2 t)

/-- `scipy.stats.pearsonr(t[i1:i2], y[i1:i2])[0]` (external): an exception for less than two
points, nan for constant data. -/
noncomputable def pearson (i1 i2 : ℕ) (t y : ℕ → ℝ) : Option ℝ :=
  let dt := ∑ i ∈ Ico i1 i2, (t i - mean i1 i2 t) ^ 2
  let dy := ∑ i ∈ Ico i1 i2, (y i - mean i1 i2 y) ^ 2
  if i2 < i1 + 2 ∨ dt = 0 ∨ dy = 0 then none
  else some ((∑ i ∈ Ico i1 i2, (t i - mean i1 i2 t) * (y i - mean i1 i2 y)) /
    (Real.sqrt dt * Real.sqrt dy))

/-- First sample below a level, found by `np.searchsorted` on the reversed curve (lines 1086,
1090, 1131-1132). -/
noncomputable def levelIndex (L : ℕ) (edc : ℕ → ℝ) (v : ℝ) : ℕ := L - searchsorted L edc v

/-- `_get_polynomial_coeffs_from_edc` (lines 1097-1137), both coefficients. -/
noncomputable def decayLine (L : ℕ) (t edc : ℕ → ℝ) (start stop : ℝ) : Option (ℝ × ℝ) :=
  polyfitLine (levelIndex L edc start) (levelIndex L edc stop) t edc

/-- Correlation on the range between two levels (lines 1086-1091). -/
noncomputable def decayCorr (L : ℕ) (t edc : ℕ → ℝ) (start stop : ℝ) : Option ℝ :=
  pearson (levelIndex L edc start) (levelIndex L edc stop) t edc

/-- `np.arange(start - 20, start - 60, -1)` (line 1043). -/
noncomputable def endLevels (start : ℝ) : List ℝ :=
  (List.range 40).map fun (k : ℕ) => start - 20 - k

/-- `np.argmin`: the first of the smallest entries. -/
noncomputable def firstMin : List (ℝ × ℝ) → Option (ℝ × ℝ)
  | [] => none
  | p :: l => some (l.foldl (fun best q => if q.2 < best.2 then q else best) p)

/-- `_get_best_linear_fit_for_edc` (lines 1055-1094): the end level with the lowest
correlation and that correlation. -/
noncomputable def bestEnd (L : ℕ) (t edc : ℕ → ℝ) (start : ℝ) : Option (ℝ × ℝ) :=
  match (endLevels start).mapM fun v => (decayCorr L t edc start v).map fun r => (v, r) with
  | none => none
  | some l => firstMin l

/-- Level at which the fit starts (lines 1031-1041) for the lines of EDT and T30: the level of
their intersection if EDT is shorter by more than a factor of ten, else -5 dB. -/
noncomputable def startLevel (edt t30 : ℝ × ℝ) : Option ℝ :=
  if edt.1 = 0 ∨ t30.1 = 0 then none
  else if (-6 * 10 / edt.1) * 10 < -60 / t30.1 then
    if t30.1 - edt.1 = 0 then none
    else some (edt.1 * ((edt.2 - t30.2) / (t30.1 - edt.1)) + edt.2)
  else some (-5)

/-- `_obtain_optimal_reverb_time` (lines 999-1052): reverberation time and correlation. -/
noncomputable def optimalTime (L : ℕ) (t edc : ℕ → ℝ) : Option (ℝ × ℝ) := do
  let edt ← decayLine L t edc 0 (-10)
  let t30 ← decayLine L t edc (-5) (-35)
  let start ← startLevel edt t30
  let (stop, r) ← bestEnd L t edc start
  let (a, _) ← decayLine L t edc start stop
  if a = 0 then none else some (60 / |a|, r)

/-- `_reverb` in the adaptive mode, from the decay curve on (lines 60-68). -/
noncomputable def adaptive (fs L : ℕ) (edc : ℕ → ℝ) : Option (ℝ × ℝ) :=
  optimalTime L (timeVector fs L) edc

end Verif.Room

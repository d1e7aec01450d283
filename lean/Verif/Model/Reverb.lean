import Verif.Model.RoomDescriptors
import Mathlib.Algebra.BigOperators.Intervals

/-!
# Model of the reverberation time (`room_acoustics/_room_acoustics.py`, `_reverb` and its helpers)

One channel, exact reals.  The energy decay curve is a function on `0, ..., L - 1`.
-/

namespace Verif.Room

open Finset

/-- `np.searchsorted(edc[::-1], v)` for a decay curve that never rises: the number of values
below `v`. -/
noncomputable def searchsorted (L : ℕ) (edc : ℕ → ℝ) (v : ℝ) : ℕ := by
  classical exact ((range L).filter fun i => edc i < v).card

/-- Mean over the points `i1, ..., i2 - 1`. -/
noncomputable def mean (i1 i2 : ℕ) (f : ℕ → ℝ) : ℝ := (∑ i ∈ Ico i1 i2, f i) / (i2 - i1 : ℕ)

/-- First coefficient (slope) of `np.polyfit(t[i1:i2], y[i1:i2], 1)`: the least squares line;
`none` if the points do not determine a line. -/
noncomputable def polyfitSlope (i1 i2 : ℕ) (t y : ℕ → ℝ) : Option ℝ :=
  let d := ∑ i ∈ Ico i1 i2, (t i - mean i1 i2 t) ^ 2
  if d = 0 then none
  else some ((∑ i ∈ Ico i1 i2, (t i - mean i1 i2 t) * (y i - mean i1 i2 y)) / d)

/-- `_get_polynomial_coeffs_from_edc` (`_room_acoustics.py`, lines 1097-1137), the slope. -/
noncomputable def decaySlope (L : ℕ) (t edc : ℕ → ℝ) (start stop : ℝ) : Option ℝ :=
  polyfitSlope (L - searchsorted L edc start) (L - searchsorted L edc stop) t edc

/-- The modes with fixed ranges. -/
inductive Mode
  | t20 | t30 | t60 | edt

/-- Limits in dB and factor (`_room_acoustics.py`, lines 69-80). -/
noncomputable def Mode.limits : Mode → ℝ × ℝ × ℝ
  | .t20 => (-5, -25, 60)
  | .t30 => (-5, -35, 60)
  | .t60 => (-5, -65, 60)
  | .edt => (0, -10, 10)

/-- `_reverb` from the decay curve on (`_room_acoustics.py`, lines 60-85); the argument `ir_start`
is only passed through.  `none` stands for a fit that is not determined or inf. -/
noncomputable def reverb (mode : Mode) (_irStart : Option ℕ) (fs L : ℕ) (edc : ℕ → ℝ) : Option ℝ :=
  match decaySlope L (timeVector fs L) edc mode.limits.1 mode.limits.2.1 with
  | none => none
  | some p => if p = 0 then none else some (mode.limits.2.2 / |p|)

/-- Plain backward integration, used when the corrections are avoided (`_room_acoustics.py`, lines
1215-1222): 95 % of the samples, each value is the energy after that sample, in dB relative to the
first value. -/
noncomputable def edcPlain (N : ℕ) (power : ℕ → ℝ) (n : ℕ) : ℝ :=
  let rest := fun n => ∑ i ∈ range N, power i - ∑ i ∈ range (n + 1), power i
  10 * Real.logb 10 (rest n) - 10 * Real.logb 10 (rest 0)

/-- Number of values of the plain curve. -/
def edcPlainLength (N : ℕ) : ℕ := N * 95 / 100

/-- What is computed from the fitted line (`_room_acoustics.py`, lines 1190-1198); `p0`, `p1` are the
coefficients as returned by `np.polyfit` (`p0` the slope in dB per second, `p1` the level at time
0), `noise` is the noise power.  Result: whether the corrections are avoided, the intersection time
and the compensation energy. -/
noncomputable def compensation (p0 p1 noise : ℝ) : Prop × ℝ × ℝ :=
  let B := Level.fromDb p0 false
  let t1 := (10 * Real.logb 10 noise - p0) / p1
  let A := Real.log (noise / B) / t1
  (p1 ≥ 0 ∨ t1 ≤ 0, t1, -B / A * Real.exp (A * t1))

end Verif.Room

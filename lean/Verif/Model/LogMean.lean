import Verif.Model.OctaveSmoothing
import Verif.Model.FrequencyGrids

/-!
# Model of the logarithmic mean and of the crossover function (`tools.py: log_mean,
frequency_crossover`)

Exact real arithmetic.
-/

namespace Verif.LogMean

open Verif.OctaveSmoothing (logGrid interpLinear)

/-- `log_mean` (`tools.py`, lines 106-131) of a vector with at least two entries. -/
noncomputable def logMean (x : List ℝ) : ℝ :=
  let N := x.length
  let v := (List.range N).map fun k =>
    interpLinear ((List.range N).map fun (i : ℕ) => (i : ℝ) + 1) x (logGrid N k)
  v.sum / N

/-- `np.linspace(a, b, n)` -/
noncomputable def linspace (a b : ℝ) (n : ℕ) : List ℝ :=
  (List.range n).map fun (i : ℕ) => if n = 1 then a else a + i * ((b - a) / ((n : ℝ) - 1))

/-- The grid of the crossover (`tools.py`, lines 160-168); `np.linspace` raises ValueError for a
negative number of points. -/
noncomputable def crossoverGrid (f0 f1 : ℝ) (logarithmic : Bool) : Except Err (List ℝ) :=
  if logarithmic then FrequencyGrids.logVector f0 f1 250
  else if f1 - f0 ≤ -1 then .error .valueError
  else .ok (linspace f0 f1 ⌊f1 - f0⌋₊)

/-- `np.hanning(2 * L)[:L]` -/
noncomputable def rise (L : ℕ) : List ℝ :=
  (List.range L).map fun (i : ℕ) => 0.5 - 0.5 * Real.cos (2 * Real.pi * i / (2 * (L : ℝ) - 1))

/-- `frequency_crossover` (`tools.py`, lines 134-183).  `cubic` is the spline of scipy through the
given points (external, an arbitrary function here), which needs four points (ValueError). -/
noncomputable def crossover (cubic : List ℝ → List ℝ → ℝ → ℝ) (f0 f1 : ℝ) (logarithmic : Bool) :
    Except Err (ℝ → ℝ) := do
  let f ← crossoverGrid f0 f1 logarithmic
  let w := rise f.length
  if f.length < 4 then .error .valueError
  else .ok fun x =>
    if x < f.getD 0 0 then 0
    else if f.getD (f.length - 1) 0 < x then 1
    else cubic f w x

end Verif.LogMean

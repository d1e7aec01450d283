import Verif.Model.FractionalPeak
import Mathlib.LinearAlgebra.Lagrange
import Mathlib.Data.Real.Basic

/-!
# The position of a peak between samples with any number of points

`helpers/latency.py: _get_fractional_impulse_peak_index` (lines 31-98) and `_fractional_latency` (lines 140-149) with any `polynomial_points`.  Exact arithmetic:
`np.polyfit` with as many coefficients as points is the polynomial through the points, and `np.roots` finds its real roots, in an
order that is left open (`roots`).
-/

namespace Verif.FractionalPeak

open Polynomial

/-- `np.polyfit(x, h[d - points + 1 : d + points + 1], deg=2 * points - 1)` (lines 42 and 60-71) for a slice inside the
array. -/
noncomputable def fitted (h : List ℝ) (points d : ℕ) : ℝ[X] :=
  Lagrange.interpolate (Finset.range (2 * points)) (fun i : ℕ => (i : ℝ) + (1 - points))
    (fun i : ℕ => h.getD (d + 1 - points + i) 0)

/-- One pass of the loop (`latency.py`, lines 46-97) with the index `d` of the largest sample.  `np.polyfit` raises ValueError
without points and TypeError for a slice with less values than points, which it has wherever it reaches over an end of the
array: a negative begin counts from the end. -/
noncomputable def refinePoints (roots : ℝ[X] → List ℝ) (points : ℕ) (h : List ℝ) (d : ℕ) : Except Err ℝ :=
  if h.length ≤ d + 1 then .error .indexError
  else
    let back : Bool := decide (0 < h.getD d 0 * h.getD (d + 1) 0)
    let d' : ℤ := (d : ℤ) - (if back then 1 else 0)
    if 0 < entry h d' * entry h (d' + 1) then .ok ((d' : ℝ) + (if back then 1 else 0))
    else if points = 0 then .error .valueError
    else if d' - points + 1 < 0 ∨ (h.length : ℤ) < d' + points + 1 then .error .typeError
    else
      match (roots (fitted h points d'.toNat)).filter fun r => decide (r ≤ 1 ∧ 0 ≤ r) with
      | [] => .ok ((d' : ℝ) + (if back then 1 else 0))
      | r :: _ => .ok ((d' : ℝ) + r)

/-- `_get_fractional_impulse_peak_index` (`latency.py`, lines 31-98) for an array given by its channels and any number of
points. -/
noncomputable def peaksPoints (roots : ℝ[X] → List ℝ) (points : ℕ) (hilb : List ℝ → List ℝ) (x : List (List ℝ)) :
    Except Err (List ℝ) := do
  let ds ← x.mapM Latency.argmaxAbs
  if ds = [] then throw .valueError
  let last := ds.foldr max 0
  let start := ds.foldr min (ds.headD 0) - 200
  (List.range x.length).mapM fun c => do
    let v ← refinePoints roots points (hilb (crop start last (x.getD c []))) (ds.getD c 0 - start)
    pure (v + (start : ℝ))

/-- `_fractional_latency` (`latency.py`, lines 144-149) for two signals given by their channels and any number of points. -/
noncomputable def fractionalPoints (roots : ℝ[X] → List ℝ) (points : ℕ) (hilb : List ℝ → List ℝ)
    (td1 td2 : List (List ℝ)) : Except Err (List ℝ) := do
  let inds ← peaksPoints roots points hilb
    ((List.range td2.length).map fun c => Latency.correlate (td2.getD c []) (td1.getD c []))
  pure (inds.map fun v => ((td1.getD 0 []).length : ℝ) - v - 1)

/-- `_fractional_latency` for the channels of one signal (`latency.py`, lines 140-143 and 148-149) and any number of points; the
channels are reversed as for whole latencies (`Latency.latency1`). -/
noncomputable def fractionalPoints1 (roots : ℝ[X] → List ℝ) (points : ℕ) (hilb : List ℝ → List ℝ)
    (td : List (List ℝ)) : Except Err (List ℝ) := do
  let inds ← peaksPoints roots points hilb ((List.range (td.length - 1)).map fun c =>
    Latency.correlate (td.getD 0 []) (td.getD (td.length - 1 - c) []))
  pure (inds.map fun v => ((td.getD 0 []).length : ℝ) - v - 1)

end Verif.FractionalPeak

import Verif.Model.Latency

/-!
# The position of a peak between samples

`helpers/latency.py: _get_fractional_impulse_peak_index`, `_fractional_latency` with one point
(`polynomial_points = 1`, the value used by `find_ir_latency` and by the other callers inside the
library), `transfer_functions.py: find_ir_latency` without comparison to the minimum phase.
The imaginary part of `scipy.signal.hilbert` is a parameter `hilb` that maps a channel to a list of
the same length.  Exact arithmetic.
-/

namespace Verif.FractionalPeak

variable {K : Type} [Field K] [LinearOrder K]

/-- The samples around the peaks (`latency.py`, lines 36 and 38): `time_data[: last + 200]`, then
from `start` on. -/
def crop (start last : ℕ) (x : List K) : List K := (x.take (last + 200)).drop start

/-- Entry `i` of an array of length `n`; a negative index counts from the end. -/
def entry (h : List K) (i : ℤ) : K := if i < 0 then h.getD ((h.length : ℤ) + i).toNat 0 else h.getD i.toNat 0

/-- One pass of the loop (`latency.py`, lines 46-97) with the index `d` of the largest sample.  The
polynomial through the two values is `(h1 - h0) t + h0`; `np.roots` gives no root if it is constant.
For `d = -1` the slice `h[-1:1]` is empty and `np.polyfit` raises TypeError. -/
def refine (h : List K) (d : ℕ) : Except Err K :=
  if h.length ≤ d + 1 then .error .indexError
  else
    let back : Bool := decide (0 < h.getD d 0 * h.getD (d + 1) 0)
    let d' : ℤ := (d : ℤ) - (if back then 1 else 0)
    let h0 := entry h d'
    let h1 := entry h (d' + 1)
    if 0 < h0 * h1 then .ok ((d' : K) + (if back then 1 else 0))
    else if d' < 0 then .error .typeError
    else if h1 - h0 = 0 then .ok ((d' : K) + (if back then 1 else 0))
    else
      let root := -h0 / (h1 - h0)
      if root ≤ 1 ∧ 0 ≤ root then .ok ((d' : K) + root) else .ok ((d' : K) + (if back then 1 else 0))

/-- `_get_fractional_impulse_peak_index` (`latency.py`, lines 31-98) for an array given by its
channels. -/
def peaks (hilb : List K → List K) (x : List (List K)) : Except Err (List K) := do
  let ds ← x.mapM Latency.argmaxAbs
  if ds = [] then throw .valueError
  let last := ds.foldr max 0
  let start := ds.foldr min (ds.headD 0) - 200
  (List.range x.length).mapM fun c => do
    let v ← refine (hilb (crop start last (x.getD c []))) (ds.getD c 0 - start)
    pure (v + (start : K))

/-- `_fractional_latency` (`latency.py`, lines 144-149) for two signals given by their channels. -/
def fractional2 (hilb : List K → List K) (td1 td2 : List (List K)) : Except Err (List K) := do
  let inds ← peaks hilb ((List.range td2.length).map fun c => Latency.correlate (td2.getD c []) (td1.getD c []))
  pure (inds.map fun v => ((td1.getD 0 []).length : K) - v - 1)

/-- `_fractional_latency` for one signal (`latency.py`, lines 140-143); the channels are reversed as
for whole latencies (`Latency.latency1`). -/
def fractional1 (hilb : List K → List K) (td : List (List K)) : Except Err (List K) := do
  let inds ← peaks hilb ((List.range (td.length - 1)).map fun c =>
    Latency.correlate (td.getD 0 []) (td.getD (td.length - 1 - c) []))
  pure (inds.map fun v => ((td.getD 0 []).length : K) - v - 1)

end Verif.FractionalPeak

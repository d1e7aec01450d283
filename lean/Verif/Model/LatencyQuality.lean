import Verif.Model.Latency
import Verif.Model.AdaptiveReverb

/-!
# The correlation returned by `latency`, and the removal of a latency from a phase

`helpers/latency.py: _get_correlation_of_latencies, _remove_ir_latency_from_phase`,
`standard/latency_delay.py: latency` with `polynomial_points = 0`.  Exact reals.
-/

namespace Verif.Latency

/-- `scipy.stats.pearsonr(x, y)[0]` (external) of two vectors of the same length: ValueError for
less than two samples; `none` is nan (a constant vector). -/
noncomputable def pearsonr (x y : List ℝ) : Except Err (Option ℝ) :=
  if x.length < 2 then .error .valueError
  else .ok (Room.pearson 0 x.length (fun i => x.getD i 0) (fun i => y.getD i 0))

/-- One pass of the loop of `_get_correlation_of_latencies` (`helpers/latency.py`, lines
247-264): the channels `a` of `time_data` and `b` of `other_time_data`. -/
noncomputable def corrPair (a b : List ℝ) (lat : ℤ) : Except Err (Option ℝ) :=
  let undelayed := if lat > 0 then a else b
  let delayed := (if lat > 0 then b else a).drop lat.natAbs
  let n := min delayed.length undelayed.length
  pearsonr (delayed.take n) (undelayed.take n)

/-- `_get_correlation_of_latencies` (`helpers/latency.py`, lines 218-265) for signals given by
their channels; a single channel of `time_data` is used for all. -/
noncomputable def correlations (timeData other : List (List ℝ)) (lats : List ℤ) :
    Except Err (List (Option ℝ)) :=
  (List.range lats.length).mapM fun ch =>
    corrPair (if timeData.length = 1 then timeData.getD 0 [] else timeData.getD ch [])
      (other.getD ch []) (lats.getD ch 0)

/-- The last lines of `latency` for signals (`latency_delay.py`, lines 102-115): an exception of
the correlations is caught, and all of them are set to zero. -/
noncomputable def withQuality (timeData other : List (List ℝ)) (lats : List ℤ) :
    List ℤ × List (Option ℝ) :=
  match correlations timeData other lats with
  | .ok r => (lats, r)
  | .error _ => (lats, lats.map fun _ => some 0)

/-- `latency(in1, in2)` with both results (`latency_delay.py`, lines 84-115). -/
noncomputable def latencyBoth (sameRate : Bool) (in1 in2 : List (List ℝ)) :
    Except Err (List ℤ × List (Option ℝ)) :=
  match latency2 sameRate in1 in2 with
  | .error e => .error e
  | .ok lats => .ok (withQuality in2 in1 lats)

/-- `latency(in1)` with both results (`latency_delay.py`, lines 94-115). -/
noncomputable def latencyChannels (in1 : List (List ℝ)) :
    Except Err (List ℤ × List (Option ℝ)) :=
  match latency1 in1 with
  | .error e => .error e
  | .ok lats => .ok (withQuality [in1.getD 0 []] (in1.drop 1) lats)

/-- `_remove_ir_latency_from_phase` (`helpers/latency.py`, lines 152-181) for one channel, one
frequency. -/
noncomputable def removeLatency (fs : ℕ) (latency f phase : ℝ) : ℝ :=
  Helpers.wrapPhase (phase + 2 * Real.pi * f * (latency / fs))

end Verif.Latency

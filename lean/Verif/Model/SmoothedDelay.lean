import Verif.Model.ExcessDelay
import Verif.Model.GroupDelayLatency
import Verif.Model.OctaveSmoothing

/-!
# Smoothed group delays

`transfer_functions/transfer_functions.py: group_delay, minimum_group_delay, excess_group_delay` with the argument
`smoothing` (lines 927-928, 1024-1025, 1080-1081).  Exact arithmetic; `smoothing` is not negative.
-/

namespace Verif.SmoothedDelay

open OctaveSmoothing ExcessDelay

/-- `if smoothing != 0: gd = _fractional_octave_smoothing(gd, None, smoothing)` for a channel (lines 927-928,
1024-1025, 1080-1081), with the default window of `_fractional_octave_smoothing`.  `none` stands for values that
are nan, for which `PchipInterpolator` of scipy raises ValueError. -/
noncomputable def smoothed (smoothing : ℕ) (v : Option (List ℝ)) : Except Err (Option (List ℝ)) :=
  if smoothing = 0 then .ok v
  else
    match v with
    | none => .error .valueError
    | some v => (smooth v none smoothing (.type hann) false).map Prod.fst

/-- `group_delay(signal, analytic, smoothing)` of a channel (lines 893-930), without removal of the latency. -/
noncomputable def groupDelay (x : List ℝ) (fs : ℕ) (analytic : Bool) (smoothing : ℕ) :
    Except Err (List ℝ × Option (List ℝ)) :=
  match ExcessDelay.groupDelay x fs analytic with
  | .error e => .error e
  | .ok (f, g) => (smoothed smoothing (some g)).map fun r => (f, r)

/-- `group_delay(signal, analytic, smoothing, True)` (lines 893-930): the channels one after another. -/
noncomputable def groupDelayRemoved (hilb : List ℝ → List ℝ) (fast fastReal : ℕ → ℕ) (td : List (List ℝ))
    (fs : ℕ) (isIr analytic : Bool) (smoothing : ℕ) : Except Err (List ℝ × List (Option (List ℝ))) :=
  match Latency.groupDelayRemoved hilb fast fastReal td fs isIr analytic with
  | .error e => .error e
  | .ok (f, gs) => (gs.mapM fun g => smoothed smoothing (some g)).map fun r => (f, r)

/-- `minimum_group_delay(signal, smoothing, padding)` of a channel (lines 1021-1026). -/
noncomputable def minimumGroupDelay (fast : ℕ → ℕ) (x : List ℝ) (padding fs smoothing : ℕ) :
    Except Err (List ℝ × Option (List ℝ)) :=
  match ExcessDelay.minimumGroupDelay fast x padding fs with
  | .error e => .error e
  | .ok (f, g) => (smoothed smoothing g).map fun r => (f, r)

/-- `excess_group_delay(signal, smoothing, False, analytic)` of a channel (lines 1063-1083): both delays are computed
without smoothing, their difference is smoothed. -/
noncomputable def excessGroupDelay (fast : ℕ → ℕ) (x : List ℝ) (fs : ℕ) (analytic : Bool) (smoothing : ℕ) :
    Except Err (List ℝ × Option (List ℝ)) :=
  match ExcessDelay.excessGroupDelay fast x fs analytic with
  | .error e => .error e
  | .ok (f, g) => (smoothed smoothing g).map fun r => (f, r)

end Verif.SmoothedDelay

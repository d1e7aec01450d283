import Verif.Model.GroupDelay
import Verif.Model.MinimumPhase
import Verif.Model.InterpolateFr

/-!
# Model of minimum and excess group delays

`transfer_functions/transfer_functions.py: minimum_group_delay, excess_group_delay` (lines 990-1083).
One channel, exact arithmetic, without smoothing and without removal of the latency.
-/

namespace Verif.ExcessDelay

open GroupDelay MinimumPhase

/-- `minimum_group_delay` (`transfer_functions.py`, lines 1021-1026) with `smoothing=0`: the frequencies
and the delays, `none` if they are nan.  `fast` is `scipy.fft.next_fast_len` (external).  A single
frequency raises IndexError (`f[1]`). -/
noncomputable def minimumGroupDelay (fast : ℕ → ℕ) (x : List ℝ) (padding fs : ℕ) :
    Except Err (List ℝ × Option (List ℝ)) :=
  let N := fast (max (x.length * padding) x.length)
  let f := (positiveBins N fs).map Prod.fst
  if f.length < 2 then .error .indexError
  else
    match minimumPhase N fs (fun n => x.getD n 0) with
    | none => .ok (f, none)
    | some l =>
      (directPhase f.length (fun k => (l.getD k (0, 0)).2) (f.getD 1 0 - f.getD 0 0)).map
        fun g => (f, some ((List.range f.length).map g))

/-- `group_delay` without smoothing and without removal of the latency as a list (`transfer_functions.py`,
lines 893-928). -/
noncomputable def groupDelay (x : List ℝ) (fs : ℕ) (analytic : Bool) :
    Except Err (List ℝ × List ℝ) :=
  if analytic then .ok (groupDelayAnalytic x fs)
  else (groupDelayDirect x fs).map fun r => (r.1, (List.range r.1.length).map r.2)

/-- `excess_group_delay` (`transfer_functions.py`, lines 1063-1083) with `smoothing=0` and
`remove_ir_latency=False`. -/
noncomputable def excessGroupDelay (fast : ℕ → ℕ) (x : List ℝ) (fs : ℕ) (analytic : Bool) :
    Except Err (List ℝ × Option (List ℝ)) :=
  match minimumGroupDelay fast x 1 fs with
  | .error e => .error e
  | .ok (fMin, m) =>
    match groupDelay x fs analytic with
    | .error e => .error e
    | .ok (f, gd) =>
      match (if f.length ≠ fMin.length then InterpolateFr.interpolateFr f gd fMin none else .ok gd) with
      | .error e => .error e
      | .ok gd =>
        .ok (fMin, m.map fun m => (List.range fMin.length).map fun k => gd.getD k 0 - m.getD k 0)

end Verif.ExcessDelay

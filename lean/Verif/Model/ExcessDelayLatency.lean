import Verif.Model.ExcessDelay
import Verif.Model.GroupDelayLatency

/-!
# Excess group delays without the latency

`transfer_functions/transfer_functions.py: excess_group_delay` with `remove_ir_latency=True` (lines 1063-1083),
without smoothing.  Exact arithmetic, the impulse response is given by its channels.
-/

namespace Verif.ExcessDelay

/-- The group delays of a channel at the frequencies `g` (lines 1073-1076). -/
noncomputable def aligned (f g gd : List ℝ) : Except Err (List ℝ) :=
  if f.length ≠ g.length then InterpolateFr.interpolateFr f gd g none else .ok gd

/-- `excess_group_delay(signal, 0, True, analytic)` (`transfer_functions.py`, lines 1063-1083): the frequencies and
for each channel the delays, `none` if they are nan.  The columns of a matrix are handled one after another; the
lengths of the channels are the same. -/
noncomputable def excessGroupDelayRemoved (hilb : List ℝ → List ℝ) (fast fastReal : ℕ → ℕ) (td : List (List ℝ))
    (fs : ℕ) (analytic : Bool) : Except Err (List ℝ × List (Option (List ℝ))) :=
  match td.mapM fun x => minimumGroupDelay fast x 1 fs with
  | .error e => .error e
  | .ok ms =>
    let fMin := (ms.headD ([], none)).1
    match Latency.groupDelayRemoved hilb fast fastReal td fs true analytic with
    | .error e => .error e
    | .ok (f, gds) =>
      match gds.mapM (aligned f fMin) with
      | .error e => .error e
      | .ok gds => .ok (fMin, List.zipWith (fun m gd =>
          m.map fun (m : List ℝ) => (List.range fMin.length).map fun (k : ℕ) => gd.getD k 0 - m.getD k 0)
            (ms.map Prod.snd) gds)

end Verif.ExcessDelay

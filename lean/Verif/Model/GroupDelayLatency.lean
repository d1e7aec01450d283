import Verif.Model.LatencyPhase
import Verif.Model.GroupDelay

/-!
# Group delays without the latency of an impulse response

`transfer_functions/transfer_functions.py: group_delay` with `remove_ir_latency=True` (lines 893-933),
without smoothing.  Exact arithmetic, the signal is given by its channels.
-/

namespace Verif.Latency

open GroupDelay

/-- `_pad_trim` of a channel to `L` samples (`helpers/other.py`, lines 216-259). -/
def padEnd (L : ℕ) (x : List ℝ) : List ℝ := x.take L ++ List.replicate (L - x.length) 0

/-- The group delays of a channel for `analytic_computation=True` (`transfer_functions.py`, lines
920-927): the padded channel from the sample before its largest one on, as a filter. -/
noncomputable def analyticChannel (L fs : ℕ) (x : List ℝ) : Except Err (List ℝ) :=
  let b := padEnd L x
  match argmaxAbs b with
  | .error e => .error e
  | .ok p => .ok ((filterDelay (b.drop (p - 1)) [1] (L / 2 + 1) fs).map Prod.snd)

/-- `_group_delay_direct` for the phases of a channel (`transfer_functions.py`, line 917). -/
noncomputable def directChannel (f : List ℝ) (ph : List ℝ) : Except Err (List ℝ) :=
  match directPhase f.length (fun k => ph.getD k 0) (f.getD 1 0 - f.getD 0 0) with
  | .error e => .error e
  | .ok g => .ok ((List.range f.length).map g)

/-- `group_delay(signal, analytic, 0, True)` (`transfer_functions.py`, lines 893-933): the frequencies and
the group delays of the channels.  `fastReal` is `scipy.fft.next_fast_len(·, True)`, `fast` is
`scipy.fft.next_fast_len`, `hilb` the imaginary part of `scipy.signal.hilbert` (external); `isIr` says
whether the signal is an impulse response.  The change of the spectrum parameters is
`GroupDelay.parametersAfter`. -/
noncomputable def groupDelayRemoved (hilb : List ℝ → List ℝ) (fast fastReal : ℕ → ℕ) (td : List (List ℝ))
    (fs : ℕ) (isIr analytic : Bool) : Except Err (List ℝ × List (List ℝ)) :=
  let L := fastReal ((td.headD []).length * 8)
  let f := rfftfreq L fs
  if !analytic then
    if !isIr then .error .assertionError
    else
      match minPhaseLatency hilb fast 1 td with
      | .error e => .error e
      | .ok l =>
        match removeAll L fs ((td.map (padEnd L)).map (angles L)) l with
        | .error e => .error e
        | .ok ph => (ph.mapM (directChannel f)).map fun g => (f, g)
  else (td.mapM (analyticChannel L fs)).map fun g => (f, g)

end Verif.Latency

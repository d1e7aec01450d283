import Verif.Model.LatencyQuality
import Verif.Model.FractionalPeak
import Verif.Model.MinimumPhase

/-!
# Phases without the latency of an impulse response

`helpers/latency.py: _remove_ir_latency_from_phase, _remove_ir_latency_from_phase_peak`,
`helpers/minimum_phase.py: _remove_ir_latency_from_phase_min_phase` and the argument
`remove_ir_latency` of `Signal.plot_group_delay`, `Signal.plot_phase` (`classes/signal.py`, lines
1343-1364 and 1501-1524) and `ImpulseResponse.plot_bode` (`classes/impulse_response.py`, lines
315-336).  Exact reals.  `hilb` is the imaginary part of `scipy.signal.hilbert` and `fast` is
`scipy.fft.next_fast_len` (external).
-/

namespace Verif.Latency

/-- The argument `remove_ir_latency`: `None`, a text, or latencies in samples (a number is a list with
one entry). -/
inductive Removal
  | keep
  | text (s : String)
  | samples (l : List ℝ)

/-- `np.angle(sp)` for a channel: the phases of the bins of a transform of length `N` (`signal.py`,
lines 1343 and 1501).  The scalings of the spectrum other than the power scalings multiply the bins
with positive numbers and are left out, smoothing is off. -/
noncomputable def angles (N : ℕ) (x : List ℝ) : List ℝ :=
  (List.range (DFT.rfftBins N)).map fun k => Complex.arg (DFT.rfft N (fun n => x.getD n 0) k)

/-- `np.fft.rfftfreq` -/
noncomputable def binFreq (N fs k : ℕ) : ℝ := k * fs / N

/-- `_remove_ir_latency_from_phase` (`latency.py`, lines 152-181) for all channels. -/
noncomputable def removeAll (N fs : ℕ) (ph : List (List ℝ)) (lat : List ℝ) :
    Except Err (List (List ℝ)) :=
  if lat.length ≠ ph.length then .error .assertionError
  else .ok ((List.range ph.length).map fun c => (List.range (ph.getD c []).length).map fun k =>
    removeLatency fs (lat.getD c 0) (binFreq N fs k) ((ph.getD c []).getD k 0))

/-- `_min_phase_ir_from_real_cepstrum(time_data, padding)` (`minimum_phase.py`, lines 52-79) for a
channel.  Zero bins give `nan`, with which the polynomial fit of the peak fails; the exception
(`LinAlgError`, a subclass of ValueError) is raised here already. -/
noncomputable def minIr (fast : ℕ → ℕ) (padding : ℕ) (x : List ℝ) : Except Err (List ℝ) :=
  let M := fast (max (x.length * padding) x.length)
  match MinimumPhase.cepstrumIr M (fun n => x.getD n 0) with
  | none => .error .valueError
  | some y => .ok ((List.range M).map y)

/-- `_remove_ir_latency_from_phase_min_phase` (`minimum_phase.py`, lines 82-117): the latencies. -/
noncomputable def minPhaseLatency (hilb : List ℝ → List ℝ) (fast : ℕ → ℕ) (padding : ℕ)
    (td : List (List ℝ)) : Except Err (List ℝ) :=
  match td.mapM (minIr fast padding) with
  | .error e => .error e
  | .ok m => FractionalPeak.fractional2 hilb td m

/-- The phases that are plotted for a signal given by its channels (`signal.py`, lines 1500-1524). -/
noncomputable def phases (hilb : List ℝ → List ℝ) (fast : ℕ → ℕ) (N fs : ℕ) (td : List (List ℝ)) :
    Removal → Except Err (List (List ℝ))
  | .keep => .ok (td.map (angles N))
  | .text s =>
    if s.toLower = "peak" then
      match FractionalPeak.peaks hilb td with
      | .error e => .error e
      | .ok l => removeAll N fs (td.map (angles N)) l
    else if s.toLower = "min_phase" then
      match minPhaseLatency hilb fast 8 td with
      | .error e => .error e
      | .ok l => removeAll N fs (td.map (angles N)) l
    else .error .valueError
  | .samples l => removeAll N fs (td.map (angles N)) l

end Verif.Latency

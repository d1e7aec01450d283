import Verif.Spec.Realtime
import Mathlib.Data.Real.Basic

/-!
# Model of filtering with zero phase

`classes/filter_helpers.py: _filter_on_signal` with `zero_phase=True` (lines 262-263) for one channel: `scipy.signal.sosfiltfilt`
with its defaults, an external function modelled by its documented steps.  Exact arithmetic.  Sections are rows
`[b0, b1, b2, 1, a1, a2]`.
-/

namespace Verif.ZeroPhase

/-- A second-order section in transposed direct form II with the state `z`: the output for the samples `x`. -/
def runSection (s : List ℝ) : ℝ × ℝ → List ℝ → List ℝ
  | _, [] => []
  | z, v :: x =>
    let y := s.getD 0 0 * v + z.1
    y :: runSection s (s.getD 1 0 * v - s.getD 4 0 * y + z.2, s.getD 2 0 * v - s.getD 5 0 * y) x

/-- `lfilter_zi` of a section: the state of the step response in the limit. -/
noncomputable def sectionZi (s : List ℝ) : ℝ × ℝ :=
  let z := (s.getD 1 0 + s.getD 2 0 - (s.getD 4 0 + s.getD 5 0) * s.getD 0 0) / (1 + s.getD 4 0 + s.getD 5 0)
  (z, (1 + s.getD 4 0) * z - (s.getD 1 0 - s.getD 4 0 * s.getD 0 0))

/-- Gain of a section at frequency zero, as in `sosfilt_zi`. -/
noncomputable def dcGain (s : List ℝ) : ℝ :=
  (s.getD 0 0 + s.getD 1 0 + s.getD 2 0) / (1 + s.getD 4 0 + s.getD 5 0)

/-- `sosfilt(sos, x, zi=sosfilt_zi(sos) * first)`: `first` is multiplied with the gains of the sections already passed. -/
noncomputable def sosfilt : List (List ℝ) → ℝ → List ℝ → List ℝ
  | [], _, x => x
  | s :: sos, first, x =>
    sosfilt sos (first * dcGain s) (runSection s ((sectionZi s).1 * first, (sectionZi s).2 * first) x)

/-- The odd extension by `edge` samples at both ends. -/
def oddExt (edge : ℕ) (x : List ℝ) : List ℝ :=
  (List.range (x.length + 2 * edge)).map fun i =>
    if i < edge then 2 * x.getD 0 0 - x.getD (edge - i) 0
    else if i < edge + x.length then x.getD (i - edge) 0
    else 2 * x.getD (x.length - 1) 0 - x.getD (x.length - 2 - (i - edge - x.length)) 0

/-- Number of samples added at each end: three times the number of taps, not counting sections of first order. -/
noncomputable def edgeOf (sos : List (List ℝ)) : ℕ :=
  3 * (2 * sos.length + 1 -
    min (sos.countP fun s => decide (s.getD 2 0 = 0)) (sos.countP fun s => decide (s.getD 5 0 = 0)))

/-- `sosfiltfilt(sos, x)`: forwards, then backwards, then without the added samples.  Signals not longer than the extension
raise ValueError. -/
noncomputable def sosfiltfilt (sos : List (List ℝ)) (x : List ℝ) : Except Err (List ℝ) :=
  let edge := edgeOf sos
  if x.length ≤ edge then .error .valueError
  else
    let ext := oddExt edge x
    let y := (sosfilt sos (ext.getD 0 0) ext).reverse
    let w := (sosfilt sos (y.getD 0 0) y).reverse
    .ok ((w.drop edge).take (w.length - 2 * edge))

/-- `_impulse` (`filter_helpers.py`, lines 146-164) without delay; no samples raise IndexError. -/
def impulse : ℕ → Except Err (List ℝ)
  | 0 => .error .indexError
  | n + 1 => .ok (1 :: List.replicate n 0)

/-- `Filter.get_ir` with `zero_phase=True` (`classes/filter.py`, lines 848-856) for a filter with second-order sections: the
samples of the response.  The impulse is not scaled (`constrain_amplitude=False`). -/
noncomputable def getIrZeroPhase (sos : List (List ℝ)) (n : ℕ) : Except Err (List ℝ) :=
  match impulse n with
  | .error e => .error e
  | .ok x => sosfiltfilt sos x

end Verif.ZeroPhase

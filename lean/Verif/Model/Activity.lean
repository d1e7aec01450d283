import Verif.Model.SignalData
import Verif.Model.Smoothing
import Verif.Model.Level

/-!
# The activity detector (`standard/other.py`, `standard/_standard_backend.py`)

Exact real arithmetic.  The chosen channel of the signal is given as a list of samples.
-/

namespace Verif.Activity

open SignalData

/-- The loop of `_indices_above_threshold_dbfs` (`_standard_backend.py`, lines 366-374) on the powers
`p`: `momentary_gain[i]` is still zero when it is compared. -/
noncomputable def momentary (attack release : ℝ) (p : ℕ → ℝ) : ℕ → ℝ
  | 0 => 0
  | i + 1 =>
    let coeff := if 0 > p i then attack else if 0 < p i then release else 0
    coeff * p (i + 1) + (1 - coeff) * momentary attack release p i

open Classical in
/-- `_indices_above_threshold_dbfs` (`_standard_backend.py`, lines 356-379).  A silent signal that is
to be normalized consists of `nan` afterwards, and no comparison with `nan` is true; `np.max` of an
empty array raises ValueError. -/
noncomputable def indicesAbove (x : List ℝ) (threshold attack release : ℝ) (normalize : Bool) :
    Except Err (List Bool) :=
  if normalize = true ∧ x = [] then .error .valueError
  else if normalize = true ∧ Level.maxAbs x = 0 then .ok (x.map fun _ => false)
  else
    let v : List ℝ := if normalize then x.map fun a => a / Level.maxAbs x else x
    let p : ℕ → ℝ := fun i => (v.getD i 0) ^ 2
    .ok ((List.range x.length).map fun (i : ℕ) =>
      decide ((threshold : WithBot ℝ) < Level.logDb 10 (momentary attack release p i)))

/-- `x[idx]` -/
def pick (idx : List Bool) (x : List ℝ) : List ℝ := ((idx.zip x).filter fun q => q.1).map fun q => q.2

/-- Assignment of the picked samples to `time_data` with the fallback of 500 zeros
(`other.py`, lines 151-168): only ValueError is caught. -/
noncomputable def assign (constrain : Bool) (y : List ℝ) : Except Err (State ℝ) :=
  let s : State ℝ := ⟨⟨0, 0, fun _ _ => 0⟩, none, constrain, 1⟩
  match setData s ⟨1, y.length, fun _ c => y.getD c 0, none⟩ with
  | .error .valueError => setData s ⟨1, 500, fun _ _ => 0, none⟩
  | r => r

/-- `activity_detector` (`other.py`, lines 55-173) of the channel `x`: detected signal, noise and the
indices of the signal.  `filt` is the zero-phase filter, the identity if there is none; times are in
milliseconds.  For a time of zero `_get_smoothing_factor_ema` (`smoothing.py`, lines 165-166) divides a
NumPy number by zero, which gives `-inf` and the factor 1, as `factorOr` does. -/
noncomputable def activityDetector (x : List ℝ) (constrain : Bool) (fs : ℝ) (threshold : ℝ)
    (relative : Bool) (filt : List ℝ → List ℝ) (attackMs releaseMs : ℝ) :
    Except Err (State ℝ × State ℝ × List Bool) :=
  if ¬ threshold < 0 then .error .assertionError
  else if ¬ 0 ≤ releaseMs then .error .assertionError
  else if ¬ 0 ≤ attackMs then .error .assertionError
  else
    match indicesAbove (filt x) threshold (Smoothing.factorOr (attackMs / 1000) fs)
        (Smoothing.factorOr (releaseMs / 1000) fs) relative with
    | .error e => .error e
    | .ok idx =>
      match assign constrain (pick idx x) with
      | .error e => .error e
      | .ok d =>
        match assign constrain (pick (idx.map not) x) with
        | .error e => .error e
        | .ok n => .ok (d, n, idx)

end Verif.Activity

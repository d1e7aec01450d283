import Verif.Model.WindowIR
import Verif.Model.PadTrim

/-!
# Model of the windows around the peak of impulse responses

`transfer_functions/transfer_functions.py: window_centered_ir`,
`transfer_functions/_transfer_functions.py: _window_this_ir`.  Exact arithmetic.
-/

namespace Verif.CenteredIR

open WindowIR

/-- Product of two vectors with numpy's broadcasting: a vector with one entry fits to every other. -/
noncomputable def broadcastMul (x y : List ℝ) : Except Err (List ℝ) :=
  if x.length = y.length then .ok (List.zipWith (· * ·) x y)
  else if y.length = 1 then .ok (x.map fun a => a * y.getD 0 0)
  else if x.length = 1 then .ok (y.map fun b => x.getD 0 0 * b)
  else .error .valueError

/-- `a[low:up]` for non-negative positions. -/
def slice (x : List ℝ) (low up : ℕ) : List ℝ := (x.take up).drop low

/-- The part of `_window_this_ir` between the flips (`_transfer_functions.py`, lines 178-206), for a
vector with its peak at `p`.  `sym n i` is sample `i` of the symmetric window with `n` samples.  The
positions are never negative. -/
noncomputable def core (v : List ℝ) (p total : ℕ) (centeredEven : Bool) (sym : ℕ → ℕ → ℝ) :
    Except Err (List ℝ × List ℝ × ℕ) :=
  let half := total / 2
  let w := (List.range (half * 2 + 1)).map (sym (half * 2 + 1))
  let lowTd := if p < half then 0 else p - half
  let lowW := if p < half then half - p else 0
  let v := if (total : ℤ) - lowTd > v.length then
    v ++ List.replicate (total + lowTd - v.length) 0 else v
  let short := decide (p + half + 1 > v.length) && !centeredEven
  let upTd := if short then v.length else p + half + 1
  let upW := if short then p + half + 1 - v.length
    else w.length - (if centeredEven then 1 else 0)
  let w := slice w lowW upW
  match broadcastMul (slice v lowTd upTd) w with
  | .error e => .error e
  | .ok td =>
    if td.length = total then .ok (td, w, lowTd)
    else .ok (SignalData.padTrim td total true, SignalData.padTrim w total true, lowTd)

/-- `_window_this_ir` (`_transfer_functions.py`, lines 150-213). -/
noncomputable def windowThis (vec : List ℝ) (total : ℕ) (sym : ℕ → ℕ → ℝ) :
    Except Err (List ℝ × List ℝ × ℕ) :=
  match peakIndex vec with
  | .error e => .error e
  | .ok peak =>
    let half := total / 2
    let centeredEven := decide (peak + half = vec.length ∧ vec.length % 2 = 0)
    if half < peak then
      match core vec.reverse (vec.length - peak - 1) total centeredEven sym with
      | .error e => .error e
      | .ok (td, w, start) => .ok (td.reverse, w.reverse, start)
    else core vec peak total centeredEven sym

/-- Assignment of a vector to a column with `n` rows. -/
noncomputable def toColumn (n : ℕ) (x : List ℝ) : Except Err (List ℝ) :=
  if x.length = n then .ok x
  else if x.length = 1 then .ok (List.replicate n (x.getD 0 0))
  else .error .valueError

/-- One turn of the loop of `window_centered_ir` (`transfer_functions.py`, lines 407-412). -/
noncomputable def channel (total : ℕ) (sym : ℕ → ℕ → ℝ) (vec : List ℝ) :
    Except Err (List ℝ × List ℝ × ℕ) :=
  match windowThis vec total sym with
  | .error e => .error e
  | .ok (td, w, start) =>
    match toColumn total td, toColumn total w with
    | .ok td, .ok w => .ok (td, w, start)
    | .error e, _ => .error e
    | _, .error e => .error e

/-- `window_centered_ir` (`transfer_functions.py`, lines 368-416) for an impulse response and at least
one sample.  Arrays with more channels than samples are transposed by the setter of the time data, so
that the window does not fit (`set_window`, `impulse_response.py`, lines 148-150); the setter refuses a single sample.  Its normalization, which only
windows with values above one could cause, is not modelled. -/
noncomputable def windowCentered (ir : List (List ℝ)) (total : ℕ) (sym : ℕ → ℕ → ℝ) :
    Except Err (List (List ℝ × List ℝ × ℕ)) :=
  match eachChannel (channel total sym) ir with
  | .error e => .error e
  | .ok r =>
    if total < ir.length then .error .assertionError
    else if total = 1 ∧ ir.length = 1 then .error .indexError
    else .ok r

end Verif.CenteredIR

import Verif.Model.PadTrim

/-!
# Model of the framed representation of a signal

`helpers/other.py: _compute_number_frames`,
`standard/_framed_signal_representation.py: _get_framed_signal, _reconstruct_framed_signal`,
`standard/_standard_backend.py: _get_window_envelope`.

All of these functions act on every channel separately and in the same way, so that one
channel (a list of samples) is modelled. Lengths are exact integers: the code computes them
with float divisions, which are exact enough for lengths below 2^53.
-/

namespace Verif.Framing

open Verif.SignalData (padTrim)

/-- `int(np.ceil(a / b))` for an integer `a` and `b > 0` -/
def ceilDiv (a : ℤ) (b : ℕ) : ℤ := -((-a) / (b : ℤ))

/-- `_compute_number_frames` (`helpers/other.py`, lines 181-213): number of frames and
number of padded samples. -/
def numberFrames (W step L : ℕ) (padding : Bool) : Except Err (ℤ × ℤ) :=
  if step = 0 then .error .zeroDivision
  else if padding then .ok (ceilDiv L step, (W : ℤ) - (L % step : ℕ))
  else .ok (ceilDiv ((L : ℤ) - W) step, 0)

variable {K : Type} [Field K] [LinearOrder K]

/-- `td_framed[:, n, :] = td[start : start + W, :]`: the slice has to have `W` rows or can be
broadcast if it has one. -/
def assignFrame (W : ℕ) (slice : List K) : Except Err (List K) :=
  if slice.length = W then .ok slice
  else if slice.length = 1 then .ok (List.replicate W (slice.getD 0 0))
  else .error .valueError

/-- `_get_framed_signal` (`_framed_signal_representation.py`, lines 41-67). `np.zeros` with
a negative size raises ValueError. -/
def framed (x : List K) (W step : ℕ) (keep : Bool) : Except Err (List (List K)) :=
  match numberFrames W step x.length keep with
  | .error e => .error e
  | .ok (n, pad) =>
    if n < 0 then .error .valueError
    else
      let td := padTrim x ((x.length : ℤ) + pad).toNat true
      (List.range n.toNat).mapM fun k => assignFrame W ((td.drop (k * step)).take W)

/-- `td[start : start + len(v)] += v` where the slice lies inside of `td` -/
def addAt (td : List K) (start : ℕ) (v : List K) : List K :=
  (List.range td.length).map fun j =>
    td.getD j 0 + if start ≤ j ∧ j < start + v.length then v.getD (j - start) 0 else 0

/-- `_get_window_envelope` (`_standard_backend.py`, lines 408-427). The in-place
modification of the window is not visible in the result. -/
def envelope (w : List K) (total step n : ℕ) (squared : Bool) : List K :=
  let w' := if squared then w.map fun a => a ^ 2 else w
  (List.range n).foldl (fun td k => addAt td (k * step) w') (List.replicate total 0)

/-- `td_framed *= window[:, np.newaxis, np.newaxis]` -/
def applyWindow (w : List K) (frame : List K) : List K :=
  (List.range frame.length).map fun i =>
    frame.getD i 0 * if w.length = 1 then w.getD 0 0 else w.getD i 0

/-- `_reconstruct_framed_signal` (`_framed_signal_representation.py`, lines 104-137) for a
window given as array or `None`. `W` is the first dimension of the framed array and `tiny`
is `np.finfo(np.float64).tiny`. -/
def reconstruct (frames : List (List K)) (W step : ℕ) (window : Option (List K))
    (origLen : Option ℕ) (thr : Option K) (tiny : K) : Except Err (List K) :=
  match window with
  | some w =>
    if w.length ≠ W ∧ w.length ≠ 1 then .error .valueError
    else if W = 0 then .error .zeroDivision
    else if step * frames.length + W < step then .error .valueError
    else
      let total := step * frames.length + W - step
      let fr := frames.map (applyWindow w)
      let td := (List.range fr.length).foldl (fun td k => addAt td (k * step) (fr.getD k []))
        (List.replicate total 0)
      let env := envelope w total step frames.length true
      let env' := match thr with
        | some t => env.map fun e => max e t
        | none => env
      let td' := (List.range total).map fun j =>
        if env'.getD j 0 > tiny then td.getD j 0 / env'.getD j 0 else td.getD j 0
      match origLen with
      | some n => .ok (padTrim td' n true)
      | none => .ok td'
  | none =>
    if W = 0 then .error .zeroDivision
    else if step * frames.length + W < step then .error .valueError
    else
      let total := step * frames.length + W - step
      let td := (List.range frames.length).foldl
        (fun td k => addAt td (k * step) (frames.getD k [])) (List.replicate total 0)
      match origLen with
      | some n => .ok (padTrim td n true)
      | none => .ok td

end Verif.Framing

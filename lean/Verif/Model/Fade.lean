import Verif.Spec.Realtime
import Mathlib.Analysis.SpecialFunctions.Pow.Real
import Mathlib.Analysis.SpecialFunctions.Log.Base
import Mathlib.Algebra.Order.Floor.Semiring

/-!
# Model of fades (`helpers/gain_and_level.py: _fade`, `standard/gain_and_level.py: fade`)

Exact arithmetic over the real numbers.  A sample is an `Option ℝ`; `none` is `nan`.
-/

namespace Verif.Fade

/-- `FadeType` (`standard/enums.py`). -/
inductive FadeType
  | exponential | linear | logarithmic | noFade
  deriving DecidableEq

/-- Product of samples, `nan` propagates. -/
noncomputable def nanMul : Option ℝ → Option ℝ → Option ℝ
  | some a, some b => some (a * b)
  | _, _ => none

/-- `np.linspace(a, b, l)` -/
noncomputable def linspace (a b : ℝ) (l : ℕ) : List ℝ :=
  (List.range l).map fun k : ℕ => a + (k : ℝ) * ((b - a) / ((l - 1 : ℕ) : ℝ))

/-- The array `fade` (`gain_and_level.py`, lines 135-146); `fade /= fade[-1]` raises
IndexError without entries and gives `nan` (0 / 0) with one entry. -/
noncomputable def fadeArray (mode : FadeType) (l : ℕ) : Except Err (List (Option ℝ)) :=
  match mode with
  | .exponential => .ok ((linspace (-100) 0 l).map fun d => some ((10 : ℝ) ^ (d / 20)))
  | .linear => .ok ((linspace 0 1 l).map some)
  | .logarithmic =>
    let v := (linspace 1 (50 * (10 : ℝ) ^ (0.5 : ℝ)) l).map (Real.logb 10)
    match v.getLast? with
    | none => .error .indexError
    | some last => .ok (v.map fun u => if last = 0 then none else some (u / last))
  | .noFade => .error .valueError

/-- `s[:l] *= fade` -/
noncomputable def weighStart (s w : List (Option ℝ)) : List (Option ℝ) :=
  (List.range s.length).map fun i =>
    if i < w.length then nanMul (s.getD i none) (w.getD i none) else s.getD i none

/-- `_fade` of a vector (`gain_and_level.py`, lines 92-155). -/
noncomputable def fadeVec (s : List (Option ℝ)) (len : ℝ) (mode : FadeType) (fs : ℕ)
    (atStart : Bool) : Except Err (List (Option ℝ)) :=
  if mode = .noFade then .ok s
  else if ¬ 0 < len then .error .assertionError
  else
    let l := ⌊len * fs⌋₊
    if ¬ l < s.length then .error .assertionError
    else match fadeArray mode l with
      | .error e => .error e
      | .ok w =>
        .ok (if atStart then weighStart s w else (weighStart s.reverse w).reverse)

/-- The loop over one channel in `fade` (`standard/gain_and_level.py`, lines 98-116).
`_fade` works in place on the copied channel, so the second fade starts from the result of
the first. -/
noncomputable def fadeChannel (x : List (Option ℝ)) (len : ℝ) (mode : FadeType) (fs : ℕ)
    (atStart atEnd : Bool) : Except Err (List (Option ℝ)) := do
  let v ← if atStart then fadeVec x len mode fs true else .ok x
  if atEnd then fadeVec v len mode fs false else .ok v

/-- Last entry of the time vector (`signal.py`, lines 200-205): `linspace` from 0 to
`samples / rate` including the end point. -/
noncomputable def lastTime (rows fs : ℕ) : ℝ := if rows ≤ 1 then 0 else rows / fs

/-- `fade` (`standard/gain_and_level.py`, lines 63-118) up to the construction of the new
signal; `x` are the channels, all of `rows` samples. -/
noncomputable def fade (x : List (List (Option ℝ))) (rows fs : ℕ) (mode : FadeType)
    (len : Option ℝ) (atStart atEnd : Bool) : Except Err (List (List (Option ℝ))) :=
  if ¬ (atStart = true ∨ atEnd = true) then .error .assertionError
  else
    let l := len.getD (lastTime rows fs * 0.025)
    if ¬ l < lastTime rows fs then .error .assertionError
    else x.mapM fun c => fadeChannel c l mode fs atStart atEnd

end Verif.Fade

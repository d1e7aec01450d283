import Verif.Spec.Realtime
import Mathlib.Algebra.Field.Rat

/-!
# Model of the musical rhythm helpers (`effects/_effects.py`, lines 475-552)

Strings are lists of characters, `a in b` is "`a` is a contiguous part of `b`".  Exact rational
arithmetic.
-/

namespace Verif.Rhythm

/-- `a in note` -/
def has (note : List Char) (a : String) : Bool := decide (a.toList <:+: note)

/-- The factor of a note (`_effects.py`, lines 502-522), 0 if no duration is named. -/
def factor (note : List Char) : ℚ :=
  let f := 0
  let f := if has note "quarter" then 1 else f
  let f := if has note "half" then 2 else f
  let f := if has note "whole" then 4 else f
  let f := if has note "eighth" then 1 / 2 else f
  let f := if has note "sixteenth" then 1 / 4 else f
  let f := if has note "32th" then 1 / 8 else f
  let f := if has note "quintuplet" then 1 / 5 else f
  let f := if has note "3" then f * (2 / 3) else f
  let f := if has note "dotted" then f * (3 / 2) else f
  f

/-- `get_frequency_from_musical_rhythm` (`_effects.py`, lines 475-524); `bpm = 0` divides by zero. -/
def frequency (note : List Char) (bpm : ℚ) : Except Err ℚ :=
  if factor note = 0 then .error .valueError
  else if bpm = 0 then .error .zeroDivision
  else .ok (60 / bpm / factor note)

/-- `get_time_period_from_musical_rhythm` (`_effects.py`, lines 527-551). -/
def period (note : List Char) (bpm : ℚ) : Except Err ℚ :=
  match frequency note bpm with
  | .error e => .error e
  | .ok f => .ok (1 / f)

end Verif.Rhythm

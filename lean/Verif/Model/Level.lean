import Verif.Spec.Realtime
import Mathlib.Analysis.SpecialFunctions.Pow.Real
import Mathlib.Analysis.SpecialFunctions.Log.Base
import Mathlib.Order.WithBot

/-!
# Model of the level functions (`dsptoolbox/helpers/gain_and_level.py`)

Exact arithmetic over the real numbers; `-inf` is `⊥`.
-/

namespace Verif.Level

/-- `20.0 if amplitude else 10.0` -/
def dbFactor (amplitude : Bool) : ℝ := if amplitude then 20 else 10

/-- `from_db` (`gain_and_level.py`, lines 28-46). -/
noncomputable def fromDb (x : ℝ) (amplitude : Bool) : ℝ := 10 ^ (x / dbFactor amplitude)

/-- `factor * np.log10(y)` for a non-negative number; `-inf` for 0. -/
noncomputable def logDb (f y : ℝ) : WithBot ℝ := if y = 0 then ⊥ else ((f * Real.logb 10 y : ℝ) : WithBot ℝ)

/-- `np.max(np.abs(x))` -/
noncomputable def maxAbs (x : List ℝ) : ℝ := (x.map fun v => |v|).foldr max 0

/-- `np.clip(y, a_min=lo, a_max=None)` -/
noncomputable def clipMin (lo y : ℝ) : ℝ := max y lo

/-- `to_db` (`gain_and_level.py`, lines 158-200); `np.max` of an empty array raises
ValueError. -/
noncomputable def toDb (x : List ℝ) (amplitude : Bool) (range : Option ℝ) (minValue : Option ℝ) :
    Except Err (List (WithBot ℝ)) :=
  let f := dbFactor amplitude
  match range, minValue with
  | none, none => .ok (x.map fun v => logDb f |v|)
  | some r, _ =>
    if x = [] then .error .valueError
    else
      let lo := maxAbs x * 10 ^ (-|r| / f)
      .ok (x.map fun v => logDb f (clipMin lo |v|))
  | none, some m => .ok (x.map fun v => logDb f (clipMin m |v|))

/-- `_amplify_db` (`gain_and_level.py`, lines 87-89). -/
noncomputable def amplifyDb (s : List ℝ) (db : ℝ) : List ℝ := s.map (· * 10 ^ (db / 20))

end Verif.Level

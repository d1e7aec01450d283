import Verif.Model.Warp
import Verif.Model.RoomDescriptors
import Verif.Model.Harmonics

/-!
# Model of `warp` for signals (`dsptoolbox/transforms/transforms.py: warp`, lines 1019-1130)

Exact arithmetic.  A signal is the list of its channels; `total_length` is not negative.  The results are those
handed to `copy_with_new_time_data`, whose checks are those of `Model/SignalData`.
-/

namespace Verif.Warp

/-- `np.roll(td[:, ch], -_find_ir_start(td[:, ch], -20))` (lines 1117-1118) -/
noncomputable def shiftStart (x : List ℝ) : List ℝ := Harmonics.roll x (-(Room.irStart (-20) x : ℤ))

/-- `warp` (lines 1111-1130): the warped channels, and the factor if it was given as a text.  Without samples
`dirac[0] = 1` (`_transforms.py`, line 410) raises IndexError. -/
noncomputable def warpSignal (w : Factor) (fs : ℝ) (shift : Bool) (total : Option ℕ) (td : List (List ℝ)) :
    Except Err (List (List ℝ) × Option ℝ) :=
  match warpingFactor w fs with
  | .error e => .error e
  | .ok lam =>
    let td := if shift then td.map shiftStart else td
    if total = some 0 then .error .indexError
    else
      .ok (td.map (warp lam total), match w with | .text _ => some lam | _ => none)

end Verif.Warp

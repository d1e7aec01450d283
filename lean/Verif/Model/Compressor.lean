import Verif.Model.Level
import Verif.Model.Smoothing

/-!
# Model of the compressor

`effects/_effects.py` (`_compressor`, `_get_knee_func`), `effects/effects.py` (`Compressor`).
Exact arithmetic over the real numbers; all operations work channel by channel, a channel is a
list of samples.  `nan` is `none`.
-/

namespace Verif.Compressor

open Verif.Level (fromDb maxAbs)
open Verif.Smoothing (factorOr)

/-- The branch of `compress_in_db` for numpy values (`_effects.py`, lines 178-190 and 203-215):
threshold `T`, ratio `R`, knee `W`, all in dB.  Inside the knee the code divides by `W`; for
`W = 0` that is `0 / 0`. -/
noncomputable def knee (down : Bool) (T R W x : ℝ) : Option ℝ :=
  if x - T < -W / 2 then some (if down then x else T + (x - T) / R)
  else if |x - T| ≤ W / 2 then
    if W = 0 then none
    else some (if down then x + (1 / R - 1) * (x - T + W / 2) ^ 2 / 2 / W
      else x - (1 / R - 1) * (x - T - W / 2) ^ 2 / 2 / W)
  else some (if down then T + (x - T) / R else x)

/-- The branch of `compress_in_db` for python floats (`_effects.py`, lines 170-176 and 195-201),
not used by `_compressor`, whose levels are `np.float64`.  `W = 0` inside the knee raises. -/
noncomputable def kneeFloat (down : Bool) (T R W x : ℝ) : Except Err ℝ :=
  if x - T < -W / 2 then .ok (if down then x else T + (x - T) / R)
  else if |x - T| ≤ W / 2 then
    if W = 0 then .error .zeroDivision
    else .ok (x - (1 / R - 1) * (x - T - W / 2) ^ 2 / 2 / W)
  else .ok (if down then T + (x - T) / R else x)

/-- Level of a sample (`_effects.py`, lines 124 and 132): `10 log10(max(x², 1e-30))`. -/
noncomputable def levelDb (x : ℝ) : ℝ := 10 * Real.logb 10 (max (x ^ 2) (fromDb (-300) false))

/-- Gain wanted for a sample (`_effects.py`, lines 132-134). -/
noncomputable def wanted (down : Bool) (T R W x : ℝ) : Option ℝ :=
  (knee down T R W (levelDb x)).map fun c => 10 ^ ((c - levelDb x) / 20)

/-- New gain (`_effects.py`, lines 137-141).  Once `nan`, it stays `nan`. -/
noncomputable def nextGain (att rel : ℝ) (g w : Option ℝ) : Option ℝ :=
  match g, w with
  | some g, some w =>
    let c := if w > g then att else rel
    some (c * w + (1 - c) * g)
  | _, _ => none

/-- Loop over the samples of a channel (`_effects.py`, lines 122-144) from the gain `g`.
The level `momentary_rms` is computed by the code and never used. -/
noncomputable def run (down : Bool) (T R W att rel : ℝ) : Option ℝ → List ℝ → List (Option ℝ)
  | _, [] => []
  | g, x :: xs =>
    let g' := nextGain att rel g (wanted down T R W x)
    g'.map (x * ·) :: run down T R W att rel g' xs

/-- `_compressor` (`_effects.py`, lines 60-148) on a channel of a two-dimensional array.  The
argument `mix_compressed` is not used. -/
noncomputable def compress (x : List ℝ) (T R W : ℝ) (attack release : ℕ) (_mix : ℝ) (down : Bool) :
    List (Option ℝ) :=
  run down T R W (factorOr attack 1) (factorOr release 1) (some 1) x

/-- `_rms` (`gain_and_level.py`, lines 7-25) of a channel: the standard deviation. -/
noncomputable def std (x : List ℝ) : ℝ :=
  Real.sqrt ((x.map fun v => (v - x.sum / x.length) ^ 2).sum / x.length)

/-- Settings of a `Compressor` (`effects.py`, lines 759-923), after its checks: `R ≥ 1`, `W ≥ 0`,
times not negative, `0 < mix ≤ 1`. -/
structure Settings where
  threshold : ℝ
  attack : ℕ
  release : ℕ
  ratio : ℝ
  relative : Bool
  kneeDb : ℝ
  preGain : ℝ
  postGain : ℝ
  mix : ℝ
  makeUp : Bool
  down : Bool

/-- The checks of the setters (`effects.py`, lines 798-828 and 913-923). -/
structure Settings.Accepted (s : Settings) : Prop where
  ratio : 1 ≤ s.ratio
  knee : 0 ≤ s.kneeDb
  mix_pos : 0 < s.mix
  mix_le : s.mix ≤ 1

/-- All samples are numbers. -/
def numbers : List (Option ℝ) → Option (List ℝ)
  | [] => some []
  | none :: _ => none
  | some v :: l => (numbers l).map (v :: ·)

/-- `_restore_rms_values` (`effects.py`, lines 125-135). -/
noncomputable def restoreRms (rms : ℝ) (y : List ℝ) : Option (List ℝ) :=
  if std y = 0 then none else some (y.map (· * (rms / std y)))

/-- `Compressor._apply_this_effect` (`effects.py`, lines 974-1014) on one channel, up to the array
handed to `copy_with_new_time_data`; the times are given in samples.  `none`: the result contains
`nan` or `inf`.  The last gain is the pre gain again. -/
noncomputable def apply (s : Settings) (x : List ℝ) : Option (List ℝ) :=
  let pre : ℝ := 10 ^ (s.preGain / 20)
  let td := x.map (· * pre)
  let rms := std td
  let peak := maxAbs td
  if s.relative = true ∧ peak = 0 then none
  else
    let scale := if s.relative then peak else 1
    let y := compress (td.map (· / scale)) s.threshold s.ratio s.kneeDb s.attack s.release s.mix s.down
    match numbers y with
    | none => none
    | some y =>
      let y := y.map (· * scale)
      let z := if s.makeUp then restoreRms rms y else some y
      z.map (·.map (· * pre))

end Verif.Compressor

import Verif.Model.Level
import Mathlib.Analysis.SpecialFunctions.Trigonometric.Arctan

/-!
# Model of the distortion effect

`effects/_effects.py` (distortion functions), `effects/effects.py` (`AudioEffect`, `Distortion`).
Exact arithmetic over the real numbers.  Every operation works channel by channel, so a channel
is a list of samples.  A channel full of `nan` (division by a peak of 0) is `none`.
-/

namespace Verif.Distortion

open Verif.Level (maxAbs fromDb)

/-- `10 ** (offset_db / 20)`; `-inf` (here `none`) gives 0. -/
noncomputable def offsetLin : Option ℝ → ℝ
  | none => 0
  | some d => fromDb d true

/-- `np.clip(x, a_min=-c, a_max=c)` -/
noncomputable def clip (c x : ℝ) : ℝ := min (max x (-c)) c

/-- The static curve of `_arctan_distortion` (`_effects.py`, lines 14-22): normalised sample in,
distorted sample out. -/
noncomputable def arctanCurve (lvl off v : ℝ) : ℝ := Real.arctan (v * lvl + off) * (2 / Real.pi)

/-- The static curve of `_hard_clip_distortion` (`_effects.py`, lines 25-35). -/
noncomputable def hardCurve (lvl off v : ℝ) : ℝ := clip 1 (v * lvl + off)

/-- The static curve of `_soft_clip_distortion` (`_effects.py`, lines 38-49). -/
noncomputable def softCurve (lvl off v : ℝ) : ℝ :=
  let n := (v * (2 / 3) + off) * lvl
  clip (2 / 3) (n - n ^ 3 / 3)

/-- `DistortionType` (`effects/enums.py`). -/
inductive Kind
  | arctan
  | hardClip
  | softClip
  | noDistortion
  deriving DecidableEq

/-- A channel divided by its peak; `nan` for silence. -/
noncomputable def normalized (x : List ℝ) : Option (List ℝ) :=
  if maxAbs x = 0 then none else some (x.map (· / maxAbs x))

/-- The distortion functions (`_effects.py`, lines 14-56) with linear level and offset. -/
noncomputable def stage (k : Kind) (lvl off : ℝ) (x : List ℝ) : Option (List ℝ) :=
  match k with
  | .arctan => (normalized x).map (·.map (arctanCurve lvl off))
  | .hardClip => (normalized x).map (·.map (hardCurve lvl off))
  | .softClip => (normalized x).map (·.map (softCurve lvl off))
  | .noDistortion => some x

/-- `_restore_peak_values` (`effects.py`, lines 109-119) with the saved peak of this channel. -/
noncomputable def restorePeak (peak : ℝ) (y : List ℝ) : Option (List ℝ) :=
  if maxAbs y = 0 then none else some (y.map (· * (peak / maxAbs y)))

/-- The settings of one entry of the lists kept by `Distortion`. -/
structure Entry where
  kind : Kind
  mix : ℝ
  level_db : ℝ
  offset_db : Option ℝ

/-- `np.isclose(s, 1)` with the default tolerances. -/
def closeToOne (s : ℝ) : Prop := |s - 1| ≤ 1 / 100000000 + 1 / 100000

open Classical in
/-- `set_advanced_parameters` (`effects.py`, lines 604-696); the four lists are the arguments
after `np.atleast_1d`.  A single distortion gets a clean entry with the rest of the mix. -/
noncomputable def setParameters (kinds : List Kind) (levels mixPercent : List ℝ)
    (offsets : List (Option ℝ)) : Except Err (List Entry) :=
  if ∃ m ∈ mixPercent, 100 < m then .error .assertionError
  else
    let mix := mixPercent.map (· / 100)
    let single := kinds.length = 1
    if single ∧ mix = [] then .error .indexError
    else
      let kinds' := if single then kinds ++ [.noDistortion] else kinds
      let mix' := if single then mix ++ [1 - mix.getD 0 0] else mix
      let levels' := if single then levels ++ [0] else levels
      let offsets' := if single then offsets ++ [none] else offsets
      if kinds'.length ≠ mix'.length then .error .assertionError
      else if ¬ closeToOne mix'.sum then .error .assertionError
      else if kinds'.length ≠ levels'.length then .error .assertionError
      else if kinds'.length ≠ offsets'.length then .error .assertionError
      else .ok ((kinds'.zip mix').zip (levels'.zip offsets') |>.map
        fun p => ⟨p.1.1, p.1.2, p.2.1, p.2.2⟩)

/-- One pass of the loop (`effects.py`, lines 738-746): the new contribution of an entry;
entries with mix 0 are skipped. -/
noncomputable def contribution (x : List ℝ) (e : Entry) : Option (List ℝ) :=
  match stage e.kind (fromDb e.level_db true) (offsetLin e.offset_db) x with
  | none => none
  | some y => restorePeak (maxAbs x) (y.map (· * e.mix))

/-- Sum of two arrays; `nan` is absorbing. -/
noncomputable def addArr : Option (List ℝ) → Option (List ℝ) → Option (List ℝ)
  | some a, some b => some (List.zipWith (· + ·) a b)
  | _, _ => none

/-- `_apply_this_effect` (`effects.py`, lines 720-750) on one channel, up to the array handed to
`copy_with_new_time_data`. -/
noncomputable def apply (es : List Entry) (postGain : Option ℝ) (x : List ℝ) :
    Option (List ℝ) :=
  let active := es.filter fun e => decide (e.mix ≠ 0)
  let y := active.foldl (fun acc e => addArr acc (contribution x e))
    (some (List.replicate x.length 0))
  match postGain with
  | none => y
  | some g => y.map (·.map (· * 10 ^ (g / 20)))

end Verif.Distortion

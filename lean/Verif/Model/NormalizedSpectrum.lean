import Verif.Model.ExactValue
import Verif.Model.Level
import Verif.Model.Interp
import Mathlib.Analysis.Complex.Norm

/-!
# Model of the normalised spectra in decibel (`helpers/spectrum_utilities.py:
_get_normalized_spectrum`)

Exact real and complex arithmetic. Spectra with two dimensions. The
fractional octave smoothing is an arbitrary operator on columns (`none`: `smoothing == 0`).
-/

namespace Verif.NormalizedSpectrum

open Verif.Level

/-- `MagnitudeNormalization` (`standard/enums.py`, lines 440-459) -/
inductive Norm where
  | no | oneKhz | oneKhzFirst | max | maxFirst | energy | energyFirst
deriving DecidableEq

/-- The scale factor (lines 123-135). -/
noncomputable def scale (amp calibrated : Bool) (nrm : Norm) : ℝ :=
  if amp then (if calibrated ∧ nrm = .no then 20e-6 else 1)
  else (if calibrated ∧ nrm = .no then 4e-10 else 1)

/-- First index and index behind the last one of the frequency range (lines 137-147); the nearest
points are always in the order of the sorted range. -/
noncomputable def section_ (f : List ℝ) (range : Option (List ℝ)) : Except Err (ℕ × ℕ) :=
  match range with
  | none => .ok (0, f.length)
  | some [a, b] => do
    let ids ← Helpers.findNearest [min a b, max a b] f
    .ok (ids.getD 0 0, ids.getD 1 0 + 1)
  | some _ => .error .assertionError

/-- The magnitudes (lines 149-165): smoothing is applied within `if is_amplitude_scaling` only. -/
noncomputable def magnitudes (X : Mat ℂ) (i n : ℕ) (amp : Bool)
    (smoothing : Option (List ℝ → List ℝ)) (k c : ℕ) : ℝ :=
  match smoothing with
  | none => ‖X.val (i + k) c‖
  | some S =>
    if amp then (S ((List.range n).map fun k => ‖X.val (i + k) c‖)).getD k 0
    else ‖X.val (i + k) c‖

/-- All entries of an array. -/
def entries (n ch : ℕ) (m : ℕ → ℕ → ℝ) : List ℝ :=
  (List.range n).flatMap fun k => (List.range ch).map fun c => m k c

/-- `to_db(x, amp, 500)` (`gain_and_level.py`, lines 190-200) of an array with an entry other than
0: the range is counted from the largest entry of all channels. -/
noncomputable def decibel (n ch : ℕ) (amp : Bool) (m : ℕ → ℕ → ℝ) (k c : ℕ) : ℝ :=
  dbFactor amp * Real.logb 10
    (clipMin (maxAbs (entries n ch m) * 10 ^ (-|(500 : ℝ)| / dbFactor amp)) |m k c|)

/-- `float(np.finfo(np.float64).smallest_normal)` -/
noncomputable def tiny : ℝ := 2 ^ (-1022 : ℤ)

/-- `to_db(p, False)` of a mean power. -/
noncomputable def powerDb (p : ℝ) : ℝ := dbFactor false * Real.logb 10 (clipMin tiny |p|)

/-- `np.max` of a column with `n` entries. -/
noncomputable def columnMax (n : ℕ) (d : ℕ → ℝ) : ℝ :=
  (List.range (n - 1)).foldl (fun (acc : ℝ) (k : ℕ) => max acc (d (k + 1))) (d 0)

/-- `np.mean` of the power of a column (lines 187-190 and 196-199). -/
noncomputable def meanPower (n : ℕ) (amp : Bool) (m : ℕ → ℝ) : ℝ :=
  (∑ k ∈ Finset.range n, if amp then m k ^ 2 else m k) / n

/-- The values for normalisation (lines 169-206), one per channel (`none`: nan).  With power scaling
the mean of `EnergyFirstChannel` runs over all channels and keeps its dimensions, so that the in-place
subtraction (line 208) raises ValueError. -/
noncomputable def offsets (f : List ℝ) (n ch : ℕ) (amp : Bool) (m d : ℕ → ℕ → ℝ) (nrm : Norm) :
    Except Err (Option (ℕ → ℝ)) :=
  let gain := fun c => ExactValue.exactGain f ((List.range n).map fun k => d k c)
  match nrm with
  | .oneKhz => do
    let g ← (List.range ch).mapM gain
    if none ∈ g then .ok none else .ok (some fun c => (g.getD c none).getD 0)
  | .oneKhzFirst => do
    let g ← gain 0
    .ok (g.map fun v _ => v)
  | .max => .ok (some fun c => columnMax n fun k => d k c)
  | .maxFirst => .ok (some fun _ => columnMax n fun k => d k 0)
  | .energy => .ok (some fun c => powerDb (meanPower n amp fun k => m k c))
  | .energyFirst =>
    if amp then .ok (some fun _ => powerDb (meanPower n amp fun k => m k 0))
    else .error .valueError
  | .no => .ok (some fun _ => 0)

/-- `_get_normalized_spectrum` (lines 60-226) without phase: frequencies and levels.  `none` stands
for an array of nan or -inf (spectra which are 0 throughout, or a repeated frequency at 1 kHz). An
empty array raises ValueError in `to_db`. -/
noncomputable def normalizedSpectrum (f : List ℝ) (X : Mat ℂ) (amp : Bool)
    (range : Option (List ℝ)) (nrm : Norm) (smoothing : Option (List ℝ → List ℝ))
    (calibrated : Bool) : Except Err (List ℝ × Option (Mat ℝ)) := do
  let s ← section_ f range
  let f' := (f.take s.2).drop s.1
  let n := f'.length
  let m := magnitudes X s.1 n amp smoothing
  if n = 0 ∨ X.cols = 0 then .error .valueError
  else do
    let d := decibel n X.cols amp fun k c => m k c / scale amp calibrated nrm
    let o ← offsets f' n X.cols amp m d nrm
    if maxAbs (entries n X.cols m) = 0 then .ok (f', none)
    else
      match o with
      | none => .ok (f', none)
      | some o => .ok (f', some ⟨n, X.cols, fun k c => d k c - o c⟩)

/-- The phases of the bins `i, …, i + n - 1` (lines 209-216): smoothed after unwrapping and wrapped again. -/
noncomputable def phases (X : Mat ℂ) (i n : ℕ) (smoothing : Option (List ℝ → List ℝ)) : Mat ℝ :=
  ⟨n, X.cols, fun k c =>
    let p := fun k => Complex.arg (X.val (i + k) c)
    match smoothing with
    | none => p k
    | some S => Helpers.wrapPhase ((S ((List.range n).map (Spectrum.unwrap p))).getD k 0)⟩

/-- `_get_normalized_spectrum` with `phase=True` (lines 60-226): frequencies, levels and phases.  Arrays that are
not complex are refused (lines 121-124). -/
noncomputable def normalizedSpectrumPhase (f : List ℝ) (X : Mat ℂ) (isComplex amp : Bool)
    (range : Option (List ℝ)) (nrm : Norm) (smoothing : Option (List ℝ → List ℝ))
    (calibrated : Bool) : Except Err (List ℝ × Option (Mat ℝ) × Mat ℝ) :=
  if isComplex = false then .error .assertionError
  else do
    let r ← normalizedSpectrum f X amp range nrm smoothing calibrated
    let s ← section_ f range
    .ok (r.1, r.2, phases X s.1 r.1.length smoothing)

end Verif.NormalizedSpectrum

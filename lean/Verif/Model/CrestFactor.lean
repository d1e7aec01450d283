import Verif.Model.Calibration
import Verif.Model.PadTrim

/-!
# Model of the level measures

`standard/gain_and_level.py: true_peak_level, rms, crest_factor` (lines 121-200, 362-401).

Exact arithmetic.  The resampling by four of a channel (`scipy.signal.resample_poly`, via
`standard/resampling.py: resample`) is a parameter.  All bands have the same number of channels.
-/

namespace Verif.Level

open Verif.SignalData Verif.Calibration

/-- `np.finfo(np.float64).smallest_normal` -/
noncomputable def tiny : ℝ := 2 ^ (-1022 : ℤ)

/-- `to_db(x, True)` with its default limit (`helpers/gain_and_level.py`, lines 158-200). -/
noncomputable def amplitudeDb (x : ℝ) : ℝ := 20 * Real.logb 10 (max |x| tiny)

/-- `down_factor` (`gain_and_level.py`, line 149). -/
noncomputable def downFactor : ℝ := fromDb (-12.04) true

/-- `true_peak_level` of a `Signal` (`gain_and_level.py`, lines 146-158): true peak levels and peak
levels of the channels.  `np.max` of no samples raises ValueError. -/
noncomputable def truePeakLevel (resample : List ℝ → List ℝ) (s : State ℝ) :
    Except Err (List ℝ × List ℝ) :=
  match setData s ⟨s.re.rows, s.re.cols, fun r c => s.re.val r c * downFactor, none⟩ with
  | .error e => .error e
  | .ok sig =>
    match copyWith sig (ofCols (4 * sig.re.rows) sig.re.cols fun c => resample (colOf sig.re c)) with
    | .error e => .error e
    | .ok over =>
      if sig.re.rows = 0 then .error .valueError
      else
        .ok ((List.range over.re.cols).map fun (c : ℕ) =>
            amplitudeDb (maxAbs (colOf over.re c) * (1 / downFactor)),
          (List.range sig.re.cols).map fun (c : ℕ) =>
            amplitudeDb (maxAbs (colOf sig.re c) * (1 / downFactor)))

/-- `rms` of a `Signal` (`gain_and_level.py`, lines 187-200). -/
noncomputable def rmsSignal (s : State ℝ) (dbfs : Bool) : List (WithBot ℝ) :=
  (rmsChannels s.re).map fun v => if dbfs then logDb 20 v else (v : WithBot ℝ)

/-- `rms` of a `MultiBandSignal` (`gain_and_level.py`, lines 189-200). -/
noncomputable def rmsBands (bands : List (State ℝ)) (dbfs : Bool) : List (List (WithBot ℝ)) :=
  bands.map fun b => (rmsChannels b.re).map fun v => if dbfs then logDb 20 v else (v : WithBot ℝ)

/-- `peak / rms` (`gain_and_level.py`, line 390); `none` is `inf` or `nan`. -/
noncomputable def quotient (peak rms : ℝ) : Option ℝ := if rms = 0 then none else some (peak / rms)

/-- The peaks (`gain_and_level.py`, lines 385-389). -/
noncomputable def peaks (resample : List ℝ → List ℝ) (s : State ℝ) (truePeak : Bool) :
    Except Err (List ℝ) :=
  if truePeak then
    match truePeakLevel resample s with
    | .error e => .error e
    | .ok l => .ok (l.1.map fun v => fromDb v true)
  else if s.re.rows = 0 then .error .valueError
  else .ok ((List.range s.re.cols).map fun (c : ℕ) => maxAbs (colOf s.re c))

/-- `crest_factor` of a `Signal` (`gain_and_level.py`, lines 384-390, 401). -/
noncomputable def crestSignal (resample : List ℝ → List ℝ) (s : State ℝ) (db truePeak : Bool) :
    Except Err (List (Option ℝ)) :=
  match peaks resample s truePeak with
  | .error e => .error e
  | .ok p =>
    .ok ((List.zipWith quotient p (rmsChannels s.re)).map fun v =>
      if db then v.map amplitudeDb else v)

/-- `crest_factor` of a `MultiBandSignal` (`gain_and_level.py`, lines 391-394, 401): the values of
the bands are in dB already and are converted to dB **again**. -/
noncomputable def crestBands (resample : List ℝ → List ℝ) (bands : List (State ℝ))
    (db truePeak : Bool) : Except Err (List (List (Option ℝ))) :=
  match bands.mapM fun b => crestSignal resample b db truePeak with
  | .error e => .error e
  | .ok rows => .ok (rows.map fun r => r.map fun v => if db then v.map amplitudeDb else v)

end Verif.Level

import Verif.Model.Normalize

/-!
# Model of `CalibrationData` (`dsptoolbox/classes/calibration_data.py`)

Exact arithmetic.  A silent calibration channel makes the code divide by zero (the factor is
`inf`); the model has the factor 0 there, so theorems assume channels that are not silent.
-/

namespace Verif.Calibration

open Verif.SignalData Verif.Level

/-- The attributes of the object; `factors` is `calibration_factors` (absent until first
computed, here empty), `update` is `__update`. -/
structure Cal where
  signal : State ℝ
  rate : ℕ
  spl : ℝ
  highSnr : Bool
  update : Bool
  factors : List ℝ

/-- The constructor with a `Signal` (lines 15-63). -/
def construct (s : State ℝ) (rate : ℕ) (spl : ℝ) (highSnr : Bool) : Cal :=
  ⟨s, rate, spl, highSnr, true, []⟩

/-- `rms(signal, in_dbfs=False)` (`standard/gain_and_level.py`, lines 169-200), one number
per channel; `_rms` is the standard deviation. -/
noncomputable def rmsChannels (A : Mat ℝ) : List ℝ :=
  (List.range A.cols).map fun c => stdOn (cells A c true) A.val

/-- The factors of lines 113-115. -/
noncomputable def factorsOf (A : Mat ℝ) (spl : ℝ) : List ℝ :=
  (rmsChannels A).map fun v => 10 ^ (spl / 20) * 20e-6 / v

/-- `_compute_calibration_factors` (lines 106-116).  Without `high_snr` the method
`_get_rms_from_spectrum` (lines 118-124) stores the **string** "amplitude spectrum" as
scaling; `get_spectrum` then calls `fft_norm` of that string, which raises AttributeError
(`classes/signal.py`, lines 896-908).  The flag stays set. -/
noncomputable def compute (k : Cal) : Except Err Cal :=
  if k.update then
    if k.highSnr then
      .ok ⟨k.signal, k.rate, k.spl, k.highSnr, false, factorsOf k.signal.re k.spl⟩
    else .error .attributeError
  else .ok k

/-- `add_calibration_channel` with a `Signal` (lines 65-104). -/
noncomputable def addChannel (k : Cal) (s : State ℝ) (rate : ℕ) (allow : Bool) :
    Except Err Cal :=
  match appendSignals [(k.signal, k.rate), (s, rate)] allow true with
  | .error e => .error e
  | .ok (t, r) => .ok ⟨t, r, k.spl, k.highSnr, true, k.factors⟩

/-- The vector of factors, one per channel of the signal (lines 153-161). -/
def spread (factors : List ℝ) (cols : ℕ) : Except Err (List ℝ) :=
  if factors.length > 1 then
    if cols = factors.length then .ok factors else .error .assertionError
  else .ok ((List.range cols).map fun _ => factors.getD 0 0)

/-- Lines 164-166 for one signal: switch the constraint off, then assign the scaled real
part. -/
noncomputable def scaleSignal (s : State ℝ) (f : List ℝ) : Except Err (State ℝ) :=
  let t := (setConstrain s false).2
  setData t ⟨s.re.rows, s.re.cols, fun r c => s.re.val r c * f.getD c 0, none⟩

/-- `calibrate_signal` of a `Signal` (lines 126-178): outcome and object left behind. -/
noncomputable def calibrate (k : Cal) (s : State ℝ) (force : Bool) :
    Except Err (State ℝ) × Cal :=
  let k1 : Cal := if force then ⟨k.signal, k.rate, k.spl, k.highSnr, true, k.factors⟩ else k
  match compute k1 with
  | .error e => (.error e, k1)
  | .ok k2 =>
    match spread k2.factors s.re.cols with
    | .error e => (.error e, k2)
    | .ok f => (scaleSignal s f, k2)

/-- `calibrate_signal` of a `MultiBandSignal` given by its bands (all with `cols`
channels). -/
noncomputable def calibrateBands (k : Cal) (bands : List (State ℝ)) (cols : ℕ) (force : Bool) :
    Except Err (List (State ℝ)) × Cal :=
  let k1 : Cal := if force then ⟨k.signal, k.rate, k.spl, k.highSnr, true, k.factors⟩ else k
  match compute k1 with
  | .error e => (.error e, k1)
  | .ok k2 =>
    match spread k2.factors cols with
    | .error e => (.error e, k2)
    | .ok f => (bands.mapM fun b => scaleSignal b f, k2)

/-- Calls on a calibration object. -/
inductive Call
  | calibrate (s : State ℝ) (force : Bool)
  | calibrateBands (bands : List (State ℝ)) (cols : ℕ) (force : Bool)
  | addChannel (s : State ℝ) (rate : ℕ) (allow : Bool)

/-- The object after a call (also one that raises). -/
noncomputable def exec (k : Cal) : Call → Cal
  | .calibrate s force => (calibrate k s force).2
  | .calibrateBands b n force => (calibrateBands k b n force).2
  | .addChannel s r allow =>
    match addChannel k s r allow with
    | .ok k' => k'
    | .error _ => k

/-- The object after a history of calls. -/
noncomputable def run (k : Cal) (h : List Call) : Cal := h.foldl exec k

end Verif.Calibration

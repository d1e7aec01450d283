import Verif.Spec.Realtime
import Mathlib.Data.Rat.Defs

/-!
# Model of the cached spectra of `Signal` (`dsptoolbox/classes/signal.py`)

The object is modelled with everything that decides what `get_spectrum`, `get_csm` and
`get_spectrogram` return: the data, the parameters, the cached results, and the flags
`__spectrum_state_update`, `__csm_state_update`, `__spectrogram_state_update`.  The
numerical routines behind the getters are arbitrary functions (`Routines`), so the results
hold whatever they compute.
-/

namespace Verif.Cache

/-- `SpectrumMethod` (`standard/enums.py`). -/
inductive Method
  | welch
  | fft
  deriving DecidableEq

/-- `SpectrumScaling` (`standard/enums.py`, lines 1-60). -/
inductive Scaling
  | amplitudeSpectrum
  | amplitudeSpectralDensity
  | powerSpectrum
  | powerSpectralDensity
  | fftBackward
  | fftForward
  | fftOrthogonal
  deriving DecidableEq

/-- `has_physical_units` (`standard/enums.py`, lines 109-123). -/
def Scaling.physical : Scaling → Bool
  | amplitudeSpectrum | amplitudeSpectralDensity | powerSpectrum | powerSpectralDensity => true
  | _ => false

/-- The dictionary `_spectrum_parameters`; the entries that are only passed on
(padding, window, overlap, detrend, average) are collected in `rest`. -/
structure Params (R : Type) where
  method : Method
  smoothing : ℚ
  scaling : Scaling
  rest : R
  deriving DecidableEq

/-- The parameters with another scaling. -/
def Params.withScaling {R : Type} (p : Params R) (x : Scaling) : Params R :=
  ⟨p.method, p.smoothing, x, p.rest⟩

/-- The parameters with another method. -/
def Params.withMethod {R : Type} (p : Params R) (x : Method) : Params R :=
  ⟨x, p.smoothing, p.scaling, p.rest⟩

/-- The parameters with another smoothing. -/
def Params.withSmoothing {R : Type} (p : Params R) (x : ℚ) : Params R :=
  ⟨p.method, x, p.scaling, p.rest⟩

/-- The numerical routines: `T` time data, `W` window, `R` remaining parameters, `Q`
spectrogram parameters, `S`, `C`, `G` the results. -/
structure Routines (T W R Q S C G : Type) where
  channels : T → ℕ
  /-- Body of `get_spectrum` (`signal.py`, lines 886-940). -/
  spectrum : T → ℕ → Option W → Params R → S
  /-- `_csm_welch` (`signal.py`, lines 977-987). -/
  csmWelch : T → ℕ → Params R → C
  /-- `_csm_fft` (`signal.py`, lines 995-1000). -/
  csmFFT : S → Scaling → Option W → ℕ → C
  /-- `_stft` (`signal.py`, lines 1034-1044). -/
  spectrogram : T → ℕ → Q → G
  /-- Default parameters of `set_spectrum_parameters` (the part `rest`). -/
  defaultRest : R

/-- The attributes of a `Signal`. -/
structure State (T W R Q S C G : Type) where
  data : T
  rate : ℕ
  window : Option W
  params : Params R
  sgParams : Q
  cacheOn : Bool
  spectrum : Option S
  spectrumDirty : Bool
  csm : Option C
  csmDirty : Bool
  spectrogram : Option G
  spectrogramDirty : Bool

variable {T W R Q S C G : Type}

/-- `__update_state` (`signal.py`, lines 163-171). -/
def updateState (s : State T W R Q S C G) : State T W R Q S C G :=
  { s with spectrumDirty := true, csmDirty := true, spectrogramDirty := true }

/-- A new signal (`signal.py`, lines 89-118): nothing is cached. -/
def new (data : T) (rate : ℕ) (p : Params R) (q : Q) (cache : Bool) : State T W R Q S C G :=
  ⟨data, rate, none, p, q, cache, none, true, none, true, none, true⟩

/-- Assignment to `time_data` (`signal.py`, lines 296-301): the window is deleted. Also
the effect of `add_channel`, `remove_channel`, `swap_channels`. -/
def setData (s : State T W R Q S C G) (t : T) : State T W R Q S C G :=
  updateState { s with data := t, window := none }

/-- Assignment to `sampling_rate_hz` (`signal.py`, lines 346-348). -/
def setRate (s : State T W R Q S C G) (fs : ℕ) : State T W R Q S C G :=
  updateState { s with rate := fs }

/-- `ImpulseResponse.set_window` (`classes/impulse_response.py`, lines 139-152): no flag
is set. -/
def setWindow (s : State T W R Q S C G) (w : W) : State T W R Q S C G :=
  { s with window := some w }

/-- `set_spectrum_parameters` (`signal.py`, lines 560-588). -/
def setParams [DecidableEq R] (s : State T W R Q S C G) (p : Params R) : State T W R Q S C G :=
  if s.params = p then s
  else { s with params := p, spectrumDirty := true, csmDirty := true }

/-- Assignment to `spectrum_scaling` (`signal.py`, lines 624-627). -/
def setScaling (s : State T W R Q S C G) (x : Scaling) : State T W R Q S C G :=
  { s with params := s.params.withScaling x, spectrumDirty := true, csmDirty := true }

/-- Assignment to `spectrum_method` (`signal.py`, lines 663-666). -/
def setMethod (s : State T W R Q S C G) (x : Method) : State T W R Q S C G :=
  { s with params := s.params.withMethod x, spectrumDirty := true, csmDirty := true }

/-- Write to `_spectrum_parameters["smoothing"]` without any flag (`signal.py`, lines
703-704 after the assertion `>= 0`, 1105, 1110). -/
def writeSmoothing (s : State T W R Q S C G) (x : ℚ) : State T W R Q S C G :=
  { s with params := s.params.withSmoothing x }

/-- `set_spectrogram_parameters` (`signal.py`, lines 750-773). -/
def setSgParams [DecidableEq Q] (s : State T W R Q S C G) (q : Q) : State T W R Q S C G :=
  if s.sgParams = q then s else { s with sgParams := q, spectrogramDirty := true }

variable (ρ : Routines T W R Q S C G)

/-- `get_spectrum` (`signal.py`, lines 861-946). -/
def getSpectrum (s : State T W R Q S C G) (force : Bool) : S × State T W R Q S C G :=
  let compute :=
    let x := ρ.spectrum s.data s.rate s.window s.params
    (x, if s.cacheOn then { s with spectrum := some x, spectrumDirty := false } else s)
  match s.spectrum with
  | none => compute
  | some x => if s.spectrumDirty || force then compute else (x, s)

/-- The last lines of `get_csm` (`signal.py`, lines 1002-1007). -/
def storeCSM (s : State T W R Q S C G) (x : C) : State T W R Q S C G :=
  if s.cacheOn then { s with csm := some x, csmDirty := false } else s

/-- The computation in `get_csm` (`signal.py`, lines 976-1007).  With a window and a scaling with physical
units `_csm_fft` raises ValueError: the factor has shape (1, channels), line
`factor[:, None]` makes it (1, 1, channels), repeating gives (1, 1, channels**2), which
cannot be broadcast to the matrix (`standard/_spectral_methods.py`, lines 435-439). The
scaling is then left switched. -/
def computeCSM (s : State T W R Q S C G) : Except Err C × State T W R Q S C G :=
  match s.params.method with
  | .welch =>
    let x := ρ.csmWelch s.data s.rate s.params
    (.ok x, storeCSM s x)
  | .fft =>
    let r := getSpectrum ρ (setScaling s .fftBackward) false
    if r.2.window.isSome ∧ s.params.scaling.physical then (.error .valueError, r.2)
    else
      let x := ρ.csmFFT r.1 s.params.scaling r.2.window r.2.rate
      (.ok x, storeCSM (setScaling r.2 s.params.scaling) x)

/-- `get_csm` (`signal.py`, lines 948-1007). -/
def getCSM (s : State T W R Q S C G) (force : Bool) : Except Err C × State T W R Q S C G :=
  if ρ.channels s.data ≤ 1 then (.error .assertionError, s)
  else
    match s.csm with
    | none => computeCSM ρ s
    | some x => if force || s.csmDirty then computeCSM ρ s else (.ok x, s)

/-- `get_spectrogram` (`signal.py`, lines 1009-1056): the flag is cleared even if the
result is not stored. -/
def getSpectrogram (s : State T W R Q S C G) (force : Bool) : G × State T W R Q S C G :=
  let compute :=
    let x := ρ.spectrogram s.data s.rate s.sgParams
    (x, if s.cacheOn then { s with spectrogramDirty := false, spectrogram := some x }
      else { s with spectrogramDirty := false })
  match s.spectrogram with
  | none => compute
  | some x => if force || s.spectrogramDirty then compute else (x, s)

/-- The access to the spectrum in `plot_magnitude` (`signal.py`, lines 1103-1110). -/
def plotMagnitude (s : State T W R Q S C G) : State T W R Q S C G :=
  writeSmoothing (getSpectrum ρ (writeSmoothing s 0) false).2 s.params.smoothing

/-- The same in `plot_phase` (`signal.py`, lines 1491-1503): an assertion on the method
comes first. -/
def plotPhase (s : State T W R Q S C G) : State T W R Q S C G :=
  match s.params.method with
  | .welch => s
  | .fft => plotMagnitude ρ s

/-- The access to the spectrum in `plot_group_delay` (`signal.py`, lines 1333-1341). -/
def plotGroupDelay [DecidableEq R] (s : State T W R Q S C G) : State T W R Q S C G :=
  let r := getSpectrum ρ (setParams s ⟨.fft, 0, .fftBackward, ρ.defaultRest⟩) false
  { r.2 with params := s.params }

/-- The calls on a signal. -/
inductive Call (T W R Q : Type)
  | setData (t : T)
  | setRate (fs : ℕ)
  | setWindow (w : W)
  | setParams (p : Params R)
  | setScaling (x : Scaling)
  | setMethod (x : Method)
  | setSmoothing (x : ℚ)
  | setSgParams (q : Q)
  | setCache (b : Bool)
  | getSpectrum (force : Bool)
  | getCSM (force : Bool)
  | getSpectrogram (force : Bool)
  | plotMagnitude
  | plotPhase
  | plotGroupDelay

/-- Effect of a call on the object. -/
def exec [DecidableEq R] [DecidableEq Q] (s : State T W R Q S C G) :
    Call T W R Q → State T W R Q S C G
  | .setData t => setData s t
  | .setRate fs => setRate s fs
  | .setWindow w => setWindow s w
  | .setParams p => setParams s p
  | .setScaling x => setScaling s x
  | .setMethod x => setMethod s x
  | .setSmoothing x => if 0 ≤ x then writeSmoothing s x else s
  | .setSgParams q => setSgParams s q
  | .setCache b => { s with cacheOn := b }
  | .getSpectrum f => (getSpectrum ρ s f).2
  | .getCSM f => (getCSM ρ s f).2
  | .getSpectrogram f => (getSpectrogram ρ s f).2
  | .plotMagnitude => plotMagnitude ρ s
  | .plotPhase => plotPhase ρ s
  | .plotGroupDelay => plotGroupDelay ρ s

/-- State after a history of calls. -/
def run [DecidableEq R] [DecidableEq Q] (s : State T W R Q S C G) (h : List (Call T W R Q)) :
    State T W R Q S C G := h.foldl (exec ρ) s

end Verif.Cache

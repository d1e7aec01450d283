import Verif.Model.Activity
import Verif.Model.CrestFactor
import Verif.Model.Framing
import Verif.Model.Helpers
import Verif.Model.Welch

/-!
# The spectral subtractor (`effects/effects.py: SpectralSubtractor`)

Exact arithmetic over the real numbers.  Channels are lists of samples.  The overlap is a whole number of
percent, the window `win W` is what `scipy.signal.get_window` (external) returns for the length `W`.
Applying the effect to the bands of a `MultiBandSignal` and the printed messages are left out.
-/

namespace Verif.SpectralSubtraction

open SignalData Complex

/-- The attributes of the object.  `spectrum` is `[]` for `False`. -/
structure Settings where
  adaptive : Bool
  threshold : ℝ
  block : ℝ
  spectrum : List ℝ
  overlap : ℕ
  forget : ℝ
  factor : ℝ
  expo : ℝ
  attackMs : ℝ
  releaseMs : ℝ

/-- The argument `spectrum_to_subtract`: `None`, `False` or a vector. -/
inductive SpecArg where
  | none
  | no
  | vector (v : List ℝ)

/-- `np.any` of the stored spectrum. -/
def anyNonzero (v : List ℝ) : Prop := ∃ a ∈ v, a ≠ 0

open Classical in
/-- `__set_parameters` (`effects.py`, lines 200-247) for arguments of the documented types: `None` leaves
an attribute unchanged, and a spectrum switches the adaptive mode off. -/
noncomputable def setBasic (s : Settings) (adaptive : Option Bool) (threshold block : Option ℝ)
    (spectrum : SpecArg) : Settings :=
  let s := { s with adaptive := adaptive.getD s.adaptive }
  let s := { s with threshold := threshold.getD s.threshold }
  let s := { s with block := block.getD s.block }
  match spectrum with
  | .none => s
  | .no => { s with spectrum := [] }
  | .vector v =>
    let s := if anyNonzero v ∧ s.adaptive = true then { s with adaptive := false } else s
    { s with spectrum := v }

/-- `set_advanced_parameters` (`effects.py`, lines 322-349): the exception, if any, and the object
afterwards.  Arguments before a refused one are stored. -/
noncomputable def setAdvanced (s : Settings) (overlap : ℕ) (forget factor expo attackMs releaseMs : ℝ) :
    Option Err × Settings :=
  if ¬ overlap < 100 then (some .assertionError, s)
  else
    let s := { s with overlap := overlap }
    if ¬ (0 < forget ∧ forget ≤ 1) then (some .assertionError, s)
    else
      let s := { s with forget := forget }
      if ¬ 0 < factor then (some .assertionError, s)
      else
        let s := { s with factor := factor }
        if ¬ 0 < expo then (some .assertionError, s)
        else
          let s := { s with expo := expo }
          if ¬ 0 ≤ attackMs then (some .assertionError, s)
          else
            let s := { s with attackMs := attackMs }
            if ¬ 0 ≤ releaseMs then (some .assertionError, s)
            else (none, { s with releaseMs := releaseMs })

/-- The constructor (`effects.py`, lines 190-198) with the defaults of `set_advanced_parameters`
(lines 249-258). -/
noncomputable def new (adaptive : Bool) (threshold block : ℝ) (spectrum : SpecArg) :
    Option Err × Settings :=
  setAdvanced (setBasic ⟨adaptive, threshold, block, [], 0, 0, 0, 0, 0, 0⟩ (some adaptive)
    (some threshold) (some block) spectrum) 50 0.9 2 2 0.5 30

/-- `set_parameters` (`effects.py`, lines 351-388); an omitted spectrum is `False` (line 356). -/
noncomputable def setParameters (s : Settings) (adaptive : Option Bool := none)
    (threshold : Option ℝ := none) (block : Option ℝ := none) (spectrum : SpecArg := .no) : Settings :=
  setBasic s adaptive threshold block spectrum

open Classical in
/-- The length of the window (`effects.py`, lines 402-407). -/
noncomputable def windowLength (s : Settings) (fs : ℕ) : Except Err ℕ :=
  if anyNonzero s.spectrum then .ok ((s.spectrum.length - 1) * 2)
  else Helpers.nextPower2 (s.block * fs) .closest

/-- `np.clip(get_window(...), a_min=1e-6, a_max=None)` (lines 409-413) -/
noncomputable def clippedWindow (win : ℕ → List ℝ) (W : ℕ) : List ℝ :=
  (win W).map fun a => max a (1 / 10 ^ 6)

/-- `int(self.window_length * (1 - self.overlap))` (line 414) -/
def stepSize (s : Settings) (W : ℕ) : ℕ := W * (100 - s.overlap) / 100

/-- One bin of the subtraction (lines 471-479 and 530-539): the power of the noise is already raised. -/
noncomputable def subtractBin (factor expo noise : ℝ) (X : ℂ) : ℂ :=
  (((max (‖X‖ ^ expo - factor * noise) 0) ^ (1 / expo) : ℝ) : ℂ) * exp (I * (arg X : ℝ))

/-- Bins of the windowed frame (lines 441-442 and 509-510). -/
noncomputable def frameSpectrum (w frame : List ℝ) : ℕ → ℂ :=
  DFT.rfft w.length fun i => frame.getD i 0 * w.getD i 0

/-- The frame after the subtraction (lines 471-479 and 530-539), for windows of even length. -/
noncomputable def newFrame (s : Settings) (w frame : List ℝ) (noise : ℕ → ℝ) : List ℝ :=
  (List.range w.length).map fun (i : ℕ) => DFT.irfft w.length
    (fun k => subtractBin s.factor s.expo (noise k) (frameSpectrum w frame k)) i

/-- `np.var` -/
noncomputable def variance (frame : List ℝ) : ℝ :=
  let mean := frame.sum / frame.length
  (frame.map fun a => (a - mean) ^ 2).sum / frame.length

/-- `to_db(np.var(td, axis=0), False)` (line 506) of one frame. -/
noncomputable def levelDb (frame : List ℝ) : ℝ :=
  10 * Real.logb 10 (max |variance frame| Level.tiny)

open Classical in
/-- The update of the noise estimate (lines 526-529). -/
noncomputable def updateNoise (s : Settings) (w frame : List ℝ) (noise : ℕ → ℝ) : ℕ → ℝ :=
  if levelDb frame < s.threshold then
    fun k => noise k * s.forget + ‖frameSpectrum w frame k‖ * (1 - s.forget)
  else noise

/-- The loop over the frames in the adaptive mode (lines 525-539). -/
noncomputable def adaptiveFrames (s : Settings) (w : List ℝ) : List (List ℝ) → (ℕ → ℝ) → List (List ℝ)
  | [], _ => []
  | f :: rest, noise =>
    let noise' := updateNoise s w f noise
    newFrame s w f (fun k => noise' k ^ s.expo) :: adaptiveFrames s w rest noise'

/-- Zeros in the beginning and the end (lines 432-434 and 497-499). -/
noncomputable def padded (x : List ℝ) (W : ℕ) : List ℝ :=
  padTrim (padTrim x (x.length + W) true) (x.length + W + W) false

/-- Reconstruction and trimming (lines 482-488 and 542-548). -/
noncomputable def finish (frames : List (List ℝ)) (w : List ℝ) (step length : ℕ) (thr : Option ℝ) :
    Except Err (List ℝ) :=
  match Framing.reconstruct frames w.length step (some w) (some length) thr Level.tiny with
  | .error e => .error e
  | .ok y =>
    let y := padTrim y (y.length - w.length) true
    .ok (padTrim y (y.length - w.length) false)

/-- One channel in the adaptive mode (lines 492-548).  The inverse transform of a single bin has no
samples, so that a window of one sample raises ValueError. -/
noncomputable def adaptiveChannel (s : Settings) (w x : List ℝ) : Except Err (List ℝ) :=
  match Framing.framed (padded x w.length) w.length (stepSize s w.length) true with
  | .error e => .error e
  | .ok frames =>
    if w.length = 1 then .error .valueError
    else finish (adaptiveFrames s w frames fun _ => 0) w (stepSize s w.length) (padded x w.length).length
      (some (1 / 10 ^ 4))

/-- Bins of the periodogram of the noise found by the activity detector (lines 451-465). -/
noncomputable def detectedNoise (s : Settings) (win : ℕ → List ℝ) (W fs : ℕ) (constrain : Bool)
    (x : List ℝ) : Except Err (ℕ → ℂ) :=
  match Activity.activityDetector x constrain fs s.threshold true id s.attackMs s.releaseMs with
  | .error e => .error e
  | .ok (_, noise, _) =>
    match CSM.welchSpectrum ⟨W, win W, s.overlap, true, .mean, fs⟩ .fftBackward noise.re.cols
        noise.re.rows (fun c => colOf noise.re c) with
    | .error e => .error e
    | .ok S => .ok fun k => S k 0

open Classical in
/-- What is subtracted in the static mode (lines 449-469). -/
noncomputable def staticNoise (s : Settings) (win : ℕ → List ℝ) (W fs : ℕ) (constrain : Bool)
    (x : List ℝ) : Except Err (ℕ → ℝ) :=
  if anyNonzero s.spectrum then .ok fun k => |s.spectrum.getD k 0| ^ (s.expo / 2)
  else
    match detectedNoise s win W fs constrain x with
    | .error e => .error e
    | .ok S => .ok fun k => ‖S k‖ ^ (s.expo / 2)

/-- One channel in the static mode (lines 426-488); no safety threshold is handed over. -/
noncomputable def staticChannel (s : Settings) (win : ℕ → List ℝ) (W fs : ℕ) (constrain : Bool)
    (x : List ℝ) : Except Err (List ℝ) :=
  let w := clippedWindow win W
  match Framing.framed (padded x w.length) w.length (stepSize s w.length) true with
  | .error e => .error e
  | .ok frames =>
    match staticNoise s win W fs constrain x with
    | .error e => .error e
    | .ok noise =>
      finish (frames.map fun f => newFrame s w f noise) w (stepSize s w.length) (padded x w.length).length
        none

/-- One channel in the selected mode (lines 419-422). -/
noncomputable def channel (s : Settings) (win : ℕ → List ℝ) (W fs : ℕ) (constrain : Bool) (x : List ℝ) :
    Except Err (List ℝ) :=
  if s.adaptive then adaptiveChannel s (clippedWindow win W) x
  else staticChannel s win W fs constrain x

/-- `_apply_this_effect` (`effects.py`, lines 416-424): the signal and the channels that consist of `nan`,
which are zero in the signal here.  (With `nan` the setter does not scale the data, and neither does the
one of the model: peaks of a constrained signal are at most 1.) -/
noncomputable def apply (s : Settings) (win : ℕ → List ℝ) (sig : State ℝ) (fs : ℕ) :
    Except Err (State ℝ × (ℕ → Prop)) :=
  match windowLength s fs with
  | .error e => .error e
  | .ok W =>
    match (List.range sig.re.cols).mapM fun c => channel s win W fs sig.constrain (colOf sig.re c) with
    | .error e => .error e
    | .ok ys =>
      match copyWith sig (ofCols sig.re.rows sig.re.cols fun c => ys.getD c []) with
      | .error e => .error e
      | .ok t =>
        let peak : ℕ → ℝ := fun c => Level.maxAbs (colOf sig.re c)
        let new : ℕ → ℝ := fun c => Level.maxAbs (colOf t.re c)
        match setData t ⟨t.re.rows, t.re.cols, fun r c => t.re.val r c * (peak c / new c), none⟩ with
        | .error e => .error e
        | .ok u => .ok (u, fun c => new c = 0)

end Verif.SpectralSubtraction

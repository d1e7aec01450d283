import Verif.Model.Deconvolution
import Verif.Model.Interp
import Verif.Model.PadTrim

/-!
# Spectra made from signals and signals made from spectra (`dsptoolbox/classes/spectrum.py`)

Exact real and complex arithmetic.  The signal that a spectrum is made from is the `Sig` of
`Verif.Deconv` (FFT without smoothing); a signal made from a spectrum is the `State` of
`Verif.SignalData`.  `scipy.interpolate.PchipInterpolator` is a parameter.
-/

namespace Verif.SpecConv

open Complex Spectrum SignalData Deconv Scaling

/-- `FrequencySpacing` -/
inductive Spacing where
  | linear | logarithmic | other
deriving DecidableEq

/-- `InterpolationScheme` -/
inductive Scheme where
  | linear | cubic | pchip
deriving DecidableEq

/-- `np.isclose(a, b)` with its default tolerances. -/
def isClose (a b : ℝ) : Prop := |a - b| ≤ 1 / 10 ^ 8 + 1 / 10 ^ 5 * |b|

open Classical in
/-- `__check_frequency_vector_type` (`spectrum.py`, lines 316-331).  With fewer than two
frequencies `f_vec_hz[-2]` raises IndexError, which is caught.  The logarithmic test leaves the
first frequency out. -/
noncomputable def spacing (f : List ℝ) : Spacing :=
  let n := f.length
  if n < 2 then .other
  else if ∀ i < n - 1, isClose (f.getD (i + 1) 0 - f.getD i 0)
      (f.getD (n - 1) 0 - f.getD (n - 2) 0) then .linear
  else if ∀ i < n - 2, isClose (f.getD (i + 2) 0 / f.getD (i + 1) 0)
      (f.getD (n - 1) 0 / f.getD (n - 2) 0) then .logarithmic
  else .other

/-- A `Spectrum`: frequency vector, data (one column for each channel; magnitudes have imaginary
part zero), whether the data is an array of reals, and the parameters of the interpolator. -/
structure CSpec where
  freqs : List ℝ
  data : Mat ℂ
  isMagnitude : Bool
  domain : Domain
  scheme : Scheme
  edges : Edges

open Classical in
/-- The constructor (`spectrum.py`, lines 32-53) with the setters of the frequency vector
(lines 153-176) and of the data (lines 233-269). -/
noncomputable def construct (f : List ℝ) (A : Mat ℂ) (isMagnitude : Bool) : Except Err CSpec :=
  if ¬ ((∀ x ∈ f, 0 ≤ x) ∧ ∀ i < f.length - 1, f.getD i 0 < f.getD (i + 1) 0) then
    .error .assertionError
  else if (upright A).rows ≠ f.length then .error .assertionError
  else if isMagnitude = true ∧ ¬ ∀ r < (upright A).rows, ∀ c < (upright A).cols,
      0 ≤ ((upright A).val r c).re then .error .assertionError
  else .ok ⟨f, upright A, isMagnitude, .power, .linear, .zeroPad⟩

/-- `outputs_complex_spectrum` (`standard/enums.py`, lines 94-107). -/
def outputsComplex (welch : Bool) (s : Scaling) : Bool := if welch then false else s.isAmplitude

/-- `from_signal` (`spectrum.py`, lines 55-86).  `welch` is the result of `get_spectrum` if the
method of the signal is Welch's (non-negative reals), `none` if it is the FFT. -/
noncomputable def fromSignal (s : Sig) (welch : Option (List ℝ × Mat ℝ)) (complex : Bool) :
    Except Err CSpec :=
  if complex = true ∧ outputsComplex welch.isSome s.scaling = false then .error .assertionError
  else
    let F := fftLength s.fast s.data.rows
    let got : Except Err (List ℝ × Mat ℂ) :=
      match welch with
      | some w => .ok (w.1, ⟨w.2.rows, w.2.cols, fun r c => (w.2.val r c : ℂ)⟩)
      | none =>
        match fftSpectrum s with
        | .error e => .error e
        | .ok X => .ok (Deconv.freqs F s.fs, ⟨DFT.rfftBins F, s.data.cols, fun r c => X c r⟩)
    match got with
    | .error e => .error e
    | .ok (f, A) =>
      if complex then construct f A false
      else construct f (A.map fun v =>
        ((if s.scaling.isAmplitude then ‖v‖ else Real.sqrt ‖v‖ : ℝ) : ℂ)) true

/-- `int(length_seconds * sampling_rate_hz + 0.5)` for a length that is not negative. -/
noncomputable def lengthSamples (len : ℝ) (fs : ℕ) : ℕ := ⌊len * fs + 1 / 2⌋₊

/-- `__td_from_spec` (`spectrum.py`, lines 369-374) for `M` bins `Y k c` of `channels` channels.
`numpy.fft.irfft` raises ValueError if there is no second bin. -/
noncomputable def tdFromSpec (M channels : ℕ) (Y : ℕ → ℕ → ℂ) (len : Option ℝ) (fs : ℕ) :
    Except Err (State ℝ) :=
  if M < 2 then .error .valueError
  else
    let N := 2 * (M - 1)
    let col (c : ℕ) : List ℝ := (List.range N).map fun (j : ℕ) => irfft N M (fun k => Y k c) j
    match len with
    | none => SignalData.construct (ofCols N channels col) true
    | some l => SignalData.construct
        (ofCols (lengthSamples l fs) channels fun c => padTrim (col c) (lengthSamples l fs) true) true

open Classical in
/-- `get_interpolated_spectrum` (`spectrum.py`, lines 544-684) with the parameters that `to_signal`
sets: magnitude and phase, Pchip, zero outside the range. -/
noncomputable def interpolatedPchip (pchip : List ℝ → (ℕ → ℝ) → ℝ → ℝ) (f : List ℝ) (X : ℕ → ℂ)
    (g : ℝ) : ℂ :=
  if g < f.getD 0 0 then 0
  else if f.getD (f.length - 1) 0 < g then 0
  else ((pchip f (fun k => ‖X k‖) g : ℝ) : ℂ) *
    exp (I * ((pchip f (fun k => unwrap (fun i => (X i).arg) k) g : ℝ) : ℂ))

/-- `np.arange(0.0, sampling_rate_hz / 2 + delta_f / 2.0, delta_f)` -/
noncomputable def arangeFreqs (fs : ℕ) (delta : ℝ) : List ℝ :=
  (List.range ⌈((fs : ℝ) / 2 + delta / 2) / delta⌉₊).map fun (i : ℕ) => (i : ℝ) * delta

open Classical in
/-- `to_signal` (`spectrum.py`, lines 333-403): the signal or the exception, and the object left
behind.  The Pchip interpolator raises ValueError for a single frequency. -/
noncomputable def toSignal (pchip : List ℝ → (ℕ → ℝ) → ℝ → ℝ) (sp : CSpec) (fs : ℕ)
    (len : Option ℝ) : Except Err (State ℝ) × CSpec :=
  if sp.isMagnitude then (.error .assertionError, sp)
  else
    let f := sp.freqs
    let delta := f.getD 1 0 - f.getD 0 0
    let interpolate (g : List ℝ) : Except Err (State ℝ) × CSpec :=
      let sp' := { sp with domain := .magnitudePhase, scheme := .pchip, edges := .zeroPad }
      if f.length < 2 then (.error .valueError, sp')
      else (tdFromSpec g.length sp.data.cols
        (fun k c => interpolatedPchip pchip f (fun r => sp.data.val r c) (g.getD k 0)) len fs, sp')
    if spacing f = .linear then
      if ¬ (|(fs : ℝ) / 2 - f.getD (f.length - 1) 0| > delta ∨ ¬ isClose (f.getD 0 0) 0) then
        (tdFromSpec sp.data.rows sp.data.cols sp.data.val len fs, sp)
      else interpolate (arangeFreqs fs delta)
    else
      match len with
      | none => (.error .assertionError, sp)
      | some l =>
        if lengthSamples l fs = 0 then (.error .zeroDivision, sp)
        else interpolate (Deconv.freqs (lengthSamples l fs) fs)

end Verif.SpecConv

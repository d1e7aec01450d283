import Verif.Model.Spectrum
import Mathlib.Analysis.SpecialFunctions.Complex.Log
import Mathlib.Analysis.SpecialFunctions.Sqrt
import Mathlib.Analysis.Complex.Norm

/-!
# Interpolation and normalisation of spectra (`dsptoolbox/classes/spectrum.py`)

Exact real and complex arithmetic; the schemes with splines are not modelled (scipy).
-/

namespace Verif.Spectrum

open Complex

/-- `InterpolationDomain` -/
inductive Domain where
  | power | magnitude | complex | magnitudePhase
deriving DecidableEq

/-- `InterpolationEdgeHandling` -/
inductive Edges where
  | zeroPad | onePad | extend | error
deriving DecidableEq

/-- `SpectrumType` without decibels. -/
inductive Output where
  | power | magnitude | complex
deriving DecidableEq

/-- Correction of `np.unwrap` for one phase difference: a multiple of the period, zero for
differences below half a period. -/
noncomputable def unwrapCorr (dd : ℝ) : ℝ :=
  let m := dd + Real.pi - 2 * Real.pi * ⌊(dd + Real.pi) / (2 * Real.pi)⌋ - Real.pi
  if |dd| < Real.pi then 0
  else (if m = -Real.pi ∧ 0 < dd then Real.pi else m) - dd

/-- `np.unwrap` -/
noncomputable def unwrap (p : ℕ → ℝ) (k : ℕ) : ℝ :=
  p k + ∑ i ∈ Finset.range k, unwrapCorr (p (i + 1) - p i)

/-- A column of data as a list. -/
def column {α : Type} (n : ℕ) (f : ℕ → α) : List α := (List.range n).map f

/-- The first array handed to the interpolation (`spectrum.py`, lines 570-588). -/
noncomputable def interpData (dom : Domain) (x : ℕ → ℂ) (k : ℕ) : ℝ :=
  match dom with
  | .power => ‖x k‖ ^ 2
  | .magnitude => ‖x k‖
  | .complex => (x k).re
  | .magnitudePhase => ‖x k‖

/-- The second array of the complex domains. -/
noncomputable def interpDataImag (dom : Domain) (x : ℕ → ℂ) (k : ℕ) : ℝ :=
  match dom with
  | .complex => (x k).im
  | _ => unwrap (fun i => (x i).arg) k

/-- Values outside the range, taken from the first array also for the second one
(`spectrum.py`, lines 590-598). -/
noncomputable def edgeValues (e : Edges) (n : ℕ) (d : ℕ → ℝ) : ℝ × ℝ :=
  match e with
  | .zeroPad => (0, 0)
  | .onePad => (1, 1)
  | _ => (d 0, d (n - 1))

/-- The interpolated value of one channel before conversion (`spectrum.py`, lines 623-656). -/
noncomputable def interpolated (dom : Domain) (e : Edges) (freqs : List ℝ) (x : ℕ → ℂ) (f : ℝ) :
    ℂ :=
  let n := freqs.length
  let ed := edgeValues e n (interpData dom x)
  let out : ℝ := interp freqs (column n (interpData dom x)) ed.1 ed.2 f
  let im : ℝ := interp freqs (column n (interpDataImag dom x)) ed.1 ed.2 f
  match dom with
  | .power => out
  | .magnitude => out
  | .complex => out + I * im
  | .magnitudePhase => out * exp (I * im)

/-- Conversion to the output type (`spectrum.py`, lines 658-684). -/
noncomputable def convert (dom : Domain) (o : Output) (v : ℂ) : ℂ :=
  match o, dom with
  | .complex, _ => v
  | .power, .power => v
  | .power, .magnitude => v ^ 2
  | .power, _ => ((‖v‖ ^ 2 : ℝ) : ℂ)
  | .magnitude, .power => ((Real.sqrt v.re : ℝ) : ℂ)
  | .magnitude, .magnitude => v
  | .magnitude, _ => ((‖v‖ : ℝ) : ℂ)

/-- `get_interpolated_spectrum` at one frequency with the linear scheme
(`spectrum.py`, lines 544-684); `x c k` is bin `k` of channel `c`.  With `extend` and `error`
the edge values of all channels are handed to `np.interp` as one array, which raises
TypeError unless there is a single channel. -/
noncomputable def getInterpolated (dom : Domain) (e : Edges) (o : Output) (isMagnitude : Bool)
    (freqs : List ℝ) (channels : ℕ) (x : ℕ → ℕ → ℂ) (f : ℝ) : Except Err (ℕ → ℂ) :=
  if o = .complex ∧ isMagnitude = true then .error .assertionError
  else if e = .error ∧ (f < freqs.getD 0 0 ∨ freqs.getD (freqs.length - 1) 0 < f) then
    .error .assertionError
  else if (e = .extend ∨ e = .error) ∧ channels ≠ 1 then .error .typeError
  else .ok fun c => convert dom o (interpolated dom e freqs (x c) f)

/-- `normalize` (`spectrum.py`, lines 494-521): all channels are divided by their own value or
by the one of the reference channel. -/
noncomputable def normalize (dom : Domain) (e : Edges) (isMagnitude : Bool) (freqs : List ℝ)
    (channels : ℕ) (x : ℕ → ℕ → ℂ) (f : ℝ) (ref : Option ℕ) : Except Err (ℕ → ℕ → ℂ) :=
  match getInterpolated dom e .magnitude isMagnitude freqs channels x f with
  | .error er => .error er
  | .ok v =>
    match ref with
    | none => .ok fun c k => x c k / v c
    | some r => if r < channels then .ok fun c k => x c k / v r else .error .indexError

end Verif.Spectrum

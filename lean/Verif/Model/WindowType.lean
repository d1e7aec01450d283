import Verif.Model.FilterBank
import Mathlib.Analysis.SpecialFunctions.Exp

/-!
# Model of window types and of the gaussian window

`standard/enums.py: Window` (lines 340-437), `helpers/windows.py: _gaussian_window_sigma,
gaussian_window` (lines 79-136), and what a signal does with the window type of its spectrogram
(`classes/signal.py`, lines 752-773 and 1030-1056).
-/

namespace Verif.WindowType

/-- The members of `Window` (`enums.py`, lines 346-370). -/
inductive Kind where
  | boxcar | triang | blackman | hamming | hann | bartlett | flattop | parzen | bohman
  | blackmanharris | nuttall | barthann | cosine | exponential | tukey | taylor | lanczos | kaiser
  | kaiserBesselDerived | gaussian | generalCosine | generalGaussian | generalHamming | dpss | chebwin
deriving DecidableEq

/-- An extra parameter: a number or a sequence. -/
inductive Param where
  | num (x : ℝ)
  | seq (l : List ℝ)

/-- `needs_extra_parameter` (lines 422-433). -/
def needs : Kind → Bool
  | .kaiser | .kaiserBesselDerived | .gaussian | .generalCosine | .generalGaussian | .generalHamming
  | .dpss | .chebwin => true
  | _ => false

/-- `self.name.lower()` -/
def lowerName : Kind → String
  | .boxcar => "boxcar" | .triang => "triang" | .blackman => "blackman" | .hamming => "hamming"
  | .hann => "hann" | .bartlett => "bartlett" | .flattop => "flattop" | .parzen => "parzen"
  | .bohman => "bohman" | .blackmanharris => "blackmanharris" | .nuttall => "nuttall"
  | .barthann => "barthann" | .cosine => "cosine" | .exponential => "exponential"
  | .tukey => "tukey" | .taylor => "taylor" | .lanczos => "lanczos" | .kaiser => "kaiser"
  | .kaiserBesselDerived => "kaiserbesselderived" | .gaussian => "gaussian"
  | .generalCosine => "generalcosine" | .generalGaussian => "generalgaussian"
  | .generalHamming => "generalhamming" | .dpss => "dpss" | .chebwin => "chebwin"

/-- `__to_str` (lines 410-420). -/
def toStr (k : Kind) : String :=
  if k = .kaiserBesselDerived then "kaiser_bessel_derived"
  else if k = .generalCosine then "general_cosine"
  else if k = .generalGaussian then "general_gaussian"
  else if k = .generalHamming then "general_hamming"
  else lowerName k

/-- What is handed to `scipy.signal.windows.get_window`. -/
inductive Format where
  | plain (name : String)
  | one (name : String) (p : Param)
  | two (name : String) (p q : ℝ)

/-- The extra parameters of the members; a member is a single object of the whole process, and its attribute
does not exist at first. -/
abbrev Registry := Kind → Option Param

/-- `with_extra_parameter` (lines 377-393): sets the attribute of the member and returns the member. -/
def withExtra (s : Registry) (k : Kind) (p : Param) : Registry × Kind :=
  (Function.update s k (some p), k)

/-- `to_scipy_format` (lines 395-408).  A missing attribute raises AttributeError; indexing a number raises
TypeError, a sequence that is too short IndexError. -/
def toScipy (s : Registry) (k : Kind) : Except Err Format :=
  if needs k then
    if k = .generalGaussian then
      match s k with
      | none => .error .attributeError
      | some (.num _) => .error .typeError
      | some (.seq l) =>
        match l with
        | p :: q :: _ => .ok (.two (toStr k) p q)
        | _ => .error .indexError
    else
      match s k with
      | none => .error .attributeError
      | some p => .ok (.one (toStr k) p)
  else .ok (.plain (toStr k))

/-- A signal for its spectrogram: the window type among the parameters, the flag
`__spectrogram_state_update`, `activate_cache`, and the saved spectrogram, of which only the window it was computed with is
kept here. -/
structure Holder where
  window : Kind
  dirty : Bool
  cacheOn : Bool
  saved : Option Format

/-- A new signal with the default window type Hann (lines 63-94 and 168-190). -/
def Holder.new (cacheOn : Bool) : Holder := ⟨.hann, true, cacheOn, none⟩

/-- `set_spectrogram_parameters` (`signal.py`, lines 752-773) for a change of the window type only.  The
parameters are compared with `==`, which for members of an enumeration is identity. -/
def setWindow (h : Holder) (k : Kind) : Holder :=
  if h.window = k then h else { h with window := k, dirty := true }

/-- `get_spectrogram` (lines 1030-1056): the window of the returned spectrogram. -/
def getSpectrogram (s : Registry) (h : Holder) (force : Bool) : Except Err Format × Holder :=
  let compute : Except Err Format × Holder :=
    match toScipy s h.window with
    | .error e => (.error e, h)
    | .ok f => (.ok f, { h with dirty := false, saved := if h.cacheOn then some f else h.saved })
  if force || h.dirty then compute
  else
    match h.saved with
    | none => compute
    | some f => (.ok f, h)

/-- The operations of a program with one signal: `Window.X.with_extra_parameter(p)`,
`set_spectrogram_parameters(window_type=...)`, `signal.activate_cache = ...`, `get_spectrogram(force)`. -/
inductive Op where
  | extra (k : Kind) (p : Param)
  | set (k : Kind)
  | cache (on : Bool)
  | get (force : Bool)

/-- A run of a program. -/
def run : Registry × Holder → List Op → Registry × Holder
  | c, [] => c
  | (s, h), .extra k p :: ops => run ((withExtra s k p).1, h) ops
  | (s, h), .set k :: ops => run (s, setWindow h k) ops
  | (s, h), .cache b :: ops => run (s, { h with cacheOn := b }) ops
  | (s, h), .get force :: ops => run (s, (getSpectrogram s h force).2) ops

/-- `_gaussian_window_sigma` (`windows.py`, lines 79-97). -/
noncomputable def sigma (length : ℕ) (alpha : ℝ) : ℝ := ((length : ℝ) - 1) / (2 * alpha)

/-- `gaussian_window` (lines 125-136) for a positive length; `none` is nan.  Only a length of 1 gives 0/0, unless
the offset is not 0, when it is `-inf` and the result 0. -/
noncomputable def gaussianWindow (length : ℕ) (alpha : ℝ) (symmetric : Bool) (offset : ℤ) :
    List (Option ℝ) :=
  let L := if symmetric then length else length + 1
  let half := ((L : ℝ) - 1) / 2
  let w := (List.range L).map fun (n : ℕ) =>
    if half = 0 then (if alpha * ((n : ℝ) - offset - half) = 0 then none else some 0)
    else some (Real.exp (-0.5 * (alpha * ((n : ℝ) - offset - half) / half) ^ 2))
  if symmetric then w else w.dropLast

end Verif.WindowType

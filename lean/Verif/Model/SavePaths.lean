import Verif.Spec.Realtime

/-!
# Model of saving and loading objects (`helpers/other.py: _check_format_in_path`, the `save_…`
methods of the classes and `standard/other.py: load_pkl_object`)

Strings are lists of characters.  Reading and writing of the files themselves (pickle, soundfile)
is external: a written file holds the object that was passed.
-/

namespace Verif.SavePaths

/-- `s.split(c)` of Python for a separator of one character: there is always at least one piece. -/
def split (c : Char) : List Char → List (List Char)
  | [] => [[]]
  | x :: xs =>
    if x = c then [] :: split c xs
    else match split c xs with
      | [] => [[x]]
      | h :: t => (x :: h) :: t

/-- `_check_format_in_path` (`other.py`, lines 69-92); `sep` is `os.sep`. -/
def checkFormat (sep : Char) (path fmt : List Char) : Except Err (List Char) :=
  let format := split '.' ((split sep path).getLastD [])
  if format.length ≠ 1 then
    if format.getLastD [] = fmt then .ok path else .error .assertionError
  else .ok (path ++ '.' :: fmt)

/-- The files: what has been written under a path. -/
abbrev Files (α : Type) := List Char → Option α

/-- `save_filter`, `save_filterbank`, `save_spectrum` and `save_signal` of a MultiBandSignal
(`filter.py` 1242-1254, `filterbank.py` 1009-1021, `spectrum.py` 974-987, `multibandsignal.py`
575-587): the object is written as `.pkl`. -/
def savePkl {α : Type} (sep : Char) (files : Files α) (path : List Char) (x : α) :
    Except Err (Files α) := do
  let p ← checkFormat sep path ['p', 'k', 'l']
  pure fun q => if q = p then some x else files q

/-- `load_pkl_object` (`standard/other.py`, lines 33-52); `none`: there is no such file. -/
def loadPkl {α : Type} (sep : Char) (files : Files α) (path : List Char) :
    Except Err (Option α) := do
  let p ← checkFormat sep path ['p', 'k', 'l']
  pure (files p)

/-- The formats in which soundfile writes the samples. -/
inductive Subtype
  | float | double | pcm24 | pcm16
  deriving DecidableEq

/-- What `save_signal` of a Signal does: an audio file with the given format of the samples, or the
object as a pickle. -/
inductive Written
  | audio (path : List Char) (subtype : Subtype)
  | pickle (path : List Char)

/-- `Signal.save_signal` (`signal.py`, lines 1572-1610); `mode` is the string after `lower()`. -/
def saveSignal (sep : Char) (path mode : List Char) (bitDepth : ℤ) : Except Err Written := do
  let p ← checkFormat sep path mode
  if mode = ['w', 'a', 'v'] ∨ mode = ['f', 'l', 'a', 'c'] then
    if bitDepth = 32 then pure (.audio p .float)
    else if bitDepth = 64 then pure (.audio p .double)
    else if bitDepth = 24 then pure (.audio p .pcm24)
    else if bitDepth = 16 then pure (.audio p .pcm16)
    else .error .valueError
  else if mode = ['p', 'k', 'l'] then pure (.pickle p)
  else .error .valueError

end Verif.SavePaths

import Verif.Model.Normalize
import Mathlib.Data.List.Sort

/-!
# Model of playing and recording (`audio_io/audio_io.py`)

The functions end in a request to the sound driver (external); the requests are modelled, with the
default device of sounddevice as the state that they read and change.  Real samples.
-/

namespace Verif.AudioIO

open Verif.SignalData Verif.Level

/-- `play_channels` and `rec_channels`: `None`, one channel or several ones. -/
inductive Channels
  | auto
  | one (c : ℤ)
  | several (l : List ℤ)

/-- `duration_seconds`: `None`, an integer or a float. -/
inductive Duration
  | whole
  | int (n : ℤ)
  | float (s : ℝ)

/-- `sorted(channels)` after `None` and integers have been replaced (lines 243-249, 374-378); `n` is
the number of channels of the signal. -/
def channels (n : ℕ) (c : Channels) : List ℤ :=
  (match c with
    | .auto => (List.range n).map fun (i : ℕ) => (i : ℤ) + 1
    | .one c => [c]
    | .several l => l).insertionSort (· ≤ ·)

/-- `time_data[:n, :]` for a number of samples that is not negative. -/
def firstRows (A : Mat ℝ) (n : ℕ) : Mat ℝ := ⟨min n A.rows, A.cols, A.val⟩

/-- The request to the driver: `none` as data stands for an array of nan. -/
structure Request (D : Type) where
  data : Option (Mat ℝ)
  rate : ℕ
  output : List ℤ
  input : List ℤ
  device : D

/-- The level of the data (lines 269-276, 387-394): `np.max` of an empty array raises ValueError,
silence is divided by zero. -/
noncomputable def level (A : Mat ℝ) (dbfs : Option ℝ) : Except Err (Option (Mat ℝ)) :=
  match dbfs with
  | none => .ok (some A)
  | some d =>
    if ¬ d ≤ 0 then .error .assertionError
    else if A.rows = 0 ∨ A.cols = 0 then .error .valueError
    else if peakOn (cells A 0 false) A.val = 0 then .ok none
    else .ok (some (normalizeArray A d true false))

/-- `play` (`audio_io.py`, lines 341-409); `dflt` is the default device, which is replaced by the
device of the call.  The request has no inputs. -/
noncomputable def play {D : Type} (dflt : D) (A : Mat ℝ) (rate : ℕ) (duration : Duration)
    (dbfs : Option ℝ) (device : Option D) (c : Channels) : Except Err (Request D × D) :=
  let out := channels A.cols c
  if out.any (· < 1) then .error .assertionError
  else
    let rows : Except Err ℕ := match duration with
      | .whole => .ok A.rows
      | .int n => if n > 0 then .ok (n * rate).toNat else .error .assertionError
      | .float s => if s > 0 then .ok ⌊s * rate⌋₊ else .error .assertionError
    match rows with
    | .error e => .error e
    | .ok n => match level (firstRows A n) dbfs with
      | .error e => .error e
      | .ok data =>
        let dev := device.getD dflt
        .ok (⟨data, rate, out, [], dev⟩, dev)

/-- `play_and_record` (`audio_io.py`, lines 202-293).  The number of samples is not converted to an
integer (line 263), so that a float is refused by the slice (TypeError).  `rec_channels` is an integer
or a list (`.auto` stands for an empty list, `None` is not iterable and not modelled). -/
noncomputable def playAndRecord {D : Type} (dflt : D) (A : Mat ℝ) (rate : ℕ) (duration : Duration)
    (dbfs : Option ℝ) (device : Option D) (c r : Channels) : Except Err (Request D × D) :=
  let out := channels A.cols c
  let inp := channels 0 r
  if A.cols ≠ out.length then .error .assertionError
  else if out.any (· < 1) then .error .assertionError
  else if inp.any (· < 1) then .error .assertionError
  else
    let rows : Except Err ℕ := match duration with
      | .whole => .ok A.rows
      | .int n => if n > 0 then .ok (n * rate).toNat else .error .assertionError
      | .float s => if s > 0 then .error .typeError else .error .assertionError
    match rows with
    | .error e => .error e
    | .ok n => match level (firstRows A n) dbfs with
      | .error e => .error e
      | .ok data =>
        let dev := device.getD dflt
        .ok (⟨data, rate, out, inp, dev⟩, dev)

/-- The request of a recording to the driver. -/
structure RecRequest (D : Type) where
  frames : ℤ
  rate : ℕ
  input : List ℤ
  device : D

/-- `int(x)`: the fractional part is dropped. -/
noncomputable def truncate (x : ℝ) : ℤ := if 0 ≤ x then ⌊x⌋ else ⌈x⌉

/-- `record` (`audio_io.py`, lines 295-343), with `rec_channels` as in `playAndRecord`; the duration is not
checked. -/
noncomputable def record {D : Type} (dflt : D) (duration : ℝ) (rate : ℕ) (device : Option D) (r : Channels) :
    Except Err (RecRequest D × D) :=
  let inp := channels 0 r
  if inp.any (· < 1) then .error .assertionError
  else
    let dev := device.getD dflt
    .ok (⟨truncate (duration * rate), rate, inp, dev⟩, dev)

/-- `sleep` (`audio_io.py`, lines 420-430): the milliseconds requested from the driver. -/
noncomputable def sleepMs (seconds : ℝ) : ℤ := truncate (seconds * 1000)

/-- `get_interface_number_by_name` (`audio_io.py`, lines 175-199); `lower` is `str.lower`. -/
def interfaceByName (lower : List Char → List Char) (name : List Char)
    (devices : List (List Char)) : Except Err (ℕ × List Char) :=
  match devices.findIdx? fun d => decide (lower name <:+: lower d) with
  | some i => .ok (i, devices.getD i [])
  | none => .error .valueError

/-- The argument of `set_device`: an integer, a string, a list of those, something else. -/
inductive DeviceItem
  | number (n : ℤ)
  | name (s : List Char)

/-- See `DeviceItem`. -/
inductive DeviceArg
  | item (i : DeviceItem)
  | several (l : List DeviceItem)
  | other

/-- `device_list[n]` exists (negative indices count from the end). -/
def validIndex (n : ℤ) (k : ℕ) : Prop := -(k : ℤ) ≤ n ∧ n < k

instance (n : ℤ) (k : ℕ) : Decidable (validIndex n k) := inferInstanceAs (Decidable (_ ∧ _))

/-- `set_device` (`audio_io.py`, lines 94-172) without the prompt and the sampling rate: the default
devices for input and output. -/
def setDevice (lower : List Char → List Char) (devices : List (List Char)) :
    DeviceArg → Except Err (ℤ × ℤ)
  | .item (.number n) => if validIndex n devices.length then .ok (n, n) else .error .indexError
  | .item (.name s) => match interfaceByName lower s devices with
    | .ok (i, _) => .ok (i, i)
    | .error e => .error e
  | .several [.number a, .number b] =>
    if ¬ validIndex a devices.length then .error .indexError
    else if ¬ validIndex b devices.length then .error .indexError
    else .ok (a, b)
  | .several [.name a, .name b] => match interfaceByName lower a devices with
    | .error e => .error e
    | .ok (i, _) => match interfaceByName lower b devices with
      | .error e => .error e
      | .ok (j, _) => .ok (i, j)
  | .several [_, _] => .error .typeError
  | .several _ => .error .assertionError
  | .other => .error .typeError

end Verif.AudioIO

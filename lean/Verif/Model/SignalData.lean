import Verif.Spec.Realtime
import Verif.Model.Mat
import Mathlib.Algebra.Order.Ring.Abs
import Mathlib.Algebra.Order.Field.Basic
import Mathlib.Data.Finset.Fold
import Mathlib.Data.Finset.Prod
import Mathlib.Data.Finset.Range

/-!
# Model of the data held by a `Signal` (`dsptoolbox/classes/signal.py`)

Arrays with two dimensions only; a one-dimensional array of n samples is the array of
shape (1, n), which is what `np.atleast_2d` makes of it.  Floating point rounding and data
types are not modelled: entries are elements of an ordered field.
-/

namespace Verif.SignalData

variable {K : Type} [Field K] [LinearOrder K]

/-- The attributes `__time_data`, `__time_data_imaginary`, `__constrain_amplitude`,
`__amplitude_scale_factor`. -/
structure State (K : Type) where
  re : Mat K
  im : Option (Mat K)
  constrain : Bool
  scale : K

/-- An array handed to a setter: real part and, for complex arrays, an imaginary part of
the same shape. -/
structure Input (K : Type) where
  rows : ℕ
  cols : ℕ
  re : ℕ → ℕ → K
  im : Option (ℕ → ℕ → K)

/-- Real part of an input. -/
def Input.reMat (x : Input K) : Mat K := ⟨x.rows, x.cols, x.re⟩

/-- Imaginary part of an input. -/
def Input.imMat (x : Input K) : Option (Mat K) := x.im.map fun f => ⟨x.rows, x.cols, f⟩

/-- `x.T` -/
def Input.T (x : Input K) : Input K :=
  ⟨x.cols, x.rows, fun r c => x.re c r, x.im.map fun f r c => f c r⟩

/-- The first lines of the `time_data` setter (`signal.py`, lines 253-265): squeeze, make
a vector a column, and transpose if there are more columns than rows.  For an array of
shape (1, 1) the squeezed array has no dimension and `shape[1]` raises IndexError. -/
def standardForm (x : Input K) : Except Err (Input K) :=
  if x.rows = 1 ∧ x.cols = 1 then .error .indexError
  else
    let y := if x.rows = 1 then x.T else x
    .ok (if y.cols > y.rows then y.T else y)

/-- `np.max(np.abs(A))` of a non-empty array. -/
def maxAbs (A : Mat K) : K :=
  (Finset.range A.rows ×ˢ Finset.range A.cols).fold max 0 fun p => |A.val p.1 p.2|

/-- The peak used for the normalization (`signal.py`, lines 276-278). -/
def peak (x : Input K) : K :=
  match x.imMat with
  | none => maxAbs x.reMat
  | some B => max (maxAbs x.reMat) (maxAbs B)

/-- Assignment to `time_data` (`signal.py`, lines 222-301). -/
def setData (s : State K) (x : Input K) : Except Err (State K) :=
  match standardForm x with
  | .error e => .error e
  | .ok y =>
    if s.constrain then
      if y.rows = 0 ∨ y.cols = 0 then .error .valueError
      else if peak y > 1 then
        .ok ⟨y.reMat.map (· / peak y), y.imMat.map (Mat.map (· / peak y)), true, 1 / peak y⟩
      else .ok ⟨y.reMat, y.imMat, true, 1⟩
    else .ok ⟨y.reMat, y.imMat, false, 1⟩

/-- The constructor (`signal.py`, lines 89-114). -/
def construct (x : Input K) (constrain : Bool) : Except Err (State K) :=
  setData ⟨⟨0, 0, fun _ _ => 0⟩, none, constrain, 1⟩ x

/-- The real data as an input (`self.time_data`). -/
def State.reInput (s : State K) : Input K := ⟨s.re.rows, s.re.cols, s.re.val, none⟩

/-- `_get_data` (`signal.py`, lines 1625-1631). -/
def State.fullInput (s : State K) : Input K :=
  ⟨s.re.rows, s.re.cols, s.re.val, s.im.map Mat.val⟩

/-- Runs a setter on an object: an exception leaves the object as it was. -/
def orKeep (s : State K) : Except Err (State K) → Option Err × State K
  | .ok s' => (none, s')
  | .error e => (some e, s)

/-- Assignment to `constrain_amplitude` (`signal.py`, lines 449-455): the flag is set
first, then the setter runs on the real part only. -/
def setConstrain (s : State K) (b : Bool) : Option Err × State K :=
  let s1 := ⟨s.re, s.im, b, s.scale⟩
  if b then orKeep s1 (setData s1 s1.reInput) else (none, s1)

/-- Assignment to `time_data_imaginary` (`signal.py`, lines 389-409). -/
def setImaginary (s : State K) (B : Option (Mat K)) : Option Err × State K :=
  match B with
  | none => (none, ⟨s.re, none, s.constrain, s.scale⟩)
  | some B =>
    if B.SameShape s.re then (none, ⟨s.re, some B, s.constrain, s.scale⟩)
    else (some .assertionError, s)

/-- `_pad_trim` of an array at the end (`helpers/other.py`, lines 216-259). -/
def padTrimEnd (x : Input K) (n : ℕ) : Input K :=
  ⟨n, x.cols, fun r c => if r < x.rows then x.re r c else 0,
    x.im.map fun f r c => if r < x.rows then f r c else 0⟩

/-- `add_channel` (`signal.py`, lines 776-852) with an array of two dimensions;
`sameRate` says whether the given sampling rate is the one of the signal. -/
def addChannel (s : State K) (x : Input K) (sameRate allow : Bool) : Option Err × State K :=
  if sameRate = false then (some .assertionError, s)
  else
    let y := if x.cols > x.rows then x.T else x
    if y.rows ≠ s.re.rows ∧ allow = false then (some .attributeError, s)
    else
      let z := padTrimEnd y s.re.rows
      let im := z.im.map fun f r c => if c < s.re.cols then 0 else f r (c - s.re.cols)
      let new : Input K := ⟨s.re.rows, s.re.cols + z.cols, (s.re.hcat z.reMat).val, im⟩
      orKeep s (setData s new)

/-- `remove_channel` (`_multichannel_data.py`, lines 32-57); `np.delete` counts negative
indices from the end and raises IndexError below `-channels`. -/
def removeChannel (s : State K) (ch : ℤ) : Option Err × State K :=
  let n := s.re.cols
  let ch1 : ℤ := if ch = -1 then n - 1 else ch
  if n ≤ 1 then (some .assertionError, s)
  else if (n : ℤ) - 1 < ch1 then (some .assertionError, s)
  else if ch1 < -n then (some .indexError, s)
  else
    let j : ℕ := (if ch1 < 0 then ch1 + n else ch1).toNat
    let x := s.fullInput
    let new : Input K := ⟨x.rows, x.cols - 1, fun r c => x.re r (if c < j then c else c + 1),
      x.im.map fun f r c => f r (if c < j then c else c + 1)⟩
    orKeep s (setData s new)

/-- `swap_channels` (`_multichannel_data.py`, lines 59-90). -/
def swapChannels (s : State K) (order : List ℤ) : Option Err × State K :=
  if s.re.cols = order.length ∧ (∀ i ∈ order, i < s.re.cols ∧ 0 ≤ i) ∧ order.Nodup then
    let x := s.fullInput
    let new : Input K := ⟨x.rows, order.length, fun r c => x.re r (order.getD c 0).toNat,
      x.im.map fun f r c => f r (order.getD c 0).toNat⟩
    orKeep s (setData s new)
  else (some .assertionError, s)

/-- The calls on the object that touch the data.  (Sampling rate assignment does not.) -/
inductive Call (K : Type)
  | setData (x : Input K)
  | setConstrain (b : Bool)
  | setImaginary (B : Option (Mat K))
  | addChannel (x : Input K) (sameRate allow : Bool)
  | removeChannel (ch : ℤ)
  | swapChannels (order : List ℤ)

/-- Outcome of a call: the exception, if any, and the object left behind. -/
def exec (s : State K) : Call K → Option Err × State K
  | .setData x => orKeep s (setData s x)
  | .setConstrain b => setConstrain s b
  | .setImaginary B => setImaginary s B
  | .addChannel x r a => addChannel s x r a
  | .removeChannel ch => removeChannel s ch
  | .swapChannels o => swapChannels s o

/-- The object after a history of calls (those that raise included). -/
def run (s : State K) (h : List (Call K)) : State K := h.foldl (fun s c => (exec s c).2) s

end Verif.SignalData

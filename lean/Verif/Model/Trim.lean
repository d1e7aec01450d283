import Verif.Model.PadTrim
import Mathlib.Algebra.Order.Floor.Defs

/-!
# Model of the functions that cut or extend a signal

`standard/pad_trim_methods.py`: `modify_signal_length`, `trim_with_level_threshold`,
`trim_with_time_selection`, for a `Signal`. Times are numbers of an ordered field.
-/

namespace Verif.SignalData

variable {K : Type} [Field K] [LinearOrder K]

/-- `int(x)` of a float: rounds towards zero. -/
def truncInt [FloorRing K] (x : K) : ℤ := if 0 ≤ x then ⌊x⌋ else ⌈x⌉

/-- `np.sign` -/
def signOf (x : K) : K := if 0 < x then 1 else if x < 0 then -1 else 0

/-- `np.pad(td, ((a, 0), (0, 0)))` -/
def padStart (A : Mat K) (a : ℕ) : Mat K :=
  ⟨A.rows + a, A.cols, fun r c => if r < a then 0 else A.val (r - a) c⟩

/-- `np.pad(td, ((0, a), (0, 0)))` -/
def padEnd (A : Mat K) (a : ℕ) : Mat K :=
  ⟨A.rows + a, A.cols, fun r c => if r < A.rows then A.val r c else 0⟩

/-- `td[a:b, ...]` for `a ≤ b` -/
def sliceRows (A : Mat K) (a b : ℕ) : Mat K :=
  ⟨min b A.rows - a, A.cols, fun r c => A.val (r + a) c⟩

/-- An array handed to a setter. -/
def Mat.toInput (A : Mat K) : Input K := ⟨A.rows, A.cols, A.val, none⟩

/-- Number of samples for a time (`pad_trim_methods.py`, lines 84-95). -/
def toSamples [FloorRing K] (fs : ℕ) : Option K → ℤ
  | none => 0
  | some t => truncInt (t * fs + 1 / 2 * signOf t)

/-- `modify_signal_length` (`pad_trim_methods.py`, lines 78-116). -/
def modifyLength [FloorRing K] (s : State K) (fs : ℕ) (start stop : Option K) :
    Except Err (State K) :=
  if start = none ∧ stop = none then .error .assertionError
  else
    let a := toSamples fs start
    let b := toSamples fs stop
    let len : ℤ := s.re.rows
    if a < 0 ∧ ¬ len > -a then .error .assertionError
    else if b < 0 ∧ ¬ len > -b then .error .assertionError
    else if (a < 0 ∧ b < 0) ∧ ¬ len > -(a + b) then .error .assertionError
    else
      let td := if 0 ≤ a then padStart s.re a.toNat else sliceRows s.re (-a).toNat s.re.rows
      let td' := if 0 ≤ b then padEnd td b.toNat else sliceRows td 0 (td.rows - (-b).toNat)
      setData s (Mat.toInput td')

/-- First component of `np.where(np.abs(td) >= threshold)`: row indices in row-major
order (`pad_trim_methods.py`, line 160). -/
def rowsAbove (A : Mat K) (t : K) : List ℕ :=
  (List.range A.rows).flatMap fun r =>
    ((List.range A.cols).filter fun c => t ≤ |A.val r c|).map fun _ => r

/-- `trim_with_level_threshold` (`pad_trim_methods.py`, lines 127-178) for the linear
threshold `t`; `np.min` and `np.max` of an empty array raise ValueError. -/
def trimLevel (s : State K) (t : K) (atStart atEnd : Bool) : Except Err (State K × ℕ × ℕ) :=
  if atStart = false ∧ atEnd = false then .error .assertionError
  else
    let above := rowsAbove s.re t
    let n := s.re.cols
    let start := if atStart then (above.take n).min? else some 0
    let stop := if atEnd then ((above.drop (above.length - n)).max?).map
      (fun m => min s.re.rows (m + 1)) else some s.re.rows
    match start, stop with
    | some a, some b =>
      match copyWith s (Mat.toInput (sliceRows s.re a b)) with
      | .ok s' => .ok (s', a, b)
      | .error e => .error e
    | _, _ => .error .valueError

/-- `trim_with_time_selection` (`pad_trim_methods.py`, lines 207-239): a start or end time
of 0 is treated like `None`. -/
def trimTime [FloorRing K] (s : State K) (fs : ℕ) (start stop : Option K) (inclusive : Bool) :
    Except Err (State K) :=
  if start = none ∧ stop = none then .error .assertionError
  else
    let secs : K := s.re.rows / fs
    let a : Except Err ℤ := match start with
      | none => .ok 0
      | some t => if t = 0 then .ok 0
        else if ¬ 0 ≤ t then .error .assertionError
        else if ¬ t < secs then .error .assertionError
        else .ok (truncInt (t * fs) + if inclusive then 0 else 1)
    let b : Except Err ℤ := match stop with
      | none => .ok s.re.rows
      | some t => if t = 0 then .ok s.re.rows
        else if ¬ 0 < t then .error .assertionError
        else if ¬ t ≤ secs then .error .assertionError
        else .ok (truncInt (t * fs) + if inclusive then 1 else 0)
    match a, b with
    | .ok a, .ok b =>
      if b > a then copyWith s (Mat.toInput (sliceRows s.re a.toNat b.toNat))
      else .error .assertionError
    | .error e, _ => .error e
    | _, .error e => .error e

end Verif.SignalData

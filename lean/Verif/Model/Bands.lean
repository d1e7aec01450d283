import Verif.Spec.Realtime
import Mathlib.Data.Rat.Defs

/-!
# Book-keeping of `MultiBandSignal` and `FilterBank`

What `classes/multibandsignal.py` and `classes/filterbank.py` remember about their bands and
filters.  Methods may raise after having changed part of the object: every operation
returns the new state together with the exception, if any.

Simplifications: a band is represented by the properties the book-keeping looks at
(sampling rate, length, channels, realness) and an identity; index vectors hold integers;
the list returned by the getter is not modified behind the back of the object.
-/

namespace Verif.Bands

/-- Python position of `list.insert(index, ·)` in a list of `n` elements. -/
def insertPos (n : ℕ) (i : ℤ) : ℕ := if i < 0 then (i + n).toNat else min i.toNat n

/-- Python position of `list.pop(index)` in a list of `n` elements. -/
def popPos (n : ℕ) (i : ℤ) : Option ℕ :=
  let j := if i < 0 then i + n else i
  if 0 ≤ j ∧ j < n then some j.toNat else none

/-- Reported sampling rate: one integer or a list of integers. -/
inductive Rates where
  | one (r : ℕ)
  | many (rs : List ℕ)
deriving DecidableEq

/-- The checks of `swap_bands` (`multibandsignal.py`, lines 387-401) and `swap_filters`
(`filterbank.py`, lines 376-390): one dimension after `squeeze` (which rejects a vector with
one entry), right length, entries in range, no repetitions. -/
def orderAccepted (n : ℕ) (order : List ℤ) : Bool :=
  order.length != 1 && order.length == n && order.all (fun i => decide (i < n ∧ 0 ≤ i)) &&
    decide order.Nodup

/-- What the object knows about a band. -/
structure Band where
  ident : ℕ
  rate : ℕ
  length : ℕ
  channels : ℕ
  complex : Bool
deriving DecidableEq

/-- State of a `MultiBandSignal`.  A `none` in a list is an object that is not a signal;
`rate` and `channels` are `none` before the first assignment. -/
structure MB where
  same : Bool
  bands : List (Option Band)
  rate : Option Rates
  channels : Option ℕ
deriving DecidableEq

/-- First loop of the setter of `bands` (`multibandsignal.py`, lines 152-165): every element
is a signal with the channel count and realness of the first one. -/
def scanOk (b0 : Band) (l : List (Option Band)) : Bool :=
  l.all fun x => match x with
    | none => false
    | some b => b.channels == b0.channels && b.complex == b0.complex

/-- Second loop of the setter (lines 172-183): sampling rate and length of the first one. -/
def ratesOk (b0 : Band) (l : List (Option Band)) : Bool :=
  l.all fun x => match x with
    | none => false
    | some b => b.rate == b0.rate && b.length == b0.length

/-- Setter of `bands` (`multibandsignal.py`, lines 117-183).  The number of channels is
overwritten before the first loop and the sampling rate before the second one. -/
def setBands (st : MB) (l : List (Option Band)) : MB × Option Err :=
  match l with
  | [] => (⟨st.same, [], st.rate, st.channels⟩, none)
  | none :: _ => (st, some .attributeError)
  | some b0 :: _ =>
    if scanOk b0 l then
      if st.same then
        if ratesOk b0 l then
          (⟨st.same, l, some (.one b0.rate), some b0.channels⟩, none)
        else (⟨st.same, st.bands, some (.one b0.rate), some b0.channels⟩, some .assertionError)
      else (⟨st.same, l, some (.many (l.filterMap fun x => x.map Band.rate)),
        some b0.channels⟩, none)
    else (⟨st.same, st.bands, st.rate, some b0.channels⟩, some .assertionError)

/-- `add_band` (lines 333-354). -/
def addBand (st : MB) (x : Option Band) (i : ℤ) : MB × Option Err :=
  if st.bands = [] then setBands st [x]
  else if i = -1 then setBands st (st.bands ++ [x])
  else setBands st (st.bands.insertIdx (insertPos st.bands.length i) x)

/-- `remove_band` (lines 356-376). -/
def removeBand (st : MB) (i : ℤ) : MB × Option Err :=
  if st.bands = [] then (st, some .assertionError)
  else match popPos st.bands.length i with
    | none => (st, some .indexError)
    | some j => setBands st (st.bands.eraseIdx j)

/-- `swap_bands` (lines 378-403). -/
def swapBands (st : MB) (order : List ℤ) : MB × Option Err :=
  if orderAccepted st.bands.length order then
    setBands st (order.map fun i => st.bands.getD i.toNat none)
  else (st, some .assertionError)

/-- Operations of the public interface. -/
inductive Op where
  | assign (l : List (Option Band))
  | add (x : Option Band) (i : ℤ)
  | remove (i : ℤ)
  | swap (order : List ℤ)
deriving DecidableEq

/-- One operation. -/
def step (st : MB) : Op → MB × Option Err
  | .assign l => setBands st l
  | .add x i => addBand st x i
  | .remove i => removeBand st i
  | .swap o => swapBands st o

/-- A history: the caller catches every exception and goes on. -/
def run (st : MB) (ops : List Op) : MB := ops.foldl (fun s o => (step s o).1) st

/-- `__init__` (lines 19-50): the flag, then the bands. -/
def create (same : Bool) (l : List (Option Band)) : MB × Option Err :=
  setBands ⟨same, [], none, none⟩ l

/-- Setter of `same_sampling_rate` (lines 198-222): the bands are not looked at. -/
def setSame (st : MB) (same : Bool) : MB := ⟨same, st.bands, st.rate, st.channels⟩

/-- Reported length: one number or a list of numbers. -/
inductive Lengths where
  | one (n : ℕ)
  | many (ns : List ℕ)
deriving DecidableEq

/-- Property `length_samples` (lines 277-296): the length of the first band, or all of them for a multirate
object. -/
def MB.lengthSamples (st : MB) : Lengths :=
  match st.bands with
  | [] => .one 0
  | x :: l => if st.same then .one ((x.map Band.length).getD 0)
      else .many ((x :: l).filterMap fun x => x.map Band.length)

/-- Property `length_seconds` (lines 249-259; `signal.py: length_seconds`): samples over sampling rate of the
first band. -/
def MB.lengthSeconds (st : MB) : ℚ :=
  match st.bands with
  | some b :: _ => b.length / b.rate
  | _ => 0

/-- Property `is_complex_signal` (lines 262-274). -/
def MB.isComplex (st : MB) : Bool :=
  match st.bands with
  | some b :: _ => b.complex
  | _ => false

/-- The dictionary `metadata` (lines 312-330): a missing key is `none`. -/
structure Meta where
  bands : ℕ
  same : Option Bool
  rate : Option Rates
  length : Option Lengths
  channels : Option ℕ
deriving DecidableEq

/-- Property `metadata` (lines 312-330). -/
def MB.metadata (st : MB) : Meta :=
  if st.bands = [] then ⟨0, none, none, none, none⟩
  else if st.same then ⟨st.bands.length, some st.same, st.rate, some st.lengthSamples, st.channels⟩
  else ⟨st.bands.length, some st.same, none, none, st.channels⟩

/-! ### Filter banks -/

/-- Element of a list of filters: a filter, another object with a sampling rate (for example
a signal), or an object without one. -/
inductive FItem where
  | filter (ident rate : ℕ)
  | foreign (rate : Option ℕ)
deriving DecidableEq

/-- Attribute `sampling_rate_hz`. -/
def FItem.rate? : FItem → Option ℕ
  | .filter _ r => some r
  | .foreign r => r

/-- `type(f) is Filter`. -/
def FItem.isFilter : FItem → Bool
  | .filter _ _ => true
  | .foreign _ => false

/-- State of a `FilterBank`. -/
structure FB where
  same : Bool
  filters : List FItem
  rate : Option Rates
deriving DecidableEq

/-- Loop over the filters in the setter (`filterbank.py`, lines 232-240). -/
def filtersOk (same : Bool) (r : ℕ) (l : List FItem) : Bool :=
  l.all fun f => f.isFilter && (!same || f.rate? == some r)

/-- Setter of `filters` (`filterbank.py`, lines 198-241): the sampling rate is overwritten
before the loop that checks the filters. -/
def setFilters (st : FB) (l : List FItem) : FB × Option Err :=
  match l with
  | [] => (⟨st.same, [], st.rate⟩, none)
  | f0 :: _ =>
    if st.same then
      match f0.rate? with
      | none => (st, some .attributeError)
      | some r =>
        if filtersOk true r l then (⟨st.same, l, some (.one r)⟩, none)
        else (⟨st.same, st.filters, some (.one r)⟩, some .assertionError)
    else
      match l.mapM FItem.rate? with
      | none => (st, some .attributeError)
      | some rs =>
        if filtersOk false 0 l then (⟨st.same, l, some (.many rs)⟩, none)
        else (⟨st.same, st.filters, some (.many rs)⟩, some .assertionError)

/-- `add_filter` (`filterbank.py`, lines 298-327). -/
def addFilter (st : FB) (f : FItem) (i : ℤ) : FB × Option Err :=
  if st.filters = [] then
    match f.rate? with
    | none => (st, some .attributeError)
    | some r => setFilters ⟨st.same, st.filters,
        some (if st.same then .one r else .many [r])⟩ [f]
  else
    let l := if i = -1 then st.filters ++ [f]
      else st.filters.insertIdx (insertPos st.filters.length i) f
    if st.same then
      match f.rate? with
      | none => (st, some .attributeError)
      | some r => if st.rate = some (.one r) then setFilters st l
        else (st, some .assertionError)
    else setFilters st l

/-- `remove_filter` (`filterbank.py`, lines 329-360). -/
def removeFilter (st : FB) (i : ℤ) : FB × Option Err :=
  if st.filters = [] then (st, some .assertionError)
  else
    let j := if i = -1 then (st.filters.length : ℤ) - 1 else i
    if 0 ≤ j ∧ j < st.filters.length then setFilters st (st.filters.eraseIdx j.toNat)
    else (st, some .assertionError)

/-- `swap_filters` (`filterbank.py`, lines 362-392). -/
def swapFilters (st : FB) (order : List ℤ) : FB × Option Err :=
  if orderAccepted st.filters.length order then
    setFilters st (order.map fun i => st.filters.getD i.toNat (.foreign none))
  else (st, some .assertionError)

/-- Operations of the public interface. -/
inductive FOp where
  | add (f : FItem) (i : ℤ)
  | remove (i : ℤ)
  | swap (order : List ℤ)
deriving DecidableEq

/-- One operation. -/
def fstep (st : FB) : FOp → FB × Option Err
  | .add f i => addFilter st f i
  | .remove i => removeFilter st i
  | .swap o => swapFilters st o

/-- A history: the caller catches every exception and goes on. -/
def frun (st : FB) (ops : List FOp) : FB := ops.foldl (fun s o => (fstep s o).1) st

/-- `FilterBank.__init__` (lines 36-70). -/
def fcreate (same : Bool) (l : List FItem) : FB × Option Err := setFilters ⟨same, [], none⟩ l

end Verif.Bands

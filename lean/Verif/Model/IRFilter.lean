import Verif.Model.Collapse
import Verif.Model.FilterCoeffs

/-!
# Model of the conversions between impulse responses and FIR filters

`transfer_functions/transfer_functions.py: ir_to_filter, filter_to_ir`.  Exact arithmetic; filters are
their stored coefficients (`Verif.FilterCoeffs`), zeros and poles are not used (`Unit`).
-/

namespace Verif.IRFilter

open SignalData FilterCoeffs

variable {K : Type} [Field K] [LinearOrder K]

/-- `Filter.from_ba(b, [1.0], fs)` (`filter.py`, lines 237-260) -/
def fromTaps (b : List K) : Except Err (Stored K Unit) :=
  FilterCoeffs.construct (fun _ => []) ⟨some (b, [1]), none, none⟩

/-- The loop over the channels (`transfer_functions.py`, lines 1245-1250) without the early return. -/
def eachChannel (A : Mat K) : Except Err (List (Stored K Unit)) :=
  (List.range A.cols).mapM fun c => fromTaps (colOf A c)

/-- `ir_to_filter` with `phase_mode="direct"` (lines 1193-1251).  A single filter (`channel` is not
`None`) is a list of one; the loop returns the first channel of the selection. -/
def irToFilter (s : State K) (channel : Option ℤ) : Except Err (List (Stored K Unit)) :=
  match channel with
  | none => eachChannel s.re
  | some c =>
    match Collapse.getChannels s [c] with
    | .error e => .error e
    | .ok t =>
      match eachChannel t.re with
      | .error e => .error e
      | .ok l => .ok (l.take 1)

/-- `fir.ba[0]` of an FIR filter. -/
def taps (f : Stored K Unit) : List K := (f.ba.map Prod.fst).getD []

/-- `filter_to_ir` for a `Filter` (lines 1271-1275). -/
def filterToIr (f : Stored K Unit) : Except Err (State K) :=
  match isIir f with
  | .error e => .error e
  | .ok true => .error .assertionError
  | .ok false => SignalData.construct ⟨(taps f).length, 1, fun r _ => (taps f).getD r 0, none⟩ true

/-- `len(f)` (`filter.py`, lines 641-642) -/
def filterLength (f : Stored K Unit) : ℕ :=
  match order (fun _ => 0) f with
  | .ok n => n + 1
  | .error _ => 0

/-- `filter_to_ir` for a `FilterBank` (lines 1276-1284) with filters that have at least one
coefficient.  `max` of an empty list raises ValueError. -/
def bankToIr (fs : List (Stored K Unit)) (sameRate : Bool) : Except Err (State K) :=
  match fs.mapM isIir with
  | .error e => .error e
  | .ok iir =>
    if iir.any id then .error .assertionError
    else if sameRate = false then .error .assertionError
    else if fs = [] then .error .valueError
    else
      let n := (fs.map filterLength).foldl max 0
      SignalData.construct ⟨n, fs.length, fun r c => ((fs.map taps).getD c []).getD r 0, none⟩ true

end Verif.IRFilter

import Verif.Model.FilterBank

/-!
# Model of `merge_filters` (`standard/other.py`, lines 367-405)
-/

namespace Verif.Bank

open Verif.LFilter

variable {K : Type} [Field K] [LinearOrder K]

/-- A filter object: sampling rate and coefficients. -/
structure FilterObj (K : Type) where
  rate : ℕ
  filt : Filt K

/-- `is_fir` (`classes/filter.py`, lines 445-470). -/
def Filt.isFir : Filt K → Bool
  | .fir _ => true
  | _ => false

/-- `ba[0]` of a FIR filter. -/
def Filt.num : Filt K → List K
  | .fir b => b
  | .ba b _ => b
  | .sos _ => []

/-- `get_coefficients(Sos)` of an IIR filter (`classes/filter.py`, lines 946-951).
`tf2sos` is external. -/
def Filt.sections (tf2sos : List K → List K → List (List K × List K)) :
    Filt K → List (List K × List K)
  | .sos secs => secs
  | .fir b => tf2sos b [1]
  | .ba b a => tf2sos b a

/-- `merge_filters` (`standard/other.py`, lines 367-405).  Division by the denominator `[1.0]` in
the `ba` setter is left out. -/
def mergeFilters (tf2sos : List K → List K → List (List K × List K)) (fs : List (FilterObj K)) :
    Except Err (FilterObj K) :=
  match fs with
  | [] => .error .assertionError
  | f :: rest =>
    if rest = [] then .error .assertionError
    else if (rest.all fun g => f.rate == g.rate) = false then .error .assertionError
    else if f.filt.isFir then
      if (rest.all fun g => g.filt.isFir) = false then .error .assertionError
      else .ok ⟨f.rate, .fir (rest.foldl (fun b g => fullConv b g.filt.num) f.filt.num)⟩
    else
      if (rest.all fun g => !g.filt.isFir) = false then .error .assertionError
      else .ok ⟨f.rate, .sos (rest.foldl (fun s g => s ++ g.filt.sections tf2sos)
        (f.filt.sections tf2sos))⟩

end Verif.Bank

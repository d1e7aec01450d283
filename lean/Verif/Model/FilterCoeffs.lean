import Verif.Spec.Realtime
import Mathlib.Algebra.Field.Defs
import Mathlib.Data.List.GetD

/-!
# Model of the coefficients stored in a `Filter` (`dsptoolbox/classes/filter.py`)

Exact arithmetic; data types are not modelled.
-/

namespace Verif.FilterCoeffs

variable {K : Type} [Field K] [DecidableEq K]

/-- The dictionary given to the constructor: the entries present.  Zeros, poles and gain are
elements of a type `Z`. -/
structure Dict (K Z : Type) where
  ba : Option (List K × List K)
  sos : Option (List (List K))
  zpk : Option Z

/-- The attributes of the object; a missing attribute is `none`. -/
structure Stored (K Z : Type) where
  ba : Option (List K × List K)
  sos : Option (List (List K))
  zpk : Option Z

/-- `np.trim_zeros(a, "b")` -/
def trimBack (a : List K) : List K := (a.reverse.dropWhile (· = 0)).reverse

/-- The `ba` setter (`filter.py`, lines 486-529) for one-dimensional coefficients.  The trimmed
denominator is only stored if one coefficient is left. -/
def setBa (b a : List K) : List K × List K :=
  if (trimBack a).length = 1 then
    (b.map (· / (trimBack a).getD 0 0), (trimBack a).map (· / (trimBack a).getD 0 0))
  else (b, a)

/-- The checks of the `sos` setter (`filter.py`, lines 544-563): six columns. -/
def setSos (sos : List (List K)) : Except Err (List (List K)) :=
  if (sos.all fun r => r.length == 6) = false then .error .assertionError else .ok sos

/-- The constructor (`filter.py`, lines 51-89).  `zpk2sos` is external. -/
def construct {Z : Type} (zpk2sos : Z → List (List K)) (d : Dict K Z) : Except Err (Stored K Z) :=
  if (d.ba.isSome ^^ d.sos.isSome ^^ d.zpk.isSome) = false then .error .assertionError
  else
    match d.zpk, d.sos, d.ba with
    | some z, _, _ => (setSos (zpk2sos z)).map fun s => ⟨none, some s, some z⟩
    | none, some s, _ => (setSos s).map fun s => ⟨none, some s, none⟩
    | none, none, some (b, a) => .ok ⟨some (setBa b a), none, none⟩
    | none, none, none => .ok ⟨none, none, none⟩

/-- `is_iir` (`filter.py`, lines 445-458).  Reading `ba` without the attribute raises
AttributeError. -/
def isIir {Z : Type} (s : Stored K Z) : Except Err Bool :=
  if s.sos.isSome then .ok true
  else
    match s.ba with
    | none => .error .attributeError
    | some (_, a) => .ok (!(decide (a.length = 1 ∧ a.getD 0 0 = 1)))

/-- `order` (`filter.py`, lines 621-639); `zpkOrder` is the larger number of zeros or poles. -/
def order {Z : Type} (zpkOrder : Z → ℕ) (s : Stored K Z) : Except Err ℕ :=
  match s.zpk, s.sos, s.ba with
  | some z, _, _ => .ok (zpkOrder z)
  | none, some sos, _ =>
    .ok (sos.length * 2 - sos.countP fun r => r.getD 2 0 = 0 ∧ r.getD 5 0 = 0)
  | none, none, some (b, a) => .ok (max b.length a.length - 1)
  | none, none, none => .error .valueError

end Verif.FilterCoeffs

import Verif.Model.Helpers

/-!
# Model of the queries at one frequency

`tools.py: get_exact_value_at_frequency` and `helpers/spectrum_utilities.py: _get_exact_gain_1khz`.
Exact arithmetic; one column of values (further axes are treated alike). A division 0/0 is `none`
(nan).
-/

namespace Verif.ExactValue

variable {K : Type} [Field K] [LinearOrder K]

/-- `np.searchsorted(f, q)` (external) of a sorted array: the number of entries below `q`. -/
def searchsorted (f : List K) (q : K) : ℕ := (f.takeWhile fun v => v < q).length

/-- Division of floats where the divisor may be 0 (only used for `0 / 0` or a nonzero divisor; `inf`
is not told apart from nan). -/
def quotient (a b : K) : Option K := if b = 0 then none else some (a / b)

/-- `get_exact_value_at_frequency` (`tools.py`, lines 68-103).  The indices `ind` and `ind + 1` are
within the array for a sorted one; an index outside raises IndexError. `freqs_hz[0]` of an empty
array raises IndexError. -/
def exactValue (f y : List K) (q : K) : Except Err (Option K) :=
  if f = [] then .error .indexError
  else if ¬ (f.getD 0 0 ≤ q ∧ q ≤ f.getD (f.length - 1) 0) then .error .assertionError
  else if f.length ≠ y.length then .error .assertionError
  else if f.getD (f.length - 1) 0 = q then .ok (some (y.getD (y.length - 1) 0))
  else
    let s := searchsorted f q
    if ¬ s < f.length then .error .indexError
    else
      let ind := if q < f.getD s 0 then s - 1 else s
      if ¬ ind + 1 < f.length then .error .indexError
      else
        .ok ((quotient ((q - f.getD ind 0) * (y.getD (ind + 1) 0 - y.getD ind 0))
          (f.getD (ind + 1) 0 - f.getD ind 0)).map (· + y.getD ind 0))

/-- `_get_exact_gain_1khz` (`spectrum_utilities.py`, lines 29-57).  `np.min` of an empty array raises
ValueError; the index `-1` (an unsorted vector whose first entry is the nearest one and lies above
1 kHz) is the last entry. -/
def exactGain (f y : List K) : Except Err (Option K) :=
  if f = [] then .error .valueError
  else if ¬ ((∃ v ∈ f, v < 1000) ∧ ∃ v ∈ f, 1000 ≤ v) then .error .assertionError
  else do
    let ind ← Helpers.argmin (f.map fun v => |1000 - v|)
    let above := 1000 < f.getD ind 0
    let lower := if above then (if ind = 0 then f.length - 1 else ind - 1) else ind
    let upper := if above then ind else ind + 1
    if ¬ (upper < f.length ∧ upper < y.length ∧ lower < y.length) then .error .indexError
    else
      .ok ((quotient (y.getD upper 0 - y.getD lower 0) (f.getD upper 0 - f.getD lower 0)).map
        fun s => s * (1000 - f.getD lower 0) + y.getD lower 0)

end Verif.ExactValue

import Verif.Spec.Realtime
import Verif.Model.Mat
import Mathlib.Algebra.Order.Ring.Abs
import Mathlib.Analysis.SpecialFunctions.Log.Base

/-!
# Model of helper functions (`dsptoolbox/helpers/other.py`, `helpers/spectrum_utilities.py`)

Exact arithmetic.
-/

namespace Verif.Helpers

section nearest

variable {K : Type} [Field K] [LinearOrder K]

/-- `np.argmin`: scans the list and keeps the first smallest entry; `best` is the index and the
value found so far, `i` the index of the head of the list. -/
def argminFrom (best : ℕ × K) (i : ℕ) : List K → ℕ × K
  | [] => best
  | a :: l => argminFrom (if a < best.2 then (i, a) else best) (i + 1) l

/-- `np.argmin(v)`; an empty array raises ValueError. -/
def argmin : List K → Except Err ℕ
  | [] => .error .valueError
  | a :: l => .ok (argminFrom (0, a) 1 l).1

/-- `find_nearest_points_index_in_vector` (`other.py`, lines 9-31) for a vector of points. -/
def findNearest (points vector : List K) : Except Err (List ℕ) :=
  points.mapM fun p => argmin (vector.map fun v => |p - v|)

/-- `_toeplitz` (`other.py`, lines 44-66).  `scipy.linalg.toeplitz(c, r)` (external) has the entry
`c[i - j]` for `i ≥ j` and `r[j - i]` above the diagonal.  `np.zeros` with a negative size raises
ValueError, `h[0]` of an empty array (or `row[0]` of an empty row) IndexError. -/
def toeplitz (h : List K) (n : ℕ) : Except Err (Mat K) :=
  if n = 0 then .error .valueError
  else if h = [] then .error .indexError
  else
    let column := h ++ List.replicate (n - 1) 0
    let row := (List.replicate n (0 : K)).set 0 (h.getD 0 0)
    .ok ⟨column.length, row.length, fun i j =>
      if j ≤ i then column.getD (i - j) 0 else row.getD (j - i) 0⟩

/-- `A @ x` -/
def matVec (A : Mat K) (x : List K) (i : ℕ) : K :=
  ∑ j ∈ Finset.range A.cols, A.val i j * x.getD j 0

end nearest

/-- `_wrap_phase` (`spectrum_utilities.py`, lines 11-26) of one value; `%` of floats has the sign of
the divisor. -/
noncomputable def wrapPhase (p : ℝ) : ℝ :=
  (p + Real.pi) - 2 * Real.pi * ⌊(p + Real.pi) / (2 * Real.pi)⌋ - Real.pi

/-- The argument `mode` of `_get_next_power_2`. -/
inductive Mode where
  | closest | floor | ceil
deriving DecidableEq

/-- `int(p)`: truncation towards zero. -/
noncomputable def pyInt (p : ℝ) : ℤ := if 0 ≤ p then ⌊p⌋ else ⌈p⌉

/-- The exponent (`other.py`, lines 119-127). -/
noncomputable def exponent (p : ℝ) (mode : Mode) : ℤ :=
  match mode with
  | .closest => if p - pyInt p < 0.5 then ⌊p⌋ else ⌈p⌉
  | .floor => ⌊p⌋
  | .ceil => ⌈p⌉

/-- `_get_next_power_2` (`other.py`, lines 95-128).  `2 ** p` raises ValueError for negative
integers of numpy. -/
noncomputable def nextPower2 (x : ℝ) (mode : Mode) : Except Err ℕ :=
  if 0 < x then
    let e := exponent (Real.logb 2 x) mode
    if e < 0 then .error .valueError else .ok (2 ^ e.toNat)
  else .error .assertionError

end Verif.Helpers

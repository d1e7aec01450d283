import Verif.Spec.Realtime
import Verif.Model.Mat
import Mathlib.Algebra.Order.Field.Basic
import Mathlib.Algebra.BigOperators.Intervals
import Mathlib.Data.List.GetD

/-!
# Model of `Spectrum` (`dsptoolbox/classes/spectrum.py`)

Frequencies are elements of an ordered field; floating point is not modelled.  Methods may
raise after having changed part of the object and therefore return the object left behind
together with the exception.
-/

namespace Verif.Spectrum

variable {K D : Type} [Field K] [LinearOrder K]

/-- A spectrum: frequency vector and data with one row for each bin. -/
structure Spec (K D : Type) where
  freqs : List K
  data : Mat D

/-- `np.searchsorted(freqs, x)` for an ascending vector: the number of leading entries below
`x`. -/
def searchSorted (freqs : List K) (x : K) : ℕ := (freqs.takeWhile fun f => decide (f < x)).length

/-- `ind_low` of `__freqs_to_slice` (`spectrum.py`, lines 1035-1039 and 1049-1055).  Reading the
vector at an index behind its end raises IndexError. -/
def lowIndex (freqs : List K) (lo : Option K) (inclusive : Bool) : Except Err ℕ :=
  match lo with
  | none => .ok 0
  | some l =>
    let i := searchSorted freqs l
    if inclusive then
      if freqs.length ≤ i then .error .indexError
      else .ok (if freqs.getD i 0 = l then i else i - 1)
    else .ok (i + 1)

/-- `ind_high` of `__freqs_to_slice` (`spectrum.py`, lines 1040-1048). -/
def highIndex (freqs : List K) (hi : Option K) (inclusive : Bool) : ℕ :=
  match hi with
  | none => freqs.length
  | some u =>
    let i := searchSorted freqs u
    if inclusive then min (i + 1) freqs.length else i

/-- `__freqs_to_slice` (`spectrum.py`, lines 1028-1057). -/
def toSlice (freqs : List K) (lo hi : Option K) (inclusive : Bool) : Except Err (ℕ × ℕ) :=
  match lowIndex freqs lo inclusive with
  | .error e => .error e
  | .ok i =>
    let j := highIndex freqs hi inclusive
    if i < j then .ok (i, j) else .error .assertionError

/-- Rows `i..j-1` of the data. -/
def sliceRows (A : Mat D) (i j : ℕ) : Mat D := ⟨j - i, A.cols, fun r c => A.val (i + r) c⟩

/-- Data with fewer rows than columns is transposed (`spectrum.py`, lines 254-256). -/
def upright (A : Mat D) : Mat D := if A.rows < A.cols then A.T else A

/-- Setter of `spectral_data` (`spectrum.py`, lines 233-269) for data that is not negative or
is complex: transposed if there are fewer rows than columns, then compared to the length of
the frequency vector. -/
def setSpectral (s : Spec K D) (A : Mat D) : Spec K D × Option Err :=
  if (upright A).rows = s.freqs.length then (⟨s.freqs, upright A⟩, none)
  else (s, some .assertionError)

/-- `trim` (`spectrum.py`, lines 407-433): first the frequency vector, then the data. -/
def trim (s : Spec K D) (lo hi : Option K) (inclusive : Bool) : Spec K D × Option Err :=
  match toSlice s.freqs lo hi inclusive with
  | .error e => (s, some e)
  | .ok (i, j) =>
    let s1 : Spec K D := ⟨(s.freqs.drop i).take (j - i), s.data⟩
    setSpectral s1 (sliceRows s.data i j)

/-- `scipy.integrate.trapezoid(y, x)` of the entries `i..j-1`. -/
def trapezoid (y x : ℕ → K) (i j : ℕ) : K :=
  ∑ k ∈ Finset.Ico i (j - 1), (x (k + 1) - x k) * (y (k + 1) + y k) / 2

/-- `get_energy` (`spectrum.py`, lines 726-760); `power r c` is the squared magnitude of the
data. -/
def energy (freqs : List K) (power : ℕ → ℕ → K) (lo hi : Option K) (c : ℕ) : Except Err K :=
  match toSlice freqs lo hi true with
  | .error e => .error e
  | .ok (i, j) => .ok (trapezoid (fun k => power k c) (fun k => freqs.getD k 0) i j)

/-- `np.interp(x, xp, fp, left, right)` for ascending `xp`. -/
def interp (xp fp : List K) (left right x : K) : K :=
  if x < xp.getD 0 0 then left
  else if xp.getD (xp.length - 1) 0 < x then right
  else
    -- largest index with `xp j ≤ x`
    let j := (xp.takeWhile fun f => decide (f ≤ x)).length - 1
    if j = xp.length - 1 then fp.getD j 0
    else fp.getD j 0 + (fp.getD (j + 1) 0 - fp.getD j 0) / (xp.getD (j + 1) 0 - xp.getD j 0) *
      (x - xp.getD j 0)

end Verif.Spectrum

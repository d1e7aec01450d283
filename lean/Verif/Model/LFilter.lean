import Verif.Spec.Realtime
import Mathlib.Algebra.Field.Defs

/-!
# Model of block filtering with carried state
(`dsptoolbox/classes/filter_helpers.py`, `dsptoolbox/classes/filter.py`)
-/

namespace Verif.LFilter

variable {K : Type} [Field K]

/-- `sig.oaconvolve(x, b, mode="full")` for one channel: `len(x) + len(b) - 1` samples
(external function, modelled by its documentation). -/
def fullConv (b x : List K) : List K :=
  (List.range (x.length + b.length - 1)).map fun k =>
    ∑ m ∈ Finset.range b.length, if m ≤ k then b.getD m 0 * x.getD (k - m) 0 else 0

/-- `y[:len(zi)] += zi` for `len(zi) ≤ len(y)`. -/
def addHead (y zi : List K) : List K :=
  (List.range y.length).map fun k => y.getD k 0 + zi.getD k 0

/-- `_lfilter_fir` with `zi` for one channel (`filter_helpers.py`, lines 454-503):
returns `(y, zf)`.  An empty `x` makes `oaconvolve` return an empty one-dimensional array
and the indexing with two indices raise IndexError.  `y[-Z:]` is the whole
array for `Z = 0` and otherwise the last `Z` samples. -/
def lfilterFir (b x zi : List K) : Except Err (List K × List K) :=
  if x = [] then .error .indexError
  else
    let y := addHead (fullConv b x) zi
    .ok (y.take x.length, if zi.length = 0 then y else y.drop (y.length - zi.length))

/-- `_lfilter_fir` with `zi=None`: returns `y` only. -/
def lfilterFirNoState (b x : List K) : Except Err (List K) :=
  if x = [] then .error .indexError else .ok ((fullConv b x).take x.length)

/-- Filtering consecutive blocks, the final state of each being the initial state of
the next, as described in the property: concatenated outputs and last state. -/
def runBlocks (b : List K) : List K → List (List K) → Except Err (List K × List K)
  | zi, [] => .ok ([], zi)
  | zi, x :: xs => do
    let r ← lfilterFir b x zi
    let r' ← runBlocks b r.2 xs
    return (r.1 ++ r'.1, r'.2)

/-! ### `Filter.filter_signal(..., activate_zi=True)` with `ba` coefficients -/

/-- A filter given by `b`, `a` coefficients as seen by `filter_signal`: its order, the
vector returned by `lfilter_zi` and the block routine `(state, x) ↦ (y, new state)`. -/
structure BlockFilter (K : Type) where
  order : ℕ
  zi0 : List K
  run : List K → List K → List K × List K

/-- FIR case: `_lfilter_fir`, on nonempty blocks (`filter_helpers.py`, lines 329-330). -/
def firFilter (b zi0 : List K) : BlockFilter K where
  order := b.length - 1
  zi0 := zi0
  run := fun zi x =>
    let y := addHead (fullConv b x) zi
    (y.take x.length, y.drop (y.length - zi.length))

/-- New state vector of `scipy.signal.lfilter` (transposed direct form II, see the
documentation of scipy): `d_i' = d_{i+1} + b_{i+1} x - a_{i+1} y`. -/
def df2tState (b a : List K) (n : ℕ) (z : List K) (x y : K) : List K :=
  (List.range n).map fun i => z.getD (i + 1) 0 + b.getD (i + 1) 0 * x - a.getD (i + 1) 0 * y

/-- `scipy.signal.lfilter(b, a, x, zi)` for `a[0] = 1` (external). -/
def lfilterIIR (b a : List K) (n : ℕ) : List K → List K → List K × List K
  | z, [] => ([], z)
  | z, x :: xs =>
    let y := b.getD 0 0 * x + z.getD 0 0
    let r := lfilterIIR b a n (df2tState b a n z x y) xs
    (y :: r.1, r.2)

/-- IIR case: `scipy.signal.lfilter` (`filter_helpers.py`, lines 331-332). -/
def iirFilter (b a zi0 : List K) : BlockFilter K where
  order := max b.length a.length - 1
  zi0 := zi0
  run := lfilterIIR b a (max b.length a.length - 1)

/-- Two-dimensional array. -/
structure Arr (K : Type) where
  rows : ℕ
  cols : ℕ
  val : ℕ → ℕ → K

/-- `.T` -/
def Arr.T (A : Arr K) : Arr K := ⟨A.cols, A.rows, fun r c => A.val c r⟩

/-- Column `c` as a vector. -/
def Arr.col (A : Arr K) (c : ℕ) : List K := (List.range A.rows).map fun r => A.val r c

/-- `initialize_zi` (`filter.py`, lines 331-353): a list with one vector per channel, i.e.
(after `np.asarray`) an array of shape (channels, order). -/
def initZi (F : BlockFilter K) (nCh : ℕ) : Arr K :=
  ⟨nCh, F.order, fun _ r => F.zi0.getD r 0⟩

/-- `filter_signal(block, activate_zi=True)` for a filter with `ba` coefficients and all
channels selected (`filter.py`, lines 701-743, `filter_helpers.py`, lines 336-382).
`zi` is the attribute `zi` of the filter (`none` = not existing), `xs` the list of the
channels.  Note that the array `zi` of shape (order, channels) is returned and stored, not
the list `zi_new` of the vectors of the channels.  A state array of the wrong shape makes
`lfilter` raise ValueError and leaves the filter unchanged (up to a
re-initialisation). -/
def filterSignalZi (F : BlockFilter K) (zi : Option (Arr K)) (xs : List (List K)) :
    Except Err (List (List K)) × Option (Arr K) :=
  let n := xs.length
  let zi1 := match zi with
    | none => initZi F n
    | some z => if z.rows = n then z else initZi F n
  let z := zi1.T
  if z.rows = F.order ∧ z.cols = n then
    let res := fun c => F.run (z.col c) (xs.getD c [])
    (.ok ((List.range n).map fun c => (res c).1),
      some ⟨F.order, n, fun r c => (res c).2.getD r 0⟩)
  else (.error .valueError, some zi1)

/-- A sequence of calls; the results in order, and the attribute `zi` left. -/
def stream (F : BlockFilter K) : Option (Arr K) → List (List (List K)) →
    List (Except Err (List (List K))) × Option (Arr K)
  | zi, [] => ([], zi)
  | zi, xs :: rest =>
    let r := filterSignalZi F zi xs
    let r' := stream F r.2 rest
    (r.1 :: r'.1, r'.2)

/-! ### `Filter.filter_signal(..., activate_zi=True)` with second-order sections -/

/-- Filter with second-order sections: number of sections, the array returned by
`sosfilt_zi` (shape (sections, 2)) and `sosfilt` on one channel. -/
structure SosFilter (K : Type) where
  nSections : ℕ
  zi0 : ℕ → ℕ → K
  run : (ℕ → ℕ → K) → List K → List K × (ℕ → ℕ → K)

/-- Three-dimensional array. -/
structure Arr3 (K : Type) where
  d0 : ℕ
  d1 : ℕ
  d2 : ℕ
  val : ℕ → ℕ → ℕ → K

/-- `np.moveaxis(A, 0, -1)` -/
def Arr3.moveFirstToLast (A : Arr3 K) : Arr3 K :=
  ⟨A.d1, A.d2, A.d0, fun i j k => A.val k i j⟩

/-- `initialize_zi` (`filter.py`, lines 346-348): shape (channels, sections, 2). -/
def initZiSos (F : SosFilter K) (nCh : ℕ) : Arr3 K :=
  ⟨nCh, F.nSections, 2, fun _ i j => F.zi0 i j⟩

/-- `filter_signal(block, activate_zi=True)` for a filter with second-order sections
(`filter.py`, lines 701-743, `filter_helpers.py`, lines 244-284).  The array of shape
(sections, 2, channels) is returned and stored; `sosfilt` raises ValueError if `zi` does
not have the shape (sections, 2, channels). -/
def filterSignalZiSos (F : SosFilter K) (zi : Option (Arr3 K)) (xs : List (List K)) :
    Except Err (List (List K)) × Option (Arr3 K) :=
  let n := xs.length
  let zi1 := match zi with
    | none => initZiSos F n
    | some z => if z.d0 = n then z else initZiSos F n
  let z := zi1.moveFirstToLast
  if z.d0 = F.nSections ∧ z.d1 = 2 ∧ z.d2 = n then
    let res := fun c => F.run (fun i j => z.val i j c) (xs.getD c [])
    (.ok ((List.range n).map fun c => (res c).1),
      some ⟨F.nSections, 2, n, fun i j c => (res c).2 i j⟩)
  else (.error .valueError, some zi1)

/-- A sequence of calls. -/
def streamSos (F : SosFilter K) : Option (Arr3 K) → List (List (List K)) →
    List (Except Err (List (List K))) × Option (Arr3 K)
  | zi, [] => ([], zi)
  | zi, xs :: rest =>
    let r := filterSignalZiSos F zi xs
    let r' := streamSos F r.2 rest
    (r.1 :: r'.1, r'.2)

end Verif.LFilter

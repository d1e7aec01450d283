import Verif.Model.Helpers
import Verif.Model.CrestFactor
import Mathlib.Analysis.Complex.Basic
import Mathlib.Algebra.BigOperators.Group.Finset.Basic

/-!
# Room modes from measurements (`room_acoustics.py`: `find_modes`, `_room_acoustics.py`:
`_complex_mode_identification`)

Exact arithmetic.  The spectra of the responses, padded or trimmed to one second, are an argument
(`pad_trim`: see `Model/PadTrim`).
-/

namespace Verif.RoomModes

open Finset

/-- `H` at one frequency (`_room_acoustics.py`, lines 148-151): the response of channel `n` in row 0 and
in column 0, zeros elsewhere. -/
noncomputable def transferMatrix (h : ℕ → ℂ) (i j : ℕ) : ℂ := if i = 0 then h j else if j = 0 then h i else 0

/-- Euclidean norm of `n` numbers. -/
noncomputable def norm2 (n : ℕ) (x : ℕ → ℂ) : ℝ := √(∑ i ∈ range n, ‖x i‖ ^ 2)

/-- Largest singular value of an `n x n` matrix (`np.linalg.svd(...).max()`, external): the largest
norm of the image of a vector in the unit ball. -/
noncomputable def largestSV (n : ℕ) (A : ℕ → ℕ → ℂ) : ℝ :=
  sSup {r | ∃ x : ℕ → ℂ, norm2 n x ≤ 1 ∧ r = norm2 n fun i => ∑ j ∈ range n, A i j * x j}

/-- `_complex_mode_identification` at one frequency (`_room_acoustics.py`, lines 118-160). -/
noncomputable def indicator (n : ℕ) (h : ℕ → ℂ) : ℝ :=
  if n = 1 then ‖h 0‖ ^ 2 else largestSV n (transferMatrix h)

/-- `to_db(x, False)` with its default limit (`helpers/gain_and_level.py`, lines 158-200). -/
noncomputable def powerDb (x : ℝ) : ℝ := 10 * Real.logb 10 (max |x| Level.tiny)

/-- Local maximum of `N` values as found by `scipy.signal.find_peaks` (external): the middle of a
plateau with smaller values on both sides. -/
def LocalMax (N : ℕ) (y : ℕ → ℝ) (i : ℕ) : Prop :=
  ∃ l r, l < i ∧ i < r ∧ r < N ∧ i = (l + r) / 2 ∧ (∀ k, l < k → k < r → y k = y i) ∧ y l < y i ∧ y r < y i

/-- Selection by distance in `find_peaks`: in order of priority, a peak is kept unless a peak kept
before is nearer than `d`. -/
def select (d : ℕ) (peaks : List ℕ) : List ℕ :=
  peaks.foldl (fun kept p => if ∀ q ∈ kept, q + d ≤ p ∨ p + d ≤ q then p :: kept else kept) []

/-- Walk away from a peak of height `p` while no value is higher, keeping the lowest value. -/
noncomputable def lowest (p : ℝ) : List ℝ → ℝ → ℝ
  | [], m => m
  | v :: vs, m => if v ≤ p then lowest p vs (min m v) else m

/-- Prominence of a peak (`scipy.signal.peak_prominences`, external). -/
noncomputable def prominence (N : ℕ) (y : ℕ → ℝ) (i : ℕ) : ℝ :=
  let left := ((List.range (i + 1)).map y).reverse
  let right := ((List.range N).map y).drop i
  y i - max (lowest (y i) left (y i)) (lowest (y i) right (y i))

open Classical in
/-- `find_peaks(y, distance=d, prominence=prom)` (external): local maxima, selection by distance with the
higher ones (of equal ones the later) first, selection by prominence. -/
noncomputable def findPeaks (N : ℕ) (y : ℕ → ℝ) (d : ℕ) (prom : Option ℝ) : List ℕ :=
  let peaks := (List.range N).filter fun i => decide (LocalMax N y i)
  let kept := select d (peaks.reverse.mergeSort fun i j => decide (y j ≤ y i))
  (List.range N).filter fun i => decide (i ∈ kept ∧ ∀ p ∈ prom, p ≤ prominence N y i)

open Classical in
/-- `find_modes` (`room_acoustics.py`, lines 140-213) from the spectrum on (line 188), for the values
`sp k c` of channel `c` at `k` Hz and the sampling rate `fs`: a response of one second has the
frequencies 0, 1, ..., `fs / 2` Hz, so that `df = 1`.  With antiresonances, spectra that are 0 somewhere
(`inf`, `nan`) are not modelled. -/
noncomputable def findModes (fs ch : ℕ) (sp : ℕ → ℕ → ℂ) (lo hi dist : ℝ) (prom : Option ℝ) (anti : Bool) :
    Except Err (List ℕ) :=
  match Helpers.findNearest [lo, hi] ((List.range (fs / 2 + 1)).map fun (k : ℕ) => (k : ℝ)) with
  | .error e => .error e
  | .ok ids =>
    let i0 := ids.getD 0 0
    let N := ids.getD 1 0 - i0
    if N < 2 then .error .indexError
    else if anti ∧ ∃ k < N, ∃ c < ch, sp (i0 + k) c = 0 then .error .notImplemented
    else
      let cmif := fun k => indicator ch fun c => if anti then 1 / sp (i0 + k) c else sp (i0 + k) c
      let d := max 1 ⌈dist⌉.toNat
      .ok ((findPeaks N (fun k => powerDb (cmif k)) d prom).map (i0 + ·))

end Verif.RoomModes

import Verif.Model.ExactValue
import Mathlib.Analysis.SpecialFunctions.Pow.Real
import Mathlib.Analysis.SpecialFunctions.Log.Base
import Mathlib.Analysis.SpecialFunctions.Trigonometric.Basic
import Mathlib.Data.Sign.Defs
import Mathlib.Algebra.Order.Floor.Semiring

/-!
# Model of the fractional octave smoothing (`helpers/smoothing.py: _fractional_octave_smoothing`)

Exact real arithmetic; one column (the columns are treated alike). `num_fractions` is positive, a
given spacing as well. The interpolations of scipy are modelled by their formulas.
-/

namespace Verif.OctaveSmoothing

/-- The argument `window_type` (as the function that gives the symmetric window of a length) or
`window_vec`. -/
inductive Win where
  | type (w : ℕ → List ℝ)
  | vec (w : List ℝ)

/-- `get_window('hann', n, fftbins=False)` of scipy. -/
noncomputable def hann (n : ℕ) : List ℝ :=
  if n = 1 then [1]
  else (List.range n).map fun (i : ℕ) => 0.5 - 0.5 * Real.cos (2 * Real.pi * i / (n - 1))

/-- `k_log` (`smoothing.py`, line 62) -/
noncomputable def logGrid (N l : ℕ) : ℝ := (N : ℝ) ^ ((l : ℝ) / ((N : ℝ) - 1))

/-- Differences of neighbours. -/
def slope (y : ℕ → ℝ) (k : ℕ) : ℝ := y (k + 1) - y k

/-- Derivative of `PchipInterpolator` (scipy) at an inner point with slopes `a` and `b` on the two
sides, for points at distance 1: harmonic mean, or 0 at an extremum. -/
noncomputable def inner (a b : ℝ) : ℝ :=
  if SignType.sign a ≠ SignType.sign b ∨ a = 0 ∨ b = 0 then 0 else 1 / ((3 / a + 3 / b) / 6)

/-- Derivative of `PchipInterpolator` at an end: slopes of the first and second interval from the
end. -/
noncomputable def edge (a b : ℝ) : ℝ :=
  let d := (3 * a - b) / 2
  if SignType.sign d ≠ SignType.sign a then 0
  else if SignType.sign a ≠ SignType.sign b ∧ |d| > 3 * |a| then 3 * a
  else d

/-- All derivatives for `N ≥ 2` points. -/
noncomputable def deriv (N : ℕ) (y : ℕ → ℝ) (k : ℕ) : ℝ :=
  if N = 2 then slope y 0
  else if k = 0 then edge (slope y 0) (slope y 1)
  else if k = N - 1 then edge (slope y (N - 2)) (slope y (N - 3))
  else inner (slope y (k - 1)) (slope y k)

/-- `PchipInterpolator(l1, vector)(x)` with the points 1, ..., N: cubic Hermite interpolation. -/
noncomputable def pchip (N : ℕ) (y : ℕ → ℝ) (x : ℝ) : ℝ :=
  let i := min (⌊x⌋₊ - 1) (N - 2)
  let t := x - (i + 1)
  y i * (1 - t) ^ 2 * (1 + 2 * t) + deriv N y i * t * (1 - t) ^ 2 +
    y (i + 1) * t ^ 2 * (3 - 2 * t) - deriv N y (i + 1) * t ^ 2 * (1 - t)

/-- `interp1d(x, y, kind="linear")(q)` of scipy for increasing `x` with at least two entries and `q`
in its range. -/
noncomputable def interpLinear (x y : List ℝ) (q : ℝ) : ℝ :=
  let hi := min (max (ExactValue.searchsorted x q) 1) (x.length - 1)
  let lo := hi - 1
  (y.getD hi 0 - y.getD lo 0) / (x.getD hi 0 - x.getD lo 0) * (q - x.getD lo 0) + y.getD lo 0

/-- The length of the window (`smoothing.py`, lines 72-73). -/
noncomputable def windowLength (fractions : ℕ) (beta : ℝ) : ℕ :=
  let n := ⌊1 / (fractions * beta) + 0.5⌋₊
  n + (1 - n % 2)

/-- `np.pad(vector, (h, h), mode="edge")` of a vector with `n` entries. -/
def pad (h n : ℕ) (v : ℕ → ℝ) (i : ℕ) : ℝ := v (min (i - h) (n - 1))

/-- Sample `t` of the full convolution of `w` with the `P` samples of `p`. -/
noncomputable def full (w : List ℝ) (P : ℕ) (p : ℕ → ℝ) (t : ℕ) : ℝ :=
  ∑ j ∈ Finset.range w.length, w.getD j 0 * if j ≤ t ∧ t - j < P then p (t - j) else 0

/-- `oaconvolve(p, w, mode="valid")` of scipy. -/
noncomputable def valid (w : List ℝ) (P : ℕ) (p : ℕ → ℝ) : List ℝ :=
  (List.range (max P w.length - min P w.length + 1)).map fun i =>
    full w P p (min P w.length - 1 + i)

/-- The window (lines 76-92). -/
def windowOf (w : Win) (n : ℕ) : List ℝ :=
  match w with
  | .type w => w n
  | .vec w => w

/-- `window /= window.sum()` (line 101) of a window that is not empty -/
noncomputable def normalised (w : List ℝ) : List ℝ := w.map (· / w.sum)

/-- `_fractional_octave_smoothing` (`smoothing.py`, lines 9-129).  `spacing` is
`bin_spacing_octaves`.  A single value on the linear grid raises IndexError (`k_log[1]`), `np.pad` of
an empty vector ValueError, `interp1d` with other lengths ValueError.  A window with the sum 0
gives nan (`none`).  The second component is the content of the array `window` at the end, which for
`window_vec` is the array of the caller, because line 101 divides in place. -/
noncomputable def smooth (v : List ℝ) (spacing : Option ℝ) (fractions : ℕ) (win : Win)
    (clip : Bool) : Except Err (Option (List ℝ) × List ℝ) :=
  let N := v.length
  let finish := fun (l : List ℝ) => if clip then l.map fun x => max x 0 else l
  match spacing with
  | none =>
    if N < 2 then .error .indexError
    else
      let n := windowLength fractions (Real.logb 2 (logGrid N 1))
      let w := windowOf win n
      let u := fun k => pchip N (fun i => v.getD i 0) (logGrid N k)
      let s := valid (normalised w) (N + 2 * (n / 2)) (pad (n / 2) N u)
      if s.length ≠ N then .error .valueError
      else if w.sum = 0 then .ok (none, normalised w)
      else .ok (some (finish ((List.range N).map fun (i : ℕ) =>
        interpLinear ((List.range N).map (logGrid N)) s (i + 1))), normalised w)
  | some beta =>
    if N = 0 then .error .valueError
    else
      let n := windowLength fractions beta
      let w := windowOf win n
      let s := valid (normalised w) (N + 2 * (n / 2)) (pad (n / 2) N fun i => v.getD i 0)
      if w.sum = 0 then .ok (none, normalised w) else .ok (some (finish s), normalised w)

end Verif.OctaveSmoothing

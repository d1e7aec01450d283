import Verif.Spec.Realtime
import Mathlib.Analysis.SpecialFunctions.Pow.Real
import Mathlib.Analysis.SpecialFunctions.Log.Base
import Mathlib.Data.Sign.Defs
import Mathlib.Algebra.Order.Floor.Ring

/-!
# Model of the frequency grids

`tools.py: log_frequency_vector, fractional_octave_frequencies, erb_frequencies`,
`standard/_standard_backend.py: _center_frequencies_fractional_octaves_iec,
_exact_center_frequencies_fractional_octaves` and `helpers/other.py:
_get_fractional_octave_bandwidth`. Exact real arithmetic; the limits of fractional octaves and of the
logarithmic vector are positive.
-/

namespace Verif.FrequencyGrids

/-- `np.around`: the nearest integer, of two the even one. -/
noncomputable def around (x : ℝ) : ℤ :=
  if x - ⌊x⌋ < 1 / 2 then ⌊x⌋
  else if 1 / 2 < x - ⌊x⌋ then ⌊x⌋ + 1
  else if ⌊x⌋ % 2 = 0 then ⌊x⌋ else ⌊x⌋ + 1

/-- `np.arange(a, b)` for integers. -/
def arange (a b : ℤ) : List ℤ := (List.range (b - a).toNat).map fun (k : ℕ) => a + k

/-- `log_frequency_vector` (`tools.py`, lines 42-65); `np.arange(0, x, step)` has `ceil(x / step)`
entries, `1 / 0` raises ZeroDivisionError. -/
noncomputable def logVector (f0 f1 : ℝ) (n : ℕ) : Except Err (List ℝ) :=
  if ¬ 0 < f0 then .error .assertionError
  else if n = 0 then .error .zeroDivision
  else
    let octaves := Real.logb 2 (f1 / f0)
    .ok ((List.range ⌈octaves / (1 / n)⌉₊).map fun (k : ℕ) => f0 * 2 ^ ((k : ℝ) * (1 / n)))

/-- The nominal frequencies (`_standard_backend.py`, lines 157-196). -/
noncomputable def nominal (b : ℕ) : List ℝ :=
  if b = 1 then [31.5, 63, 125, 250, 500, 1000, 2000, 4000, 8000, 16000]
  else [25, 31.5, 40, 50, 63, 80, 100, 125, 160, 200, 250, 315, 400, 500, 630, 800, 1000, 1250, 1600,
    2000, 2500, 3150, 4000, 5000, 6300, 8000, 10000, 12500, 16000, 20000]

/-- `octave_ratio` -/
noncomputable def octaveRatio : ℝ := 10 ^ ((3 : ℝ) / 10)

/-- The exact frequency for a nominal one (`_standard_backend.py`, lines 198-221) with an odd number
of fractions (only 1 and 3 are used). -/
noncomputable def exactOf (b : ℕ) (f : ℝ) : ℝ :=
  1000 * octaveRatio ^ ((around (b * Real.log (f / 1000) / Real.log octaveRatio) : ℝ) / b)

/-- `_exact_center_frequencies_fractional_octaves` (`_standard_backend.py`, lines 225-256). -/
noncomputable def exactCentres (b : ℕ) (lo hi : ℝ) : List ℝ :=
  let nmax := around (b * Real.logb 2 (hi / 1000))
  let nmin := around (b * Real.logb 2 (1000 / lo))
  (arange (-nmin) (nmax + 1)).map fun (k : ℤ) => 1000 * 2 ^ ((k : ℝ) / b)

open Classical in
/-- `fractional_octave_frequencies` (`tools.py`, lines 186-258) for a positive number of fractions:
nominal and exact frequencies. -/
noncomputable def octaveFrequencies (b : ℕ) (range : List ℝ) :
    Except Err (List ℝ × List ℝ) :=
  match range with
  | [lo, hi] =>
    if hi < lo then .error .valueError
    else if b = 1 ∨ b = 3 then
      let m := (nominal b).filter fun f => lo ≤ f ∧ f ≤ hi
      .ok (m, m.map (exactOf b))
    else .ok ([], exactCentres b lo hi)
  | _ => .error .valueError

/-- The limits of the bands (`tools.py`, lines 250-255). -/
noncomputable def lowerEdge (b : ℕ) (f : ℝ) : ℝ := f * octaveRatio ^ (-1 / 2 / (b : ℝ))

/-- The limits of the bands (`tools.py`, lines 250-255). -/
noncomputable def upperEdge (b : ℕ) (f : ℝ) : ℝ := f * octaveRatio ^ (1 / 2 / (b : ℝ))

/-- From Hz to the ERB scale (`tools.py`, lines 315-323). -/
noncomputable def toErb (f : ℝ) : ℝ := 9.2645 * SignType.sign f * Real.log (1 + |f| * 0.00437)

/-- From the ERB scale to Hz (`tools.py`, lines 331-334). -/
noncomputable def fromErb (e : ℝ) : ℝ := 1 / 0.00437 * SignType.sign e * (Real.exp (|e| / 9.2645) - 1)

/-- `erb_frequencies` (`tools.py`, lines 261-336). -/
noncomputable def erbFrequencies (range : List ℝ) (resolution reference : ℝ) :
    Except Err (List ℝ) :=
  match range with
  | [a, b] =>
    let r := if b < a then (b, a) else (a, b)
    if resolution ≤ 0 then .error .valueError
    else
      let n0 := ⌊(toErb reference - toErb r.1) / resolution⌋
      let n1 := ⌊(toErb r.2 - toErb reference) / resolution⌋
      .ok ((arange (-n0) (n1 + 1)).map fun (k : ℤ) => fromErb (k * resolution + toErb reference))
  | _ => .error .valueError

/-- `_get_fractional_octave_bandwidth` (`other.py`, lines 156-178). -/
noncomputable def bandwidth (fc : ℝ) (fraction : ℕ) : ℝ × ℝ :=
  if fraction = 0 then (fc, fc)
  else (fc * 2 ^ (-1 / (fraction : ℝ) / 2), fc * 2 ^ (1 / (fraction : ℝ) / 2))

end Verif.FrequencyGrids

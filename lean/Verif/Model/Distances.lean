import Mathlib.Analysis.SpecialFunctions.Log.Base
import Mathlib.Analysis.SpecialFunctions.Sqrt

/-!
# Model of the distance measures (`distances/_distances.py`, `distances/distances.py`)

Spectra are functions on the bins `0, ..., N - 1`, with real values.
-/

namespace Verif.Distances

open Finset

/-- Weight of point `i` in the composite rule of Simpson over an odd number `M` of points. -/
noncomputable def baseWeight (M i : ℕ) : ℝ :=
  if M ≤ 1 ∨ M ≤ i then 0
  else if i = 0 ∨ i + 1 = M then 1 / 3
  else if i % 2 = 1 then 4 / 3
  else 2 / 3

/-- Weight of point `i` of `N` equally spaced points in `scipy.integrate.simpson`: the composite
rule for an odd number of points; for an even number the composite rule over all but the last
point, and the correction of Cartwright for the last interval; the trapezoid for two points. -/
noncomputable def weight (N i : ℕ) : ℝ :=
  if N % 2 = 1 then baseWeight N i
  else if N = 2 then 1 / 2
  else baseWeight (N - 1) i +
    (if i + 1 = N then 5 / 12 else if i + 2 = N then 2 / 3 else if i + 3 = N then -1 / 12 else 0)

/-- `simpson(y, x=f)` for `N` bins with spacing `df` (the frequency vectors are equally spaced). -/
noncomputable def simpson (N : ℕ) (df : ℝ) (y : ℕ → ℝ) : ℝ :=
  df * ∑ i ∈ range N, weight N i * y i

/-- `_log_spectral_distance` (`_distances.py`, lines 13-36). -/
noncomputable def logSpectral (N : ℕ) (df : ℝ) (x y : ℕ → ℝ) : ℝ :=
  √(simpson N df fun i => (10 * Real.logb 10 (x i / y i)) ^ 2)

/-- `_itakura_saito_measure` (`_distances.py`, lines 39-61). -/
noncomputable def itakuraSaito (N : ℕ) (df : ℝ) (x y : ℕ → ℝ) : ℝ :=
  simpson N df fun i => x i / y i - Real.logb 10 (x i / y i) - 1

/-- The slice `[i0 : i1]` of a spectrum and its energy normalization (`distances.py`, lines 91-103
and 177-189). -/
noncomputable def observed (norm : Bool) (i0 i1 : ℕ) (p : ℕ → ℝ) : ℕ → ℝ :=
  fun i => if norm then p (i0 + i) / ∑ j ∈ range (i1 - i0), p (i0 + j) else p (i0 + i)

/-- `log_spectral` for one channel, from the power spectra and the indices of the frequency range
(`distances.py`, lines 91-105). -/
noncomputable def logSpectralBand (norm : Bool) (i0 i1 : ℕ) (df : ℝ) (p q : ℕ → ℝ) : ℝ :=
  logSpectral (i1 - i0) df (observed norm i0 i1 p) (observed norm i0 i1 q)

/-- `itakura_saito` for one channel (`distances.py`, lines 177-191). -/
noncomputable def itakuraSaitoBand (norm : Bool) (i0 i1 : ℕ) (df : ℝ) (p q : ℕ → ℝ) : ℝ :=
  itakuraSaito (i1 - i0) df (observed norm i0 i1 p) (observed norm i0 i1 q)

/-- `s @ t` for signals of `n` samples. -/
def dot (n : ℕ) (s t : ℕ → ℝ) : ℝ := ∑ i ∈ range n, s i * t i

/-- `_sisdr` (`_distances.py`, lines 83-101); `none` where the code divides by zero or takes the
logarithm of zero (nan, inf or -inf). -/
noncomputable def sisdr (n : ℕ) (s t : ℕ → ℝ) : Option ℝ :=
  if dot n s s = 0 then none
  else
    let α := dot n s t / dot n s s
    let num := ∑ i ∈ range n, (α * s i) ^ 2
    let den := ∑ i ∈ range n, (α * s i - t i) ^ 2
    if num = 0 ∨ den = 0 then none else some (10 * Real.logb 10 (num / den))

/-- Clamping of one frame and mean over the frames in `_fw_snr_seg_per_channel`
(`_distances.py`, lines 181-195); `range_db` is sorted before (`distances.py`, line 351). -/
noncomputable def segmental (lo hi : ℝ) (frames : List ℝ) : ℝ :=
  (frames.map fun v =>
    let v := if v < lo then lo else v
    if v > hi then hi else v).sum / frames.length

end Verif.Distances

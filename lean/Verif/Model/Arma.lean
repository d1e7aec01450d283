import Verif.Model.AR
import Verif.Model.DFT
import Verif.Model.FilterCoeffs

/-!
# Model of the approximation of impulse responses by autoregressive moving-average filters

`filterbanks/_filterbank.py: __ma_parameters, arma` (lines 1507-1644).  Exact arithmetic; `scipy.linalg.lstsq` is a function of
the numbers of rows and columns, the matrix, the target and `cond`.
-/

namespace Verif.Arma

open Finset

/-- `scipy.linalg.lstsq(M, t, cond)[0]` -/
abbrev Solver := (rows cols : ℕ) → (ℕ → ℕ → ℝ) → (ℕ → ℝ) → Option ℝ → List ℝ

/-- The value of `c` at the frequency `w` of `scipy.signal.freqz`. -/
noncomputable def response (c : List ℝ) (w : ℝ) : ℂ :=
  ∑ j ∈ range c.length, (c.getD j 0 : ℂ) * Complex.exp (-(w * j : ℝ) * Complex.I)

/-- The frequencies of `freqz(worN=length, include_nyquist=...)` (lines 1541-1549):
`np.linspace(0, pi, length, endpoint=include_nyquist)`. -/
noncomputable def grid (N k : ℕ) : ℝ :=
  let length := N / 2 + 1
  if N % 2 = 0 then Real.pi * k / (length - 1 : ℕ) else Real.pi * k / length

/-- `A[k, n]` (lines 1543-1549). -/
noncomputable def entry (a : List ℝ) (N k n : ℕ) : ℂ :=
  response (List.replicate n 0 ++ [1]) (grid N k) / response a (grid N k)

/-- `__ma_parameters` (lines 1507-1561).  A denominator that is zero at a frequency, which gives inf, is excluded in the
theorems. -/
noncomputable def maParameters (lstsq : Solver) (x : List ℝ) (order : ℕ) (a : List ℝ) (cutoff : ℝ) : Except Err (List ℝ) :=
  if ¬ (0 ≤ cutoff ∧ cutoff < 1) then .error .assertionError
  else
    let N := x.length
    let L := N / 2 + 1
    let spec := DFT.rfft N fun n => x.getD n 0
    .ok (lstsq (L + L) (order + 1)
      (fun i j => if i < L then (entry a N i j).re else (entry a N (i - L) j).im)
      (fun i => if i < L then (spec i).re else (spec (i - L)).im)
      (if cutoff = 0 then none else some cutoff))

/-- `arma` (lines 1625-1644): the coefficients of the returned filter. -/
noncomputable def arma (lstsq : Solver) (eps : ℝ) (channels : ℕ) (x : List ℝ) (orderA orderB : ℤ) (method : String)
    (cutoff : ℝ) : Except Err (List ℝ × List ℝ) :=
  if channels ≠ 1 then .error .assertionError
  else if ¬ 1 ≤ orderA then .error .assertionError
  else if ¬ 0 ≤ orderB then .error .assertionError
  else if ¬ orderA < x.length then .error .assertionError
  else do
    let (a, _) ←
      if method.toLower = "yule-walker" then AR.yuleWalker x orderA.toNat
      else if method.toLower = "burg" then AR.burg eps x orderA.toNat false
      else throw .valueError
    let b ← if 0 < orderB then maParameters lstsq x orderB.toNat a cutoff else pure [1]
    pure (FilterCoeffs.setBa b a)

end Verif.Arma

import Mathlib.Analysis.SpecialFunctions.Trigonometric.Basic
import Mathlib.Analysis.Complex.Exponential
import Mathlib.Algebra.BigOperators.Group.Finset.Basic

/-!
# The discrete Fourier transforms of `scipy.fft` / `numpy.fft`

`rfft`, `irfft` are external (compiled) functions; they are modelled by the formulas of
their documentation, in exact arithmetic.  Signals and spectra are functions on indices
together with a length.
-/

namespace Verif.DFT

open Complex

/-- `exp(2πi k / N)`. -/
noncomputable def e (N : ℕ) (k : ℤ) : ℂ := Complex.exp (2 * Real.pi * I * (k / N))

/-- The discrete Fourier transform of the first `N` samples. -/
noncomputable def dft (N : ℕ) (x : ℕ → ℂ) (k : ℕ) : ℂ :=
  ∑ n ∈ Finset.range N, x n * e N (-(k * n))

/-- `rfft(x, n=N)` of a real signal (zero-padded or trimmed to `N` samples): the bins
`0, ..., N // 2` of the transform; `rfftBins N` is their number. -/
noncomputable def rfft (N : ℕ) (x : ℕ → ℝ) (k : ℕ) : ℂ := dft N (fun n => (x n : ℂ)) k

/-- Number of bins of `rfft`. -/
def rfftBins (N : ℕ) : ℕ := N / 2 + 1

/-- Number of samples returned by `irfft(X)` (without `n=`) for `M` bins. -/
def irfftLen (M : ℕ) : ℕ := 2 * (M - 1)

/-- The full spectrum of length `n` (even) that `irfft` assumes for the bins `X`: the
imaginary parts of the bins `0` and `n/2` are ignored, the upper half is the mirrored
conjugate. -/
noncomputable def herm (n : ℕ) (X : ℕ → ℂ) (k : ℕ) : ℂ :=
  if k = 0 then ((X 0).re : ℂ)
  else if k < n / 2 then X k
  else if k = n / 2 then ((X k).re : ℂ)
  else (starRingEnd ℂ) (X (n - k))

/-- Sample `j` of `irfft(X, n)` for even `n`. -/
noncomputable def irfft (n : ℕ) (X : ℕ → ℂ) (j : ℕ) : ℝ :=
  ((∑ k ∈ Finset.range n, herm n X k * e n (k * j)) / n).re

end Verif.DFT

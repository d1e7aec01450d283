import Verif.Model.Mat
import Mathlib.Analysis.SpecialFunctions.Trigonometric.Basic
import Mathlib.Analysis.Complex.Exponential
import Mathlib.Algebra.BigOperators.Group.Finset.Basic

/-! Specification of what deconvolution should return. -/

namespace Verif.DeconvSpec

open Finset

/-- Sample `j` of channel `c`; zero behind the end. -/
def sample (A : Mat ℝ) (c j : ℕ) : ℝ := if j < A.rows then A.val j c else 0

/-- Bin `k` of the discrete Fourier transform of `n` samples. -/
noncomputable def bin (n : ℕ) (x : ℕ → ℝ) (k : ℕ) : ℂ :=
  ∑ j ∈ range n, (x j : ℂ) * Complex.exp (-(2 * Real.pi * Complex.I * k * j / n))

/-- `y` is the circular convolution of `x` and `h` with period `n`. -/
def Circular (n : ℕ) (x h y : ℕ → ℝ) : Prop :=
  ∀ j < n, y j = ∑ m ∈ range n, h m * x ((j + n - m) % n)

/-- The first `n` samples of `y` are those of the convolution of `x` and `h`. -/
def Linear (n : ℕ) (x h y : ℕ → ℝ) : Prop :=
  ∀ j < n, y j = ∑ m ∈ range (j + 1), h m * x (j - m)

end Verif.DeconvSpec

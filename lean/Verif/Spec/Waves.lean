import Mathlib.Analysis.SpecialFunctions.Trigonometric.Basic

/-!
# Fourier coefficients of the ideal waves with peak 1

The odd waves: `x(t) = ∑ h, amplitude h * sin (h t)`.
-/

namespace Verif.Waves

/-- The square wave. -/
noncomputable def square (h : ℕ) : ℝ := if h % 2 = 1 then 4 / (Real.pi * h) else 0

/-- The rising sawtooth. -/
noncomputable def sawtooth (h : ℕ) : ℝ := if h % 2 = 1 then 2 / (Real.pi * h) else -(2 / (Real.pi * h))

/-- The triangle. -/
noncomputable def triangle (h : ℕ) : ℝ :=
  if h % 4 = 1 then 8 / (Real.pi * h) ^ 2 else if h % 4 = 3 then -(8 / (Real.pi * h) ^ 2) else 0

/-- The sine. -/
def sine (h : ℕ) : ℝ := if h = 1 then 1 else 0

/-- A gain curve over `N` samples that stays between 0 and 1 and is 1 except on `l` samples at either
end. -/
structure Envelope (N l : ℕ) (e : ℕ → ℝ) : Prop where
  range : ∀ i < N, 0 ≤ e i ∧ e i ≤ 1
  middle : ∀ i < N, l ≤ i → l ≤ N - 1 - i → e i = 1

end Verif.Waves

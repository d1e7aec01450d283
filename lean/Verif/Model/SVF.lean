import Verif.Spec.Channels
import Mathlib.Algebra.Field.Defs
import Mathlib.Analysis.SpecialFunctions.Trigonometric.Basic

/-!
# Model of `StateVariableFilter` (`dsptoolbox/classes/sv_filter.py`, lines 18-96)
-/

namespace Verif.SVF

/-- The four returned values (`sv_filter.py`, line 96), in this order. -/
structure Outputs (K : Type) where
  low : K
  high : K
  band : K
  allpass : K

section
variable {K : Type} [Field K]

/-- `intermediate_value` (`sv_filter.py`, line 67). -/
def intermediate (g R : K) : K := 1 / (1 + R * g + g ^ 2)

/-- `process_sample` on one column of `state` (`sv_filter.py`, lines 77-96):
`s` is `(state[0, channel], state[1, channel])`. -/
def step (g R : K) (s : K × K) (x : K) : Outputs K × (K × K) :=
  let yh := (x - (R + g) * s.1 - s.2) * intermediate g R
  let yb := g * yh + s.1
  let s0 := g * yh + yb
  let yl := g * yb + s.2
  let s1 := g * yb + yl
  (⟨yl, yh, yb, yl - R * yb + yh⟩, (s0, s1))

/-- The object with parameters `g`, `R`: `set_n_channels` asserts a positive number
(`sv_filter.py`, lines 70-73), `reset_state` zeroes the state (lines 75-77). -/
def filter (g R : K) : RTFilter K (Outputs K) :=
  (Column.lift ⟨K × K, (0, 0), step g R⟩).positiveChannels

end

/-- `set_parameters` (`sv_filter.py`, lines 64-67): the assertion on the cutoff and
the computed `g` (the sampling rate is a positive integer). -/
noncomputable def gain (fs : ℕ) (f : ℝ) : Except Err ℝ :=
  if 0 < f ∧ f < ((fs / 2 : ℕ) : ℝ) then .ok (Real.tan (Real.pi * f / fs))
  else .error .assertionError

end Verif.SVF

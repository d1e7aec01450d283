import Mathlib.Analysis.SpecialFunctions.Pow.Real
import Mathlib.Analysis.SpecialFunctions.Trigonometric.Basic
import Mathlib.Analysis.SpecialFunctions.Sqrt

/-!
# Model of `_biquad_coefficients` (`dsptoolbox/classes/filter_helpers.py`, lines 16-143)

Exact arithmetic over the real numbers.
-/

namespace Verif.Biquad

/-- `BiquadEqType` (`standard/enums.py`, lines 246-276). -/
inductive EqType
  | lowpass | highpass | peaking | lowshelf | highshelf | bandpassSkirt | bandpassPeak
  | lowpassFirstOrder | highpassFirstOrder | allpassFirstOrder | allpass | notch | inverter
  deriving DecidableEq

/-- The arrays `b` and `a`. -/
structure Coeffs where
  b0 : ℝ
  b1 : ℝ
  b2 : ℝ
  a0 : ℝ
  a1 : ℝ
  a2 : ℝ

/-- The branches of the `match` (lines 48-142), in terms of the local variables `A`, `sn`,
`cs`, `alpha` and `K`. -/
noncomputable def branch (t : EqType) (A sn cs α K : ℝ) : Coeffs :=
  match t with
  | .peaking => ⟨1 + α * A, -2 * cs, 1 - α * A, 1 + α / A, -2 * cs, 1 - α / A⟩
  | .lowpass => ⟨(1 - cs) / 2 * A, (1 - cs) * A, (1 - cs) / 2 * A, 1 + α, -2 * cs, 1 - α⟩
  | .highpass => ⟨(1 + cs) / 2 * A, -1 * (1 + cs) * A, (1 + cs) / 2 * A, 1 + α, -2 * cs, 1 - α⟩
  | .bandpassSkirt => ⟨sn / 2 * A, 0, -(sn / 2 * A), 1 + α, -2 * cs, 1 - α⟩
  | .bandpassPeak => ⟨α * A, 0, -(α * A), 1 + α, -2 * cs, 1 - α⟩
  | .notch => ⟨1 * A, -2 * cs * A, 1 * A, 1 + α, -2 * cs, 1 - α⟩
  | .allpass => ⟨(1 - α) * A, -2 * cs * A, (1 + α) * A, 1 + α, -2 * cs, 1 - α⟩
  | .lowshelf =>
    ⟨A * ((A + 1) - (A - 1) * cs + 2 * Real.sqrt A * α),
      2 * A * ((A - 1) - (A + 1) * cs),
      A * ((A + 1) - (A - 1) * cs - 2 * Real.sqrt A * α),
      (A + 1) + (A - 1) * cs + 2 * Real.sqrt A * α,
      -2 * ((A - 1) + (A + 1) * cs),
      (A + 1) + (A - 1) * cs - 2 * Real.sqrt A * α⟩
  | .highshelf =>
    ⟨A * ((A + 1) + (A - 1) * cs + 2 * Real.sqrt A * α),
      -2 * A * ((A - 1) + (A + 1) * cs),
      A * ((A + 1) + (A - 1) * cs - 2 * Real.sqrt A * α),
      (A + 1) - (A - 1) * cs + 2 * Real.sqrt A * α,
      2 * ((A - 1) - (A + 1) * cs),
      (A + 1) - (A - 1) * cs - 2 * Real.sqrt A * α⟩
  | .lowpassFirstOrder => ⟨A, A, 0, 1 + K, 1 - K, 0⟩
  | .highpassFirstOrder => ⟨K * A, -K * A, 0, 1 + K, 1 - K, 0⟩
  | .allpassFirstOrder => ⟨(1 - K) * A, (1 + K) * A, 0, 1 + K, 1 - K, 0⟩
  | .inverter => ⟨A, 0, 0, 1, 0, 0⟩

/-- The variable `A` (lines 29-39). -/
noncomputable def gainFactor (t : EqType) (gain : ℝ) : ℝ :=
  if t = .peaking ∨ t = .lowshelf ∨ t = .highshelf then 10 ^ (gain / 40) else 10 ^ (gain / 20)

/-- The variable `Omega` (line 40). -/
noncomputable def omega (fs f : ℝ) : ℝ := 2 * Real.pi * (f / fs)

/-- `_biquad_coefficients` -/
noncomputable def biquad (t : EqType) (fs f gain q : ℝ) : Coeffs :=
  branch t (gainFactor t gain) (Real.sin (omega fs f)) (Real.cos (omega fs f))
    (Real.sin (omega fs f) / (2 * q)) (1 / Real.tan (omega fs f / 2))

end Verif.Biquad

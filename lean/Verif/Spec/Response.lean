import Verif.Model.Biquad
import Mathlib.Analysis.Complex.Basic
import Mathlib.Analysis.SpecialFunctions.Complex.Circle
import Mathlib.Analysis.SpecialFunctions.Trigonometric.Basic

/-! Frequency response and poles of a second order section, independent of the design. -/

namespace Verif.Biquad

/-- `c₀ + c₁ z⁻¹ + c₂ z⁻²` at `z = exp (i w)`. -/
noncomputable def poly (c0 c1 c2 w : ℝ) : ℂ :=
  c0 + c1 * Complex.exp (-(w * Complex.I)) + c2 * Complex.exp (-(w * Complex.I)) ^ 2

/-- Transfer function of the section at the normalised angular frequency `w`. -/
noncomputable def Coeffs.response (c : Coeffs) (w : ℝ) : ℂ :=
  poly c.b0 c.b1 c.b2 w / poly c.a0 c.a1 c.a2 w

/-- Its magnitude. -/
noncomputable def Coeffs.gain (c : Coeffs) (w : ℝ) : ℝ := ‖c.response w‖

/-- All poles are strictly inside the unit circle (and the recursion can be computed). -/
def Coeffs.Stable (c : Coeffs) : Prop :=
  c.a0 ≠ 0 ∧ ∀ z : ℂ, c.a0 * z ^ 2 + c.a1 * z + c.a2 = 0 → ‖z‖ < 1

end Verif.Biquad

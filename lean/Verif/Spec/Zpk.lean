import Mathlib.Data.Complex.Basic

/-!
# Digital filters given by zeros, poles and a gain
-/

namespace Verif

/-- Zeros, poles and gain. -/
structure Zpk where
  z : List ℂ
  p : List ℂ
  k : ℝ

namespace Zpk

/-- Transfer function of a causal filter `b0 + b1 z⁻¹ + … / 1 + a1 z⁻¹ + …` whose numerator and
denominator have these zeros and poles.  (Missing zeros or poles lie at the origin.) -/
noncomputable def response (F : Zpk) (z : ℂ) : ℂ :=
  F.k * z ^ ((F.p.length : ℤ) - F.z.length) * (F.z.map fun w => z - w).prod /
    (F.p.map fun w => z - w).prod

/-- Zeros and poles are real or come in conjugate pairs. -/
def Real (F : Zpk) : Prop :=
  (F.z.map (starRingEnd ℂ)).Perm F.z ∧ (F.p.map (starRingEnd ℂ)).Perm F.p

end Zpk

/-- The points `z` (at the rate `fs`) and `z'` (at the rate `fs'`) stand for the same analog
frequency: `fs (z - 1) / (z + 1) = fs' (z' - 1) / (z' + 1)`. -/
def SameAnalog (fs fs' : ℕ) (z z' : ℂ) : Prop :=
  z ≠ -1 ∧ z' ≠ -1 ∧ (fs : ℂ) * (z - 1) * (z' + 1) = fs' * (z' - 1) * (z + 1)

end Verif

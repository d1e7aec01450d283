import Mathlib.Data.Real.Basic
import Mathlib.Algebra.Order.Group.Abs

/-!
# Peak of a list of samples
-/

namespace Verif

/-- `P` is the peak magnitude of `x`: no sample exceeds it and some sample reaches it. -/
def IsPeak (x : List ℝ) (P : ℝ) : Prop := (∀ v ∈ x, |v| ≤ P) ∧ ∃ v ∈ x, |v| = P

end Verif

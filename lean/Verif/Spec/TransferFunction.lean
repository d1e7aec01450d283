import Mathlib.RingTheory.PowerSeries.Inverse
import Mathlib.Data.List.GetD

/-!
# Transfer functions as formal power series in the unit delay
-/

namespace Verif

variable {K : Type} [Field K]

/-- The z-transform `∑ x[n] z⁻ⁿ` of a finite sequence. -/
noncomputable def zseries (x : List K) : PowerSeries K := PowerSeries.mk fun n => x.getD n 0

/-- Transfer function `B / A`. -/
noncomputable def ratio (b a : List K) : PowerSeries K := zseries b * (zseries a)⁻¹

/-- Equality of the first `N` samples. -/
def AgreeUpTo (N : ℕ) (p q : PowerSeries K) : Prop :=
  ∀ n < N, PowerSeries.coeff n p = PowerSeries.coeff n q

end Verif

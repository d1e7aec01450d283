import Verif.Spec.Realtime
import Mathlib.Data.Nat.Choose.Basic
import Mathlib.Algebra.Field.Defs
import Mathlib.Algebra.Order.Ring.Defs

/-!
# Model of the allpass filter with a fractional delay

`filterbanks/filterbanks.py: fractional_delay` (lines 702-741), exact arithmetic.
-/

namespace Verif.Thiran

variable {K : Type} [Field K] [LinearOrder K]

/-- The loops of lines 737-740 for the coefficient `k`; `D` is the total delay. -/
def coeff (N : ℕ) (D : K) (k : ℕ) : K :=
  (List.range (N + 1)).foldl (fun (acc : K) (i : ℕ) => acc * ((D - N + i) / (D - N + k + i)))
    ((N.choose k : K) * if k % 2 = 1 then -1 else 1)

/-- `fractional_delay(delay, order, fs)` (lines 730-741): numerator and denominator. -/
def filter (delay : K) (order : ℤ) : Except Err (List K × List K) :=
  if ¬ 0 < order then .error .assertionError
  else if ¬ (0 < delay ∧ delay < 1) then .error .assertionError
  else
    let N := order.toNat
    let a := (List.range (N + 1)).map (coeff N ((N : K) + delay))
    .ok (a.reverse, a)

end Verif.Thiran

import Verif.Spec.Realtime
import Mathlib.Algebra.Field.Defs

/-!
# Difference equations

Sequences are lists with the most recent value first; before the first value they are
zero.
-/

namespace Verif

/-- At every sample `n`, `∑ i, a[i] * y[n-i] = ∑ i, b[i] * x[n-i]`, from rest. -/
def SolvesDE {K : Type} [Semiring K] (b a xs ys : List K) : Prop :=
  ys.length = xs.length ∧ ∀ j, tapSum a (ys.drop j) = tapSum b (xs.drop j)

/-- Filtering with one difference equation after the other. -/
def SolvesCascade {K : Type} [Semiring K] : List (List K × List K) → List K → List K → Prop
  | [], xs, ys => ys = xs
  | (b, a) :: rest, xs, ys => ∃ zs, SolvesDE b a xs zs ∧ SolvesCascade rest zs ys

end Verif

import Mathlib.Data.List.GetD
import Mathlib.Algebra.Order.Field.Basic

/-!
# Specification: the polygon through given points
-/

namespace Verif

/-- The entries grow strictly. -/
def Increasing {K : Type} [Field K] [LinearOrder K] (f : List K) : Prop :=
  ∀ i j, i < j → j < f.length → f.getD i 0 < f.getD j 0

/-- `v` is the value at `q` of the polygon through the points `(f i, y i)`: on every segment which
contains `q`, the point `(q, v)` lies on the straight line through the two ends, and `q` lies on
some segment or on a point itself. -/
def OnPolygon {K : Type} [Field K] [LinearOrder K] (f y : List K) (q v : K) : Prop :=
  (∀ i, i + 1 < f.length → f.getD i 0 ≤ q → q ≤ f.getD (i + 1) 0 →
    v * (f.getD (i + 1) 0 - f.getD i 0) =
      y.getD i 0 * (f.getD (i + 1) 0 - q) + y.getD (i + 1) 0 * (q - f.getD i 0)) ∧
  (∀ i < f.length, f.getD i 0 = q → v = y.getD i 0) ∧
  ((∃ i, i + 1 < f.length ∧ f.getD i 0 ≤ q ∧ q ≤ f.getD (i + 1) 0) ∨
    ∃ i < f.length, f.getD i 0 = q)

end Verif

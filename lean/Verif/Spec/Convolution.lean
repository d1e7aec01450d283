import Mathlib.Algebra.BigOperators.Group.Finset.Basic
import Mathlib.Algebra.Field.Defs

/-! Convolution of finite sequences at an integer time, and zero stuffing. -/

namespace Verif

/-- `(b * x)[k] = ∑ m, b[m] x[k - m]` for an integer time `k`; sequences are zero outside of
the lists. -/
def convAt {K : Type} [Field K] (b x : List K) (k : ℤ) : K :=
  ∑ m ∈ Finset.range b.length, if (m : ℤ) ≤ k then b.getD m 0 * x.getD (k - m).toNat 0 else 0

/-- `U - 1` zeros after each sample. -/
def zeroStuffed {K : Type} [Field K] (x : List K) (U : ℕ) : List K :=
  (List.range (x.length * U)).map fun j => if U ∣ j then x.getD (j / U) 0 else 0

end Verif

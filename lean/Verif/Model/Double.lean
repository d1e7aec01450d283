import Mathlib.Algebra.Order.Field.Rat
import Mathlib.Data.Nat.Log
import Mathlib.Data.Rat.Floor

/-!
# Rounding to double and single precision

Elsewhere numbers are exact. The few places in which the rounding of binary64 arithmetic
decides about a result are examined with these rounding functions on rational numbers
(IEEE 754, round half to even, without underflow and overflow).
-/

namespace Verif.Double

/-- Number of binary digits of `n` (0 for 0). -/
def bitLength (n : ℕ) : ℕ := if n = 0 then 0 else Nat.log2 n + 1

/-- Rounds `p / q` (`q > 0`) to the nearest integer, ties to even. -/
def roundHalfEven (p q : ℕ) : ℕ :=
  let d := p / q
  let r := p % q
  if 2 * r < q then d
  else if q < 2 * r then d + 1
  else if d % 2 = 0 then d else d + 1

/-- Rounds `p / q > 0` to `P` binary digits: scale by a power of two such that the quotient
has `P` digits, round to an integer and scale back. -/
def roundPos (P : ℕ) (p q : ℕ) : ℚ :=
  let e : ℤ := (bitLength p : ℤ) - bitLength q - P
  -- `p / q / 2 ^ e` lies between `2 ^ (P - 1)` and `2 ^ (P + 1)`
  let p' := if e < 0 then p * 2 ^ (-e).toNat else p
  let q' := if e < 0 then q else q * 2 ^ e.toNat
  let big := 2 ^ P ≤ p' / q'
  let q'' := if big then q' * 2 else q'
  let e' := if big then e + 1 else e
  (roundHalfEven p' q'' : ℚ) * (2 : ℚ) ^ e'

/-- The number with `P` binary digits next to `x`. -/
def rndTo (P : ℕ) (x : ℚ) : ℚ :=
  if x = 0 then 0
  else if 0 < x then roundPos P x.num.natAbs x.den
  else - roundPos P x.num.natAbs x.den

/-- The double (binary64, 53 digits) next to `x`. -/
def rnd (x : ℚ) : ℚ := rndTo 53 x

/-- The single precision number (binary32, 24 digits) next to `x`. -/
def single (x : ℚ) : ℚ := rndTo 24 x

example : rnd (1 / 3) = 6004799503160661 / 2 ^ 54 := by decide +kernel
example : rnd (1 / 10) = 3602879701896397 / 2 ^ 55 := by decide +kernel
example : rnd (9007199254740993) = 9007199254740992 := by decide +kernel
example : single (1 / 3) = 11184811 / 2 ^ 25 := by decide +kernel
example : rnd (-3 / 4) = -3 / 4 := by decide +kernel

end Verif.Double

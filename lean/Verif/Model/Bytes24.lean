import Verif.Spec.Realtime

/-!
# Model of the packing of 24 bit samples

`helpers/bytes_conversion.py`.  Bytes are natural numbers below 256; `little` stands for
`sys.byteorder == "little"`.
-/

namespace Verif.Bytes24

/-- Bytes of one number of `np.int32` or `np.uint32` in memory (two's complement). -/
def bytes32 (little : Bool) (v : ℤ) : List ℕ :=
  let u := (v % 2 ^ 32).toNat
  let le := [u % 256, u / 256 % 256, u / 65536 % 256, u / 16777216 % 256]
  if little then le else le.reverse

/-- `_array_to_bytes_24bits` (`bytes_conversion.py`, lines 6-31): the indices which are
`3 mod 4` (little-endian) or `0 mod 4` (big-endian) are left out. -/
def pack (little : Bool) (vs : List ℤ) : List ℕ :=
  let b := vs.flatMap (bytes32 little)
  let skip := if little then 3 else 0
  ((List.range b.length).filter fun i => i % 4 ≠ skip).map fun i => b.getD i 0

/-- `int.from_bytes(b, sys.byteorder, signed=signed)` for three bytes -/
def fromBytes (little signed : Bool) (b : List ℕ) : ℤ :=
  let le := if little then b else b.reverse
  let u : ℤ := le.getD 0 0 + 256 * le.getD 1 0 + 65536 * le.getD 2 0
  if signed ∧ 2 ^ 23 ≤ u then u - 2 ^ 24 else u

/-- `_bytes_to_array_24bits` (`bytes_conversion.py`, lines 34-44). -/
def unpack (little signed : Bool) (v : List ℕ) : Except Err (List ℤ) :=
  if v.length % 3 = 0 then
    .ok ((List.range (v.length / 3)).map fun n => fromBytes little signed ((v.drop (3 * n)).take 3))
  else .error .assertionError

end Verif.Bytes24

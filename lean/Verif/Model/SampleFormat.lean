import Verif.Spec.Realtime
import Mathlib.Algebra.Order.Field.Rat
import Mathlib.Data.Rat.Floor

/-!
# Model of the conversion of sample formats

`tools.py: convert_sample_representation`, lines 339-480, for one sample of an array (the
conversion acts on every sample separately).  The reading and writing of bytes is modelled
in `Verif.Model.Bytes24`.  Numbers are rational; the rounding of double precision arithmetic
is the function `r64`, that of single precision `r32` (the identity for exact arithmetic).
-/

namespace Verif.SampleFormat

/-- `"f32"`, `"f64"`, `"i8"` ... `"u32"` -/
inductive Format
  | f32
  | f64
  | fixed (signed : Bool) (bits : ℕ)
deriving DecidableEq

/-- `valid_formats` -/
def Format.valid : Format → Bool
  | .f32 => true
  | .f64 => true
  | .fixed _ bits => bits = 8 ∨ bits = 16 ∨ bits = 24 ∨ bits = 32

/-- `2.0 ** (bits - 1) - 1` -/
def maxValue (bits : ℕ) : ℚ := 2 ^ (bits - 1) - 1

/-- `np.clip(values, -1.0, 1.0)` -/
def clip (x : ℚ) : ℚ := min (max x (-1)) 1

/-- Truncation towards zero (`np.trunc` and `astype` to an integer type) -/
def trunc (x : ℚ) : ℤ := if 0 ≤ x then ⌊x⌋ else ⌈x⌉

/-- Input part (`tools.py`, lines 431-438). -/
def toUnit (r64 : ℚ → ℚ) : Format → ℚ → ℚ
  | .fixed signed bits, v =>
    let u := r64 (v / maxValue bits)
    clip (if signed then u else r64 (u - 1))
  | _, v => clip v

/-- The precision of the output part: samples in "f32" arrays stay in single precision (lines 430-438 convert
fixed-point formats only). -/
def precision (r64 r32 : ℚ → ℚ) : Format → ℚ → ℚ
  | .f32 => r32
  | _ => r64

/-- Output part (`tools.py`, lines 440-467) with the rounding `r` of the array; numpy rounds the python number
`max_value_output` to the type of the array. -/
def fromUnit (r r32 : ℚ → ℚ) : Format → ℚ → ℚ
  | .f32, u => r32 u
  | .f64, u => u
  | .fixed signed bits, u =>
    let o := r (u * r (maxValue bits))
    trunc (if signed then o else r (o + r (maxValue bits)))

/-- `convert_sample_representation` for a sample of an array; arrays with samples in "f32" are arrays of
single precision.  An integer beyond the range of the target type is what is given to `astype`. -/
def convert (r64 r32 : ℚ → ℚ) (fin fout : Format) (cast bytes : Bool) (v : ℚ) :
    Except Err ℚ :=
  if fin = fout then .error .assertionError
  else if ¬ (fin.valid ∧ fout.valid) then .error .assertionError
  else if cast ∧ ¬ bytes ∧ (fout = .fixed true 24 ∨ fout = .fixed false 24) then
    .error .assertionError
  else .ok (fromUnit (precision r64 r32 fin) r32 fout (toUnit r64 fin v))

/-- The type with which a byte string of a format is read (`tools.py`, lines 416-428);
`np.f32` and `np.f64` do not exist. `true` stands for the 24 bit routine. -/
def readType : Format → Except Err (Bool × Bool × ℕ)
  | .f32 => .error .attributeError
  | .f64 => .error .attributeError
  | .fixed signed bits => .ok (bits = 24, signed, bits)

end Verif.SampleFormat

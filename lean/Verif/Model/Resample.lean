import Verif.Model.Polyphase
import Verif.Model.FilterBank

/-!
# Model of filtering and resampling in one step

`classes/filter.py: filter_and_resample_signal` and the branches with `polyphase=False` of
`classes/filter_helpers.py: _filter_and_downsample, _filter_and_upsample`.  One channel; the
assignment of the result to a `Signal` is C14.
-/

namespace Verif.Polyphase

variable {K : Type} [Field K] [LinearOrder K]

/-- `_filter_and_downsample` with `polyphase=False` (`filter_helpers.py`, lines 562-566). -/
def downsamplePlain (x b a : List K) (D : ℕ) : List K := everyNth (Bank.lfilter b a x) D

/-- The array assigned in lines 637-638: `zeros(len * U)`, `[::U] = x * U`. -/
def stuff (x : List K) (U : ℕ) : List K :=
  (List.range (x.length * U)).map fun j => if j % U = 0 then x.getD (j / U) 0 * (U : K) else 0

/-- `_filter_and_upsample` with `polyphase=False` (lines 637-641). -/
def upsamplePlain (x b a : List K) (U : ℕ) : List K := Bank.lfilter b a (stuff x U)

/-- A filter as seen by `filter_and_resample_signal`. -/
structure ResampleFilter (K : Type) where
  b : List K
  a : List K
  isFir : Bool
  fs : ℕ

/-- `filter_and_resample_signal` (`filter.py`, lines 771-815) on the samples `x` of a channel
with sampling rate `fs`; returns the samples and the new sampling rate. `Fraction` reduces its
arguments by their greatest common divisor. Filters given in sections are converted to
coefficients before (lines 781-783). -/
def resample (F : ResampleFilter K) (x : List K) (fs new : ℕ) : Except Err (List K × ℕ) :=
  if fs = 0 then .error .zeroDivision
  else
    let up := new / Nat.gcd new fs
    let down := fs / Nat.gcd new fs
    if ¬ (up = 1 ∨ down = 1) then .error .assertionError
    else if up = 1 then
      if fs ≠ F.fs then .error .assertionError
      else if F.isFir then (downsample x F.b down).map fun y => (y, new)
      else .ok (downsamplePlain x F.b F.a down, new)
    else
      if fs * up ≠ F.fs then .error .assertionError
      else if F.isFir then (upsample x F.b up).map fun y => (y, new)
      else .ok (upsamplePlain x F.b F.a up, new)

end Verif.Polyphase

import Verif.Model.FilterBank
import Mathlib.Data.Real.Basic

/-!
# Dither (`standard/other.py`)

Exact real arithmetic.  The draws of `np.random.uniform` are parameters, and so is the conversion of
samples to 16-bit floating point.
-/

namespace Verif.Dither

open SignalData

/-- The noise (`other.py`, lines 345-350) from two independent arrays of draws. -/
def noise (triangular : Bool) (u v : ℕ → ℕ → ℝ) : ℕ → ℕ → ℝ :=
  if ¬ triangular then u else fun r c => u r c + v r c

/-- `noise` with noise shaping (`other.py`, lines 352-357): signals are not constrained by default. -/
noncomputable def shaped (bank : Option (List (Bank.Filt ℝ))) (rows cols : ℕ) (n : ℕ → ℕ → ℝ) :
    Except Err (Mat ℝ) :=
  match bank with
  | none => .ok ⟨rows, cols, n⟩
  | some Fs =>
    match construct ⟨rows, cols, n, none⟩ false with
    | .error e => .error e
    | .ok s =>
      match Bank.sequential Fs s with
      | .error e => .error e
      | .ok t => .ok t.re

/-- `dither` (`other.py`, lines 287-364); `half` converts to 16-bit floating point and back. -/
noncomputable def dither (half : ℝ → ℝ) (u v : ℕ → ℕ → ℝ) (s : State ℝ) (triangular : Bool)
    (bank : Option (List (Bank.Filt ℝ))) (truncate : Bool) : Except Err (State ℝ) :=
  match shaped bank s.re.rows s.re.cols (noise triangular u v) with
  | .error e => .error e
  | .ok n =>
    if truncate then
      copyWith s ⟨s.re.rows, s.re.cols, fun r c => half (s.re.val r c + n.val r c), none⟩
    else copyWith s ⟨s.re.rows, s.re.cols, fun r c => s.re.val r c + n.val r c, none⟩

end Verif.Dither

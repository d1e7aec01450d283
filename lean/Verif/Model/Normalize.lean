import Verif.Model.Level
import Verif.Model.PadTrim

/-!
# Model of the normalisation of signals

`helpers/gain_and_level.py: _rms, _normalize`, `standard/gain_and_level.py: normalize`.
Arrays have at least one sample and one channel.  A level of zero (silence) makes the code
divide by zero and return `nan`; the model returns zeros there, so every theorem assumes a
level that is not zero.
-/

namespace Verif.Level

open Verif.SignalData

/-- The entries of an array whose level is measured for channel `c`: its column, or the
whole array (`axis=0 if per_channel else None`, `s if per_channel else s.flatten()`). -/
def cells (A : Mat ℝ) (c : ℕ) (perChannel : Bool) : Finset (ℕ × ℕ) :=
  Finset.range A.rows ×ˢ (if perChannel then {c} else Finset.range A.cols)

/-- `np.max(np.abs(s))` over the given entries. -/
noncomputable def peakOn (S : Finset (ℕ × ℕ)) (f : ℕ → ℕ → ℝ) : ℝ :=
  S.fold max 0 fun p => |f p.1 p.2|

/-- `np.mean` over the given entries. -/
noncomputable def meanOn (S : Finset (ℕ × ℕ)) (f : ℕ → ℕ → ℝ) : ℝ :=
  (∑ p ∈ S, f p.1 p.2) / S.card

/-- `_rms` (`gain_and_level.py`, lines 7-25): the code uses `np.std`, which subtracts the
mean. -/
noncomputable def stdOn (S : Finset (ℕ × ℕ)) (f : ℕ → ℕ → ℝ) : ℝ :=
  Real.sqrt ((∑ p ∈ S, (f p.1 p.2 - meanOn S f) ^ 2) / S.card)

/-- The level of the given entries. -/
noncomputable def levelOn (peak : Bool) (S : Finset (ℕ × ℕ)) (f : ℕ → ℕ → ℝ) : ℝ :=
  if peak then peakOn S f else stdOn S f

/-- `_normalize` (`gain_and_level.py`, lines 49-84). -/
noncomputable def normalizeArray (A : Mat ℝ) (dbfs : ℝ) (peak perChannel : Bool) : Mat ℝ :=
  ⟨A.rows, A.cols, fun r c =>
    A.val r c * (fromDb dbfs true / levelOn peak (cells A c perChannel) A.val)⟩

/-- `normalize` of a `Signal` (`standard/gain_and_level.py`, lines 12-48). -/
noncomputable def normalizeSignal (s : State ℝ) (dbfs : ℝ) (peak perChannel : Bool) :
    Except Err (State ℝ) :=
  let B := normalizeArray s.re dbfs peak perChannel
  copyWith s ⟨B.rows, B.cols, B.val, none⟩

end Verif.Level

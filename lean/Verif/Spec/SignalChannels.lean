import Verif.Model.SignalData

/-!
# Channels of a signal as sequences

What a user sees of a signal: the number of samples, the number of channels and the value
of every sample (real and imaginary part).
-/

namespace Verif.SignalData

variable {K : Type} [Field K] [LinearOrder K]

/-- Sample `r` of channel `c` (real part); 0 outside. -/
def State.sample (s : State K) (r c : ℕ) : K :=
  if r < s.re.rows ∧ c < s.re.cols then s.re.val r c else 0

/-- Sample `r` of channel `c` (imaginary part); 0 outside or for a real signal. -/
def State.sampleIm (s : State K) (r c : ℕ) : K :=
  match s.im with
  | none => 0
  | some B => if r < B.rows ∧ c < B.cols then B.val r c else 0

/-- Number of samples and channels. -/
def State.HasShape (s : State K) (rows cols : ℕ) : Prop := s.re.rows = rows ∧ s.re.cols = cols

/-- Sample `i` of a channel `f` of `rows` samples after it was brought to `n` samples by
padding with zeros or trimming, at the end or at the beginning. -/
def placed (f : ℕ → K) (rows n : ℕ) (atEnd : Bool) (i : ℕ) : K :=
  if atEnd then (if i < rows then f i else 0)
  else if n ≤ i + rows then f (i + rows - n) else 0

end Verif.SignalData

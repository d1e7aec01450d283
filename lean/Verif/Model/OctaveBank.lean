import Verif.Model.FrequencyGrids
import Mathlib.Analysis.SpecialFunctions.Trigonometric.Basic

/-!
# The filter bank of fractional octave bands

`filterbanks/filterbanks.py: fractional_octave_bands`.  Exact reals.  The Butterworth design itself
(`scipy.signal.iirfilter`) is external: the filters are given by their type and cut-off
frequencies, and their power response by the formula of the design.
-/

namespace Verif.OctaveBank

open FrequencyGrids

/-- The arguments of one filter (`filterbanks.py`, lines 397-409). -/
inductive Design
  | bandpass (lower upper : ℝ)
  | highpass (lower : ℝ)

/-- The frequencies that `scipy.signal.iirfilter` accepts (ValueError otherwise). -/
def Design.Valid (fs : ℕ) : Design → Prop
  | .bandpass l u => 0 < l ∧ l < (fs : ℝ) / 2 ∧ 0 < u ∧ u < (fs : ℝ) / 2
  | .highpass l => 0 < l ∧ l < (fs : ℝ) / 2

/-- One pass of the loop (`filterbanks.py`, lines 396-400). -/
noncomputable def design (fs b : ℕ) (f : ℝ) : Design :=
  if ((fs / 2 : ℕ) : ℝ) < upperEdge b f then .highpass (lowerEdge b f)
  else .bandpass (lowerEdge b f) (upperEdge b f)

/-- The result: filters, centre frequencies, lower and upper limits. -/
structure Bank where
  filters : List Design
  centres : List ℝ
  lower : List ℝ
  upper : List ℝ

open Classical in
/-- `fractional_octave_bands` (`filterbanks.py`, lines 377-413). -/
noncomputable def octaveBands (range : List ℝ) (b : ℕ) (fs : Option ℕ) : Except Err Bank :=
  match fs with
  | none => .error .assertionError
  | some fs =>
    match range with
    | [x, y] =>
      if ¬ max x y < ((fs / 2 : ℕ) : ℝ) then .error .assertionError
      else
        match octaveFrequencies b [min x y, max x y] with
        | .error e => .error e
        | .ok (_, exact) =>
          if ∀ f ∈ exact, (design fs b f).Valid fs then
            .ok ⟨exact.map (design fs b), exact, exact.map (lowerEdge b), exact.map (upperEdge b)⟩
          else .error .valueError
    | _ => .error .assertionError

/-- The frequency after the bilinear transform (prewarping of the design). -/
noncomputable def warped (fs : ℕ) (f : ℝ) : ℝ := Real.tan (Real.pi * f / fs)

/-- `|H(f)|²` of a digital Butterworth filter of the given order (the design formula of
`scipy.signal.iirfilter`, external), `0 < f < fs/2`. -/
noncomputable def Design.power (fs order : ℕ) (f : ℝ) : Design → ℝ
  | .bandpass l u =>
    let W := warped fs f
    1 / (1 + ((W ^ 2 - warped fs l * warped fs u) / (W * (warped fs u - warped fs l))) ^ (2 * order))
  | .highpass l => 1 / (1 + (warped fs l / warped fs f) ^ (2 * order))

end Verif.OctaveBank

import Verif.Model.FractionalDelay

/-!
# Design of FIR filters by windowing

`classes/filter.py: Filter.fir_filter` (lines 190-235) with `scipy.signal.firwin` (external, modelled after its
implementation in SciPy, without `width`, with `scale=True`).  Real arithmetic.  The window is given by its values
for `numtaps` samples; errors of `get_window` are not modelled.
-/

namespace Verif.FirDesign

open FractionalDelay

/-- `FilterPassType` (`standard/enums.py`, lines 295-305); `to_str` gives the names of scipy. -/
inductive Pass
  | lowpass | highpass | bandpass | bandstop
  deriving DecidableEq

/-- `pass_zero` of `firwin` after the names have been replaced. -/
def Pass.zero : Pass → Bool
  | .lowpass | .bandstop => true
  | .highpass | .bandpass => false

/-- `np.any(np.diff(cutoff) <= 0)` negated. -/
def increasing : List ℝ → Prop
  | a :: b :: r => a < b ∧ increasing (b :: r)
  | _ => True

/-- `cutoff.reshape(-1, 2)`. -/
def pairs : List ℝ → List (ℝ × ℝ)
  | a :: b :: r => (a, b) :: pairs r
  | _ => []

/-- `pass_nyquist = bool(cutoff.size & 1) ^ pass_zero`. -/
def passNyquist (n : ℕ) (type : Pass) : Bool := xor (n % 2 == 1) type.zero

/-- The bands that pass, as fractions of half of the sampling rate. -/
noncomputable def bands (cut : List ℝ) (type : Pass) : List (ℝ × ℝ) :=
  pairs ((if type.zero then [0] else []) ++ cut ++ (if passNyquist cut.length type then [1] else []))

/-- The position of a tap from the centre: `m = np.arange(0, numtaps) - alpha`. -/
noncomputable def pos (taps n : ℕ) : ℝ := n - 0.5 * ((taps : ℝ) - 1)

/-- The taps before the scaling. -/
noncomputable def tap (bs : List (ℝ × ℝ)) (win : ℕ → ℝ) (taps n : ℕ) : ℝ :=
  (bs.map fun b => b.2 * sinc (b.2 * pos taps n) - b.1 * sinc (b.1 * pos taps n)).sum * win n

/-- `scale_frequency`. -/
noncomputable def scaleFrequency (bs : List (ℝ × ℝ)) : ℝ :=
  match bs with
  | [] => 0
  | b :: _ => if b.1 = 0 then 0 else if b.2 = 1 then 1 else 0.5 * (b.1 + b.2)

/-- The sum that divides the taps. -/
noncomputable def scale (bs : List (ℝ × ℝ)) (win : ℕ → ℝ) (taps : ℕ) : ℝ :=
  ((List.range taps).map fun n => tap bs win taps n * Real.cos (Real.pi * pos taps n * scaleFrequency bs)).sum

open Classical in
/-- `firwin(numtaps, cutoff, window=..., pass_zero=type.to_str(), fs=fs)`; `none` if the taps are divided by
zero. -/
noncomputable def firwin (taps : ℕ) (cut : List ℝ) (win : ℕ → ℝ) (type : Pass) (fs : ℕ) :
    Except Err (Option (List ℝ)) :=
  let c := cut.map fun f => f / (0.5 * (fs : ℝ))
  if c = [] then .error .valueError
  else if ∃ x ∈ c, x ≤ 0 ∨ 1 ≤ x then .error .valueError
  else if ¬ increasing c then .error .valueError
  else if (type = .lowpass ∨ type = .highpass) ∧ c.length ≠ 1 then .error .valueError
  else if (type = .bandpass ∨ type = .bandstop) ∧ c.length ≤ 1 then .error .valueError
  else if passNyquist c.length type ∧ taps % 2 = 0 then .error .valueError
  else
    let bs := bands c type
    let s := scale bs win taps
    if s = 0 then .ok none
    else .ok (some ((List.range taps).map fun n => tap bs win taps n / s))

/-- `Filter.fir_filter(order, frequency_hz, type_of_pass, sampling_rate_hz, window)` (`filter.py`, lines 190-235):
numerator and denominator of the filter.  `win` are the values of the window for `order + 1` samples. -/
noncomputable def firFilter (order : ℕ) (freqs : List ℝ) (type : Pass) (fs : ℕ) (win : ℕ → ℝ) :
    Except Err (Option (List ℝ × List ℝ)) :=
  (firwin (order + 1) freqs win type fs).map fun b => b.map fun b => (b, [1])

end Verif.FirDesign

import Verif.Model.PadTrim
import Verif.Model.Transforms
import Mathlib.Analysis.SpecialFunctions.Pow.Real

/-!
# Detrending and envelopes (`standard/other.py`, `standard/_standard_backend.py`)

Exact real arithmetic.  `np.polyfit` is a parameter: a function of the order and the samples of a
channel that returns the coefficients, highest power first.  Multiband signals (`other.py`, lines
206-210 and 262-281) repeat the functions for each band and are left out.
-/

namespace Verif.Detrend

open SignalData

/-- `np.polyval` -/
def polyval (p : List ℝ) (x : ℝ) : ℝ := p.foldl (fun acc a => acc * x + a) 0

/-- `_detrend` (`_standard_backend.py`, lines 382-405): `np.polyfit` raises TypeError for an empty
array.  The fit of several columns is the fit of each of them. -/
def detrendData (fit : ℕ → List ℝ → List ℝ) (A : Mat ℝ) (order : ℕ) : Except Err (Mat ℝ) :=
  if A.rows = 0 then .error .typeError
  else .ok ⟨A.rows, A.cols, fun r c => A.val r c - polyval (fit order (colOf A c)) r⟩

/-- `detrend` of a `Signal` (`other.py`, lines 182-205). -/
noncomputable def detrend (fit : ℕ → List ℝ → List ℝ) (s : State ℝ) (order : ℤ) :
    Except Err (State ℝ) :=
  if ¬ 0 ≤ order then .error .assertionError
  else
    match detrendData fit s.re order.toNat with
    | .error e => .error e
    | .ok A => copyWith s ⟨A.rows, A.cols, A.val, none⟩

/-- `envelope(analytic=True)` of a `Signal` (`other.py`, lines 245-251); `scipy.signal.hilbert` weights
the bins as `dsptoolbox.transforms.hilbert` does. -/
noncomputable def envelopeAnalytic (fit : ℕ → List ℝ → List ℝ) (s : State ℝ) :
    Except Err (Mat ℝ) :=
  match detrend fit s 1 with
  | .error e => .error e
  | .ok t => .ok ⟨t.re.rows, t.re.cols,
      fun r c => ‖Transforms.analytic t.re.rows (fun n => t.re.val n c) r‖⟩

/-- `envelope(analytic=False)` of a `Signal` (`other.py`, lines 245-261).  `oaconvolve` is the exact
convolution: negative values by rounding, whose root would be `nan`, do not occur. -/
noncomputable def envelopeRms (fit : ℕ → List ℝ → List ℝ) (s : State ℝ) (window : Option ℤ) :
    Except Err (Mat ℝ) :=
  match detrend fit s 1 with
  | .error e => .error e
  | .ok t =>
    match window with
    | none => .error .assertionError
    | some w =>
      if ¬ 0 < w then .error .assertionError
      else
        let h : ℕ → ℝ := fun k => if k < w.toNat then 1 / w else 0
        .ok ⟨t.re.rows, t.re.cols, fun r c =>
          (∑ k ∈ Finset.range (r + 1), t.re.val (r - k) c ^ 2 * h k) ^ (0.5 : ℝ)⟩

end Verif.Detrend

import Verif.Model.PadTrim
import Mathlib.Analysis.SpecialFunctions.Trigonometric.Basic
import Mathlib.Topology.Algebra.InfiniteSum.Basic
import Mathlib.Analysis.SpecialFunctions.Pow.Real

/-!
# Model of fractional delays

`standard/_standard_backend.py: _kaiser_window_beta, _kaiser_window_fractional,
_fractional_delay_filter`, `standard/latency_delay.py: fractional_delay`.  Exact arithmetic.
-/

namespace Verif.FractionalDelay

open Verif.SignalData

/-- `np.sinc` -/
noncomputable def sinc (t : ℝ) : ℝ := if t = 0 then 1 else Real.sin (Real.pi * t) / (Real.pi * t)

/-- `scipy.special.iv(0, Z)` as a function of the square of `Z`: its power series, which is real for
real squares. -/
noncomputable def bessel (zz : ℝ) : ℝ := ∑' k : ℕ, (zz / 4) ^ k / (k.factorial : ℝ) ^ 2

/-- `_kaiser_window_beta` (`_standard_backend.py`, lines 282-287). -/
noncomputable def beta (A : ℝ) : ℝ :=
  if |A| > 50 then 0.1102 * (|A| - 8.7)
  else if |A| ≥ 21 then 0.5842 * (|A| - 21) ^ (0.4 : ℝ) + 0.07886 * (|A| - 21)
  else 0

/-- `_kaiser_window_fractional` (`_standard_backend.py`, lines 310-321) for the length `order + 1`.
An order of 0 divides by 0. -/
noncomputable def kaiser (order : ℕ) (A frac : ℝ) : List ℝ :=
  (List.range (order + 1)).map fun m : ℕ =>
    let alpha : ℝ := (order : ℝ) / 2
    let L : ℝ := (m : ℝ) - frac
    let L := if order % 2 = 1 then L + 0.5 else if frac > 0.5 then L + 1 else L
    bessel (beta A ^ 2 * (1 - ((L - alpha) / alpha) ^ 2)) / bessel (beta A ^ 2)

/-- `M_opt` (`_standard_backend.py`, lines 477-480); `np.round` rounds 1/2 to 0. -/
noncomputable def mOpt (order : ℕ) (frac : ℝ) : ℤ :=
  if order % 2 = 1 then -(((order - 1) / 2 : ℕ) : ℤ)
  else (if frac > 1 / 2 then 1 else 0) - ((order / 2 : ℕ) : ℤ)

/-- `_fractional_delay_filter` (`_standard_backend.py`, lines 472-493) for delays from 0. -/
noncomputable def delayFilter (d : ℝ) (order : ℕ) (A : ℝ) : ℤ × List ℝ :=
  let frac := d - (⌊d⌋₊ : ℝ)
  let sincs := (List.range (order + 1)).map fun m : ℕ => sinc (m + mOpt order frac - frac)
  (⌊d⌋₊ + mOpt order frac, List.zipWith (· * ·) sincs (kaiser order A frac))

/-- `oaconvolve(x, h, mode="full")` for one channel. -/
noncomputable def fullConv (x h : List ℝ) : List ℝ :=
  (List.range (x.length + h.length - 1)).map fun n : ℕ =>
    ∑ k ∈ Finset.range x.length, x.getD k 0 * if k ≤ n then h.getD (n - k) 0 else 0

open Classical in
/-- `fractional_delay` of a `Signal` (`latency_delay.py`, lines 195-264), for non-negative channel
numbers as an array of integers.  `none` stands for all channels.  The arguments of `np.setdiff1d` are
swapped, so that `channels_not` is empty. -/
noncomputable def fractionalDelay (s : State ℝ) (fs : ℕ) (delay : ℝ) (channels : Option (List ℕ))
    (keepLength : Bool) (order : ℕ) (A : ℝ) : Except Err (State ℝ) :=
  if delay < 0 then .error .assertionError
  else if delay = 0 then .ok s
  else
    let d := delay * fs
    if keepLength = true ∧ (s.re.rows : ℝ) ≤ d then .error .assertionError
    else
      let chs := channels.getD (List.range s.re.cols)
      if (∀ c ∈ chs, c < s.re.cols) ∧ chs.Nodup then
        let (delayInt, h) := delayFilter d order A
        let n1 := s.re.rows + h.length - 1
        let td := fun c => padTrim (colOf s.re c) n1 true
        let td1 := writeCols td chs fun k => fullConv (colOf s.re (chs.getD k 0)) h
        let n2 := (delayInt + n1).toNat
        let chsNot := chs.filter fun c => ¬ c < s.re.cols
        let notDelayed := fun k => padTrim (td1 (chsNot.getD k 0)) n2 true
        let delayed := fun k => padTrim (td1 (chs.getD k 0)) n2 false
        let td2 := fun c => padTrim (td1 c) n2 true
        let td3 := writeCols (writeCols td2 chsNot notDelayed) chs delayed
        copyWith s (ofCols (if keepLength then s.re.rows else n2) s.re.cols td3)
      else .error .assertionError

end Verif.FractionalDelay

import Verif.Model.LinearPhase
import Verif.Model.GroupDelay
import Verif.Model.OctaveSmoothing
import Verif.Model.Trim

/-!
# Model of the FIR filters with a desired group delay

`classes/group_delay_designer_phase_linearizer.py: FirDesigner, GroupDelayDesigner, PhaseLinearizer`.
Exact arithmetic, at least one sample.  `N` is `time_data_length_samples`, the targets have the bins
`0 … N / 2`.
-/

namespace Verif.FirDesigner

open Complex

/-- What `set_parameters` stores. -/
structure Params where
  increaseMs : ℝ
  additional : Option ℤ
  trapezoidal : Bool
  integerDelay : Bool

/-- `FirDesigner.set_parameters` (lines 48-91) -/
noncomputable def setParameters (increaseMs : ℝ) (additional : Option ℤ)
    (trapezoidal integerDelay : Bool) : Except Err Params :=
  if ¬ 0 ≤ increaseMs then .error .assertionError
  else if ∃ a ∈ additional, ¬ 0 ≤ a then .error .assertionError
  else .ok ⟨increaseMs, additional, trapezoidal, integerDelay⟩

/-- `_get_group_delay_factor_in_samples` (lines 126-128) -/
noncomputable def factorSamples (N : ℕ) : ℝ := N / 2 / Real.pi

/-- `_get_group_delay_factor_in_seconds` (lines 130-132) -/
noncomputable def factorSeconds (N fs : ℕ) : ℝ := N / 2 / Real.pi / fs

/-- `_get_unscaled_preprocessed_group_delay` (lines 120-124) -/
noncomputable def unscaled (N fs : ℕ) (increaseMs : ℝ) (gd : ℕ → ℝ) (k : ℕ) : ℝ :=
  (gd k + increaseMs / 1000) / factorSeconds N fs

/-- `np.max` of the values `0 … M - 1` -/
noncomputable def top (M : ℕ) (f : ℕ → ℝ) : ℝ :=
  (List.range M).foldl (fun (a : ℝ) k => max a (f k)) (f 0)

/-- `max_delay_samples_synthesized` (lines 146-148) -/
noncomputable def maxDelay (N : ℕ) (target : ℕ → ℝ) : ℤ :=
  SignalData.truncInt (top (N / 2 + 1) target * factorSamples N + 1)

/-- The grid is refined (line 153). -/
def Refines (N : ℕ) (m : ℤ) : Prop := m * 10 > N

instance (N : ℕ) (m : ℤ) : Decidable (Refines N m) := inferInstanceAs (Decidable (_ > _))

/-- The new length (lines 163-165) -/
def refinedLength (m : ℤ) : ℕ :=
  let n := m * 10 + 1
  (n + n % 2).toNat

/-- `PchipInterpolator(frequency_vector_hz, y, extrapolate=True)(new_freqs)[k]` (lines 167-188): the
new frequency `k * fs / n` is at the position `k * N / n` of the old grid, whose points are counted
from 1 in `pchip`. -/
noncomputable def interpolate (N n : ℕ) (y : ℕ → ℝ) (k : ℕ) : ℝ :=
  OctaveSmoothing.pchip (N / 2 + 1) y ((k : ℝ) * N / n + 1)

/-- `scipy.integrate.cumulative_trapezoid(y, initial=0)[k]` (external, documented) -/
noncomputable def trapezoid (y : ℕ → ℝ) (k : ℕ) : ℝ := ∑ i ∈ Finset.range k, (y i + y (i + 1)) / 2

/-- Integral over the interval from `j` to `j + 1` in `scipy.integrate.cumulative_simpson` (external)
for `M` values: the parabola through the point and its successors for even `j`, otherwise and at the
end through its predecessor. Fewer than three values are handled by the trapezoidal rule. -/
noncomputable def simpsonStep (M : ℕ) (y : ℕ → ℝ) (j : ℕ) : ℝ :=
  if M < 3 then (y j + y (j + 1)) / 2
  else if j % 2 = 0 ∧ j + 2 < M then (5 * y j + 8 * y (j + 1) - y (j + 2)) / 12
  else (5 * y (j + 1) + 8 * y j - y (j - 1)) / 12

/-- `scipy.integrate.cumulative_simpson(y, initial=0)[k]` -/
noncomputable def simpson (M : ℕ) (y : ℕ → ℝ) (k : ℕ) : ℝ :=
  ∑ i ∈ Finset.range k, simpsonStep M y i

/-- `new_phase` (lines 191-195) for `M` bins. -/
noncomputable def phaseOf (M : ℕ) (trapezoidal : Bool) (tau : ℕ → ℝ) (k : ℕ) : ℝ :=
  if trapezoidal then -trapezoid tau k else -simpson M tau k

/-- The response for the final grid of `n` samples (lines 191-206). -/
noncomputable def response (n : ℕ) (p : Params) (mag tau : ℕ → ℝ) (j : ℕ) : ℝ :=
  let phase := phaseOf (n / 2 + 1) p.trapezoidal tau
  let new := if n % 2 = 0 ∧ p.integerDelay then LinearPhase.correctPhase (n / 2 + 1) phase else phase
  Deconv.irfft n (n / 2 + 1) (fun k => (mag k : ℂ) * exp (I * new k)) j

/-- `add_extra_sample` (lines 198-201) -/
noncomputable def extra (n : ℕ) (p : Params) (tau : ℕ → ℝ) : ℤ :=
  if n % 2 = 0 ∧ p.integerDelay ∧
    Real.pi / 2 < LinearPhase.pmod (phaseOf (n / 2 + 1) p.trapezoidal tau (n / 2)) Real.pi then 1 else 0

/-- The length is trimmed or padded with zeros (lines 208-217); a negative length (group delays below
minus one sample) is outside the model. -/
noncomputable def trimmed (n : ℕ) (m : ℤ) (p : Params) (mag tau : ℕ → ℝ) : List ℝ :=
  match p.additional with
  | none => (List.range n).map (response n p mag tau)
  | some a => (List.range (m + 1 + extra n p tau + a).toNat).map fun j =>
    if j < n then response n p mag tau j else 0

/-- `__design` (lines 142-218) for the unscaled group delay `target`. PCHIP needs two points
(ValueError). -/
noncomputable def design (N : ℕ) (p : Params) (mag target : ℕ → ℝ) : Except Err (List ℝ) :=
  let m := maxDelay N target
  if Refines N m then
    if N / 2 + 1 < 2 then .error .valueError
    else
      let n := refinedLength m
      .ok (trimmed n m p (fun k => Real.sqrt (interpolate N n (fun i => mag i ^ 2) k))
        (fun k => interpolate N n target k * ((N : ℝ) / n)))
  else .ok (trimmed N m p mag target)

/-- The coefficients of `FirDesigner(mag, gd, N, fs)` (lines 15-46, 93-118, 134-218) after
`set_parameters`. -/
noncomputable def firDesigner (N fs : ℕ) (mag gd : List ℝ) (p : Params) : Except Err (List ℝ) :=
  if N / 2 + 1 ≠ gd.length then .error .assertionError
  else if gd.length ≠ mag.length then .error .assertionError
  else design N p (fun k => mag.getD k 0) (unscaled N fs p.increaseMs fun k => gd.getD k 0)

/-- `GroupDelayDesigner` (lines 221-252) -/
noncomputable def groupDelayDesigner (N fs : ℕ) (gd : List ℝ) (p : Params) : Except Err (List ℝ) :=
  firDesigner N fs (List.replicate gd.length 1) gd p

/-- Target of the `PhaseLinearizer` in seconds (lines 325-338) for `M` bins; `factor` is
`1 + delay_increase_percent / 100`. -/
noncomputable def linearizerTarget (N fs M : ℕ) (factor : ℝ) (phase : ℕ → ℝ) (k : ℕ) : ℝ :=
  let gd := fun k => -GroupDelay.gradient M (Spectrum.unwrap phase) 1 k
  (top M gd * factor - gd k) * factorSeconds N fs

/-- `PhaseLinearizer` (lines 255-349); `percent` is `delay_increase_percent`.  `np.gradient` needs two
values (ValueError). -/
noncomputable def phaseLinearizer (N fs : ℕ) (phase : List ℝ) (percent : ℝ) (p : Params) :
    Except Err (List ℝ) :=
  if ¬ 0 ≤ percent then .error .assertionError
  else if phase.length < 2 then .error .valueError
  else if N / 2 + 1 ≠ phase.length then .error .assertionError
  else design N p (fun _ => 1) fun k =>
    linearizerTarget N fs phase.length (1 + percent / 100) (fun i => phase.getD i 0) k /
      factorSeconds N fs

end Verif.FirDesigner

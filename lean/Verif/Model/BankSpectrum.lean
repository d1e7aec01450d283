import Verif.Model.SpectrumConversion
import Verif.Model.FilterBank
import Verif.Model.Calibration

/-!
# Spectra made from filters, from filter banks and from the bands of a signal
(`dsptoolbox/classes/spectrum.py`, `dsptoolbox/transforms/transforms.py`)

Exact real and complex arithmetic.  A filter is the `Filt` of `Verif.Bank` (FIR, `b` and `a`
coefficients or second-order sections) with the sampling rate given apart.  The design of a
Butterworth band-pass (`Filter.iir_filter`, scipy) is a parameter.
-/

namespace Verif.BankSpectrum

open Spectrum SignalData Bank SpecConv

/-- The point of the unit circle at which `freqz` and `sosfreqz` evaluate a filter for the
frequency `f`. -/
noncomputable def point (fs : ℕ) (f : ℝ) : ℂ :=
  Complex.exp (-(2 * Real.pi * f / fs : ℝ) * Complex.I)

/-- `data if complex else np.abs(data)` -/
noncomputable def keep (cpx : Bool) (A : Mat ℂ) : Mat ℂ :=
  if cpx then A else A.map fun v => ((‖v‖ : ℝ) : ℂ)

/-- `Spectrum.from_filter` (`spectrum.py`, lines 87-110).  The transfer function is an array with
one dimension, of which `np.atleast_2d` makes one row. -/
noncomputable def fromFilter (f : List ℝ) (fs : ℕ) (F : Filt ℝ) (cpx : Bool) : Except Err CSpec :=
  SpecConv.construct f
    (keep cpx ⟨1, f.length, fun _ k => F.tf Complex.ofReal (point fs (f.getD k 0))⟩) (!cpx)

/-- `FilterBankMode` -/
inductive Mode where
  | parallel | sequential | summed

/-- `FilterBank.get_transfer_function` at all frequencies (`filterbank.py`, lines 614-654): shape
(frequency, filter) in parallel mode, one dimension otherwise. -/
noncomputable def bankTf (f : List ℝ) (fs : ℕ) (Fs : List (Filt ℝ)) : Mode → Mat ℂ
  | .parallel => ⟨f.length, Fs.length, fun k j =>
      (tfParallel Complex.ofReal (point fs (f.getD k 0)) Fs).getD j 0⟩
  | .sequential => ⟨1, f.length, fun _ k => tfSequential Complex.ofReal (point fs (f.getD k 0)) Fs⟩
  | .summed => ⟨1, f.length, fun _ k => tfSummed Complex.ofReal (point fs (f.getD k 0)) Fs⟩

/-- `Spectrum.from_filterbank` (`spectrum.py`, lines 112-136) for filters of one sampling rate. -/
noncomputable def fromFilterbank (f : List ℝ) (fs : ℕ) (Fs : List (Filt ℝ)) (mode : Mode)
    (cpx : Bool) : Except Err CSpec :=
  SpecConv.construct f (keep cpx (bankTf f fs Fs mode)) (!cpx)

open Classical in
/-- The edges of the bands in `spectrum_via_filterbank` (`transforms.py`, lines 1364-1381). -/
noncomputable def edges (f : List ℝ) (octaves hz : Option ℝ) : Except Err (List (ℝ × ℝ)) :=
  match octaves, hz with
  | none, none => .error .assertionError
  | none, some b =>
    if ¬ 0 < b then .error .assertionError
    else .ok (f.map fun x => (x - b / 2, x + b / 2))
  | some b, none =>
    if ¬ 0 < b then .error .assertionError
    else .ok (f.map fun x => (x / 2 ^ (b / 2), x * 2 ^ (b / 2)))
  | some _, some _ => .error .assertionError

/-- `rms(mir, False)` (`gain_and_level.py`, lines 190-193): shape (bands, channels), the number of
channels being the one of the first band. -/
noncomputable def rmsTable (bands : List (State ℝ)) (channels : ℕ) : Mat ℂ :=
  ⟨bands.length, channels, fun r c =>
    (((bands.map fun b => Calibration.rmsChannels b.re).getD r []).getD c 0 : ℝ)⟩

/-- `spectrum_via_filterbank` (`transforms.py`, lines 1330-1393) without zero-phase filtering, for
at least one frequency.  `design lo hi` is the Butterworth band-pass of the given order and its
errors. -/
noncomputable def viaFilterbank (design : ℝ → ℝ → Except Err (Filt ℝ)) (s : State ℝ)
    (f : List ℝ) (octaves hz : Option ℝ) : Except Err CSpec :=
  match edges f octaves hz with
  | .error e => .error e
  | .ok bs =>
    match bs.mapM fun p => design p.1 p.2 with
    | .error e => .error e
    | .ok Fs =>
      match parallel Fs s with
      | .error e => .error e
      | .ok bands => SpecConv.construct f (rmsTable bands s.re.cols) true

end Verif.BankSpectrum

import Verif.Model.LFilter
import Verif.Model.PadTrim
import Mathlib.Data.Fintype.Basic
import Mathlib.Algebra.BigOperators.Fin

/-!
# Model of filter banks applied to signals

`classes/filter.py: filter_signal, get_transfer_function`,
`classes/filter_helpers.py: _filter_on_signal, _filter_on_signal_ba, _filterbank_on_signal`,
`classes/filterbank.py: filter_signal, get_transfer_function`,
`classes/multibandsignal.py: collapse`.

Without zero-phase filtering and without carried state (for this see C12).  All filters and
the signal have the same sampling rate and coefficients and signals are real.
-/

namespace Verif.Bank

open Verif.SignalData Verif.LFilter

variable {K : Type} [Field K] [LinearOrder K]

/-- Output `n` of `scipy.signal.lfilter(b, a, x)` (external, modelled by the difference
equation of its documentation). -/
def lfSeq (b a : List K) (x : ℕ → K) (n : ℕ) : K :=
  ((∑ m ∈ Finset.range (n + 1), b.getD m 0 * x (n - m)) -
    ∑ m : Fin n, a.getD (n - m) 0 * lfSeq b a x m) / a.getD 0 0
termination_by n
decreasing_by exact m.2

/-- `lfilter` on a finite channel. -/
def lfilter (b a x : List K) : List K :=
  (List.range x.length).map (lfSeq b a fun n => x.getD n 0)

/-- The forms a filter is stored in: FIR coefficients, `b` and `a` coefficients, or
second-order sections. -/
inductive Filt (K : Type)
  | fir (b : List K)
  | ba (b a : List K)
  | sos (sections : List (List K × List K))

/-- Filtering of one channel: `_lfilter_fir` (`filter_helpers.py`, lines 454-503),
`sig.lfilter` or `sig.sosfilt` (one section after the other). -/
def Filt.channel : Filt K → List K → List K
  | .fir b, x => (fullConv b x).take x.length
  | .ba b a, x => lfilter b a x
  | .sos secs, x => secs.foldl (fun x s => lfilter s.1 s.2 x) x

/-- `filter_signal` on all channels (`filter.py`, lines 648-743, `filter_helpers.py`, lines
205-382).  The result is built with `copy_with_new_time_data`, so that it is normalised if
the signal constrains its amplitude. -/
def filterSignal (F : Filt K) (s : State K) : Except Err (State K) :=
  copyWith s (ofCols s.re.rows s.re.cols fun c => F.channel (colOf s.re c))

/-- Parallel mode (`filter_helpers.py`, lines 421-431): the bands. -/
def parallel (Fs : List (Filt K)) (s : State K) : Except Err (List (State K)) :=
  Fs.mapM fun F => filterSignal F s

/-- Sequential mode (`filter_helpers.py`, lines 432-438). -/
def sequential (Fs : List (Filt K)) (s : State K) : Except Err (State K) :=
  Fs.foldlM (fun s F => filterSignal F s) s

/-- Sum of the (real) data of signals of the same shape, sample by sample. -/
def sumOf (rows cols : ℕ) (ss : List (State K)) : Input K :=
  ⟨rows, cols, fun r c => (ss.map fun s => s.re.val r c).sum, none⟩

/-- Summed mode (`filter_helpers.py`, lines 439-449). -/
def summed (Fs : List (Filt K)) (s : State K) : Except Err (State K) := do
  let ss ← Fs.mapM fun F => filterSignal F s
  copyWith s (sumOf s.re.rows s.re.cols ss)

/-- `collapse` of a multiband signal with real bands (`multibandsignal.py`, lines 405-427).
`self.bands[0]` raises IndexError without bands. -/
def collapse (bands : List (State K)) : Except Err (State K) :=
  match bands with
  | [] => .error .indexError
  | b :: _ => copyWith b (sumOf b.re.rows b.re.cols bands)

/-- `get_transfer_function` of a filter at the point `w = exp(-i Ω)` (`filter.py`, lines
858-900; `freqz` and `sosfreqz` evaluate numerator and denominator). -/
def evalPoly {R : Type} [Semiring R] (c : List R) (w : R) : R :=
  ∑ m ∈ Finset.range c.length, c.getD m 0 * w ^ m

/-- Transfer function of one filter; coefficients embedded in the field of `w` with `φ`. -/
def Filt.tf {C : Type} [Field C] (φ : K → C) (w : C) : Filt K → C
  | .fir b => evalPoly (b.map φ) w / evalPoly ([1].map φ) w
  | .ba b a => evalPoly (b.map φ) w / evalPoly (a.map φ) w
  | .sos secs => (secs.map fun s => evalPoly (s.1.map φ) w / evalPoly (s.2.map φ) w).prod

/-- `FilterBank.get_transfer_function`, parallel mode (`filterbank.py`, lines 637-643). -/
def tfParallel {C : Type} [Field C] (φ : K → C) (w : C) (Fs : List (Filt K)) : List C :=
  Fs.map (Filt.tf φ w)

/-- Sequential mode (lines 644-647): starts with ones. -/
def tfSequential {C : Type} [Field C] (φ : K → C) (w : C) (Fs : List (Filt K)) : C :=
  Fs.foldl (fun h F => h * F.tf φ w) 1

/-- Summed mode (lines 648-651): also starts with **ones**. -/
def tfSummed {C : Type} [Field C] (φ : K → C) (w : C) (Fs : List (Filt K)) : C :=
  Fs.foldl (fun h F => h + F.tf φ w) 1

/-- `dirac` (`generators/generators.py`, lines 272-314) with one channel and no delay: the
amplitude is constrained by default. -/
def dirac (n : ℕ) : State K := ⟨⟨n, 1, fun r _ => if r = 0 then 1 else 0⟩, none, true, 1⟩

/-- `FilterBank.get_ir` in summed mode for a length not below the orders of the filters
(`filterbank.py`, lines 551-612). -/
def bankIrSummed (Fs : List (Filt K)) (n : ℕ) : Except Err (State K) := summed Fs (dirac n)

end Verif.Bank

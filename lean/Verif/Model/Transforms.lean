import Verif.Model.DFT
import Verif.Model.PadTrim
import Mathlib.Analysis.SpecialFunctions.Complex.Log

/-!
# Model of `dsptoolbox/transforms/transforms.py`: analytic signal, mid-side, transform at any
frequency, cepstrum

The transforms of `numpy.fft` are the formulas of `Model/DFT`; exact arithmetic.
-/

namespace Verif.Transforms

open Complex SignalData

/-- `np.fft.ifft` of `N` bins, sample `j`. -/
noncomputable def ifft (N : ℕ) (X : ℕ → ℂ) (j : ℕ) : ℂ :=
  (∑ k ∈ Finset.range N, X k * DFT.e N (k * j)) / N

/-- What `hilbert` does to bin `k` of the transform (`transforms.py`, lines 794-800). -/
noncomputable def analyticBin (N : ℕ) (X : ℕ → ℂ) (k : ℕ) : ℂ :=
  if N % 2 = 0 then
    if 1 ≤ k ∧ k < N / 2 then X k * 2
    else if N / 2 + 1 ≤ k then 0
    else X k
  else
    if 1 ≤ k ∧ k < (N + 1) / 2 then X k * 2
    else if (N + 1) / 2 ≤ k then 0
    else X k

/-- The complex time series of a channel (`transforms.py`, lines 792-802). -/
noncomputable def analytic (N : ℕ) (x : ℕ → ℝ) (j : ℕ) : ℂ :=
  ifft N (analyticBin N (DFT.dft N fun n => (x n : ℂ))) j

/-- `hilbert` of a `Signal` (`transforms.py`, lines 763-802): only the real part of the data is
transformed. -/
noncomputable def hilbert (s : State ℝ) : Except Err (State ℝ) :=
  let y : ℕ → ℕ → ℂ := fun r c => analytic s.re.rows (fun n => s.re.val n c) r
  copyWith s ⟨s.re.rows, s.re.cols, fun r c => (y r c).re, some fun r c => (y r c).im⟩

/-- The loop `for ind, b in enumerate(new_mb): new_mb.bands[ind] = hilbert(b)` (`transforms.py`, lines 805-806):
the iterator reads the list that is being changed, from the index `ind` on. -/
noncomputable def hilbertBands (bands : List (State ℝ)) (ind : ℕ) : Except Err (List (State ℝ)) :=
  if h : ind < bands.length then
    match hilbert bands[ind] with
    | .error e => .error e
    | .ok y => hilbertBands (bands.set ind y) (ind + 1)
  else .ok bands
termination_by bands.length - ind
decreasing_by simp; omega

/-- `hilbert` of a `MultiBandSignal` (`transforms.py`, lines 803-807): its bands. -/
noncomputable def hilbertMultiband (bands : List (State ℝ)) : Except Err (List (State ℝ)) := hilbertBands bands 0

/-- `stereo_mid_side` (`transforms.py`, lines 926-952). -/
def midSide {K : Type} [Field K] [LinearOrder K] (s : State K) (forward : Bool) :
    Except Err (State K) :=
  if s.re.cols = 2 then
    copyWith s ⟨s.re.rows, 2,
      fun r c =>
        let v := if c = 0 then s.re.val r 0 + s.re.val r 1 else s.re.val r 0 - s.re.val r 1
        if forward then v / 2 else v,
      none⟩
  else .error .assertionError

/-- `dft` of a channel of `N` samples at the frequency `f` (`transforms.py`, lines 1286-1327, and
`_dft_backend`, `_transforms.py`, lines 479-500): `f_normalized` is `f * (N / fs)`, the exponent
has the entries of `np.linspace(0, 1, N, endpoint=False)`. -/
noncomputable def dftAt (N fs : ℕ) (x : ℕ → ℝ) (f : ℝ) : ℂ :=
  ∑ n ∈ Finset.range N, exp (-2 * I * Real.pi * (n / N) * (f * (N / fs))) * x n

/-- `cepstrum(signal, complex=True)` of a channel (`transforms.py`, lines 59-86); the logarithm
is the principal one.  A bin that is zero has the logarithm `-inf`, which spreads to the whole
result: `none`. -/
noncomputable def complexCepstrum (N : ℕ) (x : ℕ → ℝ) : Option (ℕ → ℂ) :=
  open Classical in
  if ∃ k < N, DFT.rfft N x k = 0 then none
  else some (ifft N fun k => Complex.log (DFT.rfft N x k))

/-- `cepstrum(signal, complex=False)` of a channel (`transforms.py`, lines 59-86). -/
noncomputable def realCepstrum (N : ℕ) (x : ℕ → ℝ) : Option (ℕ → ℂ) :=
  open Classical in
  if ∃ k < N, DFT.rfft N x k = 0 then none
  else some (ifft N fun k => (Real.log ‖DFT.rfft N x k‖ : ℂ))

/-- The array that `from_complex_cepstrum` computes (`transforms.py`, line 108), one channel. -/
noncomputable def cepstrumSamples (N : ℕ) (c : ℕ → ℂ) (j : ℕ) : ℝ :=
  (ifft N (fun k => exp (DFT.dft N c k)) j).re

/-- `from_complex_cepstrum` (`transforms.py`, lines 89-110) for `channels` cepstra of length `N`:
`Signal.from_time_data` has `constrain_amplitude=True`. -/
noncomputable def fromCepstrum (N channels : ℕ) (c : ℕ → ℕ → ℂ) : Except Err (State ℝ) :=
  construct ⟨N, channels, fun r ch => cepstrumSamples N (c ch) r, none⟩ true

end Verif.Transforms

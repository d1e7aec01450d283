import Verif.Model.CSM
import Verif.Model.BlockFIR
import Verif.Model.Helpers
import Verif.Model.TukeyWindow

/-!
# Model of the deconvolution of two signals

`transfer_functions/transfer_functions.py: spectral_deconvolve`,
`transfer_functions/_transfer_functions.py: _spectral_deconvolve`,
`classes/signal.py: get_spectrum` with `SpectrumMethod.FFT` and
`helpers/other.py: find_frequencies_above_threshold`.  Exact arithmetic; `nan` is `none`.
-/

namespace Verif.Deconv

open Complex Scaling

/-- Full spectrum that `numpy.fft.irfft(X, n)` (external) assumes for the bins `X`: the imaginary
parts of the bins `0` and, for an even length, `n/2` are ignored, the upper half is the mirrored
conjugate. -/
noncomputable def herm (n : ℕ) (X : ℕ → ℂ) (k : ℕ) : ℂ :=
  if k = 0 then ((X 0).re : ℂ)
  else if 2 * k < n then X k
  else if 2 * k = n then ((X k).re : ℂ)
  else (starRingEnd ℂ) (X (n - k))

/-- Sample `j` of `numpy.fft.irfft(X, n)` for `M` bins `X 0 … X (M - 1)`; missing bins are zero,
bins behind `n / 2` are dropped. -/
noncomputable def irfft (n M : ℕ) (X : ℕ → ℂ) (j : ℕ) : ℝ :=
  ((∑ k ∈ Finset.range n, herm n (fun k => if k < M then X k else 0) k * DFT.e n (k * j)) / n).re

/-- A signal: its data (one column for each channel), its sampling rate and the parameters of its
spectrum that matter with `method=FFT`.  Smoothing is left out (`smoothing=0`). -/
structure Sig where
  data : Mat ℝ
  fs : ℕ
  scaling : Scaling
  fast : Bool
  window : Option (List ℝ)

/-- `fft_length` (`signal.py`, lines 900-904). -/
noncomputable def fftLength (fast : Bool) (N : ℕ) : ℕ := if fast then BlockFIR.nextFastLen N else N

/-- `get_spectrum` with `SpectrumMethod.FFT` (`signal.py`, lines 899-937): bin `k` of channel `c`. -/
noncomputable def fftSpectrum (s : Sig) : Except Err (ℕ → ℕ → ℂ) :=
  let F := fftLength s.fast s.data.rows
  let X : ℕ → ℕ → ℂ := fun c k => (CSM.fftNorm s.scaling F : ℝ) *
    DFT.rfft F (fun j => if j < s.data.rows then s.data.val j c else 0) k
  if CSM.physical s.scaling then
    match scaleSpectrum (DFT.rfftBins F) (X 0) s.scaling F s.fs s.window with
    | .error e => .error e
    | .ok _ => .ok fun c k =>
      match scaleSpectrum (DFT.rfftBins F) (X c) s.scaling F s.fs s.window with
      | .error _ => 0
      | .ok Y => Y k
  else .ok X

/-- `np.fft.rfftfreq(F, 1 / fs)` -/
noncomputable def freqs (F fs : ℕ) : List ℝ :=
  (List.range (DFT.rfftBins F)).map fun k : ℕ => (k : ℝ) * fs / F

/-- `to_db(spec, True)` of one bin (`gain_and_level.py`, lines 158-200, with the default
`min_value`, the smallest normal double). -/
noncomputable def binDb (X : ℕ → ℂ) (k : ℕ) : ℝ := 20 * Real.logb 10 (max ‖X k‖ (2 ^ (-1022 : ℤ)))

/-- `np.max` of the bins `0 … M - 1` (`M > 0`). -/
noncomputable def maxDb (X : ℕ → ℂ) (M : ℕ) : ℝ :=
  (List.range (M - 1)).foldl (fun m k => max m (binDb X (k + 1))) (binDb X 0)

/-- `find_frequencies_above_threshold` (`other.py`, lines 34-41); `freqs[0]` of an empty array
raises IndexError. -/
noncomputable def above (X : ℕ → ℂ) (f : List ℝ) (thr : ℝ) : Except Err (List ℝ) :=
  let l := ((List.range f.length).filter fun k => binDb X k - maxDb X f.length > thr).map
    fun k => f.getD k 0
  match l.head?, l.getLast? with
  | some a, some b => .ok [a, b]
  | _, _ => .error .indexError

/-- The computation of `start_stop_hz` for one channel (`transfer_functions.py`, lines 151-168). -/
noncomputable def nextRange (v : Option (List ℝ)) (X : ℕ → ℂ) (f : List ℝ) (fs : ℕ) (thr : ℝ) :
    Except Err (List ℝ) :=
  match (match v with
    | none => above X f thr
    | some l => .ok l) with
  | .error e => .error e
  | .ok l =>
    match l with
    | [a, b] => .ok [a / Real.sqrt 2, a, b, min (b * Real.sqrt 2) (fs / 2)]
    | [_, _, _, _] => .ok l
    | _ => .error .valueError

/-- `eps` (`_transfer_functions.py`, lines 31-34). -/
noncomputable def epsilon (points f : List ℝ) : Except Err (List ℝ) :=
  match Helpers.findNearest points f with
  | .error e => .error e
  | .ok ids =>
    match Tukey.window ids f.length Tukey.hann Tukey.hann true true with
    | .error e => .error e
    | .ok w => .ok (w.map (· * (10 : ℝ) ^ (30 / 20 : ℝ)))

/-- A column of samples: `none` if a division by zero occurred, since one bin with `nan` makes all
samples `nan`. -/
noncomputable def backBins (M n : ℕ) (num den : ℕ → ℂ) : Option (ℕ → ℝ) :=
  open Classical in
  if ∀ k < M, 2 * k ≤ n → den k ≠ 0 then some (irfft n M fun k => num k / den k) else none

/-- `_spectral_deconvolve` (`_transfer_functions.py`, lines 19-42) for `M` bins; `range` is
`start_stop_hz` in the regularized mode and `none` in the standard mode. -/
noncomputable def backend (My Mx : ℕ) (Y X : ℕ → ℂ) (f : List ℝ) (n : ℕ) (range : Option (List ℝ)) :
    Except Err (Option (ℕ → ℝ)) :=
  if My ≠ Mx ∨ f.length ≠ My then .error .assertionError
  else match range with
    | none => .ok (backBins My n Y X)
    | some points =>
      match epsilon points f with
      | .error e => .error e
      | .ok eps =>
        .ok (backBins My n (fun k => Y k * (starRingEnd ℂ) (X k))
          fun k => ((‖X k‖ ^ 2 + eps.getD k 0 : ℝ) : ℂ))

/-- The loop over the channels (`transfer_functions.py`, lines 148-178), `todo` channels being left
starting with channel `n`; the variable `start_stop_hz` is overwritten. -/
noncomputable def loop (My Mx : ℕ) (Y X : ℕ → ℕ → ℂ) (single reg : Bool) (f : List ℝ) (fs len : ℕ)
    (thr : ℝ) : ℕ → ℕ → Option (List ℝ) → Except Err (List (Option (ℕ → ℝ)))
  | 0, _, _ => .ok []
  | todo + 1, n, v =>
    let nd := if single then 0 else n
    match (if reg then (nextRange v (X nd) f fs thr).map some else .ok none) with
    | .error e => .error e
    | .ok v' =>
      match backend My Mx (Y n) (X nd) f len v' with
      | .error e => .error e
      | .ok col =>
        match loop My Mx Y X single reg f fs len thr todo (n + 1) v' with
        | .error e => .error e
        | .ok l => .ok (col :: l)

/-- `_pad_trim` of the data to `n` samples (`transfer_functions.py`, lines 137-138 and 183). -/
def padded {K : Type} (A : Mat K) (z : K) (n : ℕ) : Mat K :=
  ⟨n, A.cols, fun r c => if r < A.rows then A.val r c else z⟩

/-- `spectral_deconvolve` (`transfer_functions.py`, lines 61-184).  The result has the shape of
the output (which has at least as many samples as channels), so that the constructor of the
impulse response leaves it as it is; its amplitude is not constrained. -/
noncomputable def deconvolve (out inp : Sig) (reg : Bool) (startStop : Option (List ℝ)) (thr : ℝ)
    (padding keep : Bool) : Except Err (Mat (Option ℝ)) :=
  if out.data.rows ≠ inp.data.rows then .error .assertionError
  else if inp.data.cols ≠ 1 ∧ out.data.cols ≠ inp.data.cols then .error .assertionError
  else if out.fs ≠ inp.fs then .error .assertionError
  else if reg = false ∧ startStop.isSome then .error .assertionError
  else
    let N := out.data.rows
    let len := if padding then N * 2 else N
    let o : Sig := if padding then { out with data := padded out.data 0 len } else out
    let i : Sig := if padding then { inp with data := padded inp.data 0 len } else inp
    match fftSpectrum i, fftSpectrum o with
    | .error e, _ => .error e
    | .ok _, .error e => .error e
    | .ok X, .ok Y =>
      let Fo := fftLength o.fast len
      match loop (DFT.rfftBins Fo) (DFT.rfftBins (fftLength i.fast len)) Y X (inp.data.cols = 1) reg
        (freqs Fo out.fs) out.fs len thr out.data.cols 0 startStop with
      | .error e => .error e
      | .ok l =>
        let res : Mat (Option ℝ) :=
          ⟨len, out.data.cols, fun r c => (l.getD c none).map fun g => g r⟩
        .ok (if padding = true ∧ keep = true then padded res (some 0) N else res)

end Verif.Deconv

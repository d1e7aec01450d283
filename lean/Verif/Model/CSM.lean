import Verif.Model.Scaling
import Verif.Model.Framing
import Mathlib.Analysis.SpecialFunctions.Complex.Log
import Mathlib.Analysis.SpecialFunctions.Pow.Complex
import Mathlib.Data.List.Sort

/-!
# Model of the periodogram of Welch and of the cross-spectral matrix

`standard/_spectral_methods.py`: `_welch`, `_csm_welch`, `_csm_fft`.  Exact arithmetic over
the real and complex numbers; the check of the overlap-and-add condition only emits a warning
and is left out.
-/

namespace Verif.CSM

open Complex Scaling

/-- `has_physical_units` (`enums.py`, lines 110-124). -/
def physical : Scaling → Bool
  | .ampSpectrum | .ampDensity | .powSpectrum | .powDensity => true
  | _ => false

/-- The factor that the argument `norm=scaling.fft_norm()` brings to a transform of length `N`
(`enums.py`, lines 53-75). -/
noncomputable def fftNorm (s : Scaling) (N : ℕ) : ℝ :=
  match s with
  | .fftForward => 1 / N
  | .fftOrthogonal => 1 / Real.sqrt N
  | _ => 1

/-- The parameters `average`. -/
inductive Average where
  | mean | median
deriving DecidableEq

/-- Parameters of the periodogram; `window` is what `scipy.signal.windows.get_window` returns. -/
structure Params where
  W : ℕ
  window : List ℝ
  overlap : ℕ
  detrend : Bool
  average : Average
  fs : ℕ

/-- `step` (`_spectral_methods.py`, lines 105-106).  The window length is a power of two, so
that truncating the float product agrees with the integer division. -/
def Params.step (p : Params) : ℕ := p.W - p.overlap * p.W / 100

/-- The frames of a channel; empty if framing raises (see `check`). -/
noncomputable def frames (p : Params) (x : List ℝ) : List (List ℝ) :=
  match Framing.framed x p.W p.step true with
  | .ok l => l
  | .error _ => []

/-- Exceptions of `_welch` for channels of `L` samples: the assertions on the parameters, and the
average over axis 1 after `np.squeeze` removed this axis in case of a single frame
(`AxisError`, a ValueError). -/
def check (p : Params) (L : ℕ) : Option Err :=
  if (∃ e ∈ List.range 19, 3 ≤ e ∧ p.W = 2 ^ e) then
    if p.overlap < 100 then
      match Framing.framed (List.replicate L (0 : ℚ)) p.W p.step true with
      | .error e => some e
      | .ok l => if l.length = 1 then some .valueError else none
    else some .assertionError
  else some .assertionError

/-- Sample `i` of a frame after windowing and removal of the mean (lines 125-140). -/
noncomputable def prepared (p : Params) (frame : List ℝ) (i : ℕ) : ℝ :=
  let w : ℕ → ℝ := fun i => frame.getD i 0 * p.window.getD i 0
  if p.detrend then w i - (∑ j ∈ Finset.range p.W, w j) / p.W else w i

/-- Bin `k` of the transform of a frame. -/
noncomputable def frameBin (p : Params) (s : Scaling) (frame : List ℝ) (k : ℕ) : ℂ :=
  (fftNorm s p.W : ℝ) * DFT.rfft p.W (prepared p frame) k

/-- `np.median` -/
noncomputable def median (l : List ℝ) : ℝ :=
  let t := l.insertionSort (· ≤ ·)
  if l.length % 2 = 1 then t.getD (l.length / 2) 0
  else (t.getD (l.length / 2 - 1) 0 + t.getD (l.length / 2) 0) / 2

/-- The bias of the median (lines 155-161): the sum runs over the single number `n`. -/
noncomputable def bias (frames : ℕ) : ℝ :=
  let n := if frames % 2 = 1 then frames else frames - 1
  (-1) ^ (n + 1) / n

/-- Averaging over the frames (lines 151-162). -/
noncomputable def averaged (a : Average) (l : List ℂ) : ℂ :=
  match a with
  | .mean => l.sum / l.length
  | .median => ((median (l.map re) : ℝ) + I * (median (l.map im) : ℝ)) / (bias l.length : ℝ)

/-- Averaged products of the frames of two channels (lines 142-162); `none` stands for the
autospectrum. -/
noncomputable def products (p : Params) (s : Scaling) (x : List ℝ) (y : Option (List ℝ)) (k : ℕ) :
    List ℂ :=
  match y with
  | none => (frames p x).map fun f => ((‖frameBin p s f k‖ ^ 2 : ℝ) : ℂ)
  | some y => List.zipWith (fun f g => (starRingEnd ℂ) (frameBin p s f k) * frameBin p s g k)
      (frames p x) (frames p y)

/-- `np.sqrt` of a complex number. -/
noncomputable def csqrt (z : ℂ) : ℂ := z ^ (1 / 2 : ℂ)

/-- The scaling of the periodogram (lines 164-171). -/
noncomputable def welchScale (p : Params) (s : Scaling) (k : ℕ) (c : ℂ) : ℂ :=
  let c1 := if physical s then c * (factor s p.W p.fs (some p.window) : ℝ) else c
  let c2 := if physical s = true ∧ (k = 0 ∨ k = p.W / 2) then c1 / 2 else c1
  if s.isAmplitude then csqrt c2 else c2

/-- Value of `_welch` (lines 10-173) at bin `k`. -/
noncomputable def welch (p : Params) (s : Scaling) (x : List ℝ) (y : Option (List ℝ)) (k : ℕ) : ℂ :=
  welchScale p s k (averaged p.average (products p s x y k))

/-- The loops over the channels (lines 353-369 and 423-431): `E i j` is written to row `j`,
column `i` for `i ≤ j`. -/
noncomputable def lower (E : ℕ → ℕ → ℂ) (r c : ℕ) : ℂ :=
  if c < r then E c r else if c = r then E c r * 0.5 else 0

/-- `csm += np.swapaxes(csm, 1, 2).conjugate()` -/
noncomputable def assemble (E : ℕ → ℕ → ℂ) (r c : ℕ) : ℂ :=
  lower E r c + (starRingEnd ℂ) (lower E c r)

/-- `_csm_welch` (lines 285-371): entry `k r c` of the result for channels `x 0 … x (n - 1)` of
`L` samples. -/
noncomputable def csmWelch (p : Params) (s : Scaling) (n L : ℕ) (x : ℕ → List ℝ) :
    Except Err (ℕ → ℕ → ℕ → ℂ) :=
  match (if n = 0 then none else check p L) with
  | some e => .error e
  | none => .ok fun k => assemble fun i j =>
      welch p s (x i) (if i ≠ j then some (x j) else none) k

/-- `_csm_fft` (lines 374-443) for `n` channels and `F` bins.  With a window the factors of the
channels are repeated to `n²` columns, which cannot be broadcast for more than one channel. -/
noncomputable def csmFft (F n fs : ℕ) (s : Scaling) (window : Option (List ℝ))
    (X : ℕ → ℕ → ℂ) : Except Err (ℕ → ℕ → ℕ → ℂ) :=
  let C : ℕ → ℕ → ℕ → ℂ := fun k => assemble fun i j => (starRingEnd ℂ) (X i k) * X j k
  if s = .fftBackward then .ok C
  else if window.isSome ∧ n ≠ 1 ∧ physical s = true then .error .valueError
  else
    .ok fun k r c =>
      let v := (if k = 0 ∨ k = F - 1 then C k r c / 2 else C k r c) *
        (conversionFactor .fftBackward s (F / 2 + 1) fs window : ℝ)
      if s.isAmplitude then csqrt v else v

end Verif.CSM

import Verif.Model.Mel
import Verif.Model.DecayCurve
import Mathlib.Analysis.Complex.Norm
import Mathlib.Analysis.SpecialFunctions.Trigonometric.Basic

/-!
# Model of the chroma features, the log mel spectrogram and the MFCC

`transforms/transforms.py: log_mel_spectrogram` (lines 113-195), `mfcc` (lines 335-441), `chroma_stft` (lines
589-684) and `transforms/_transforms.py: _pitch2frequency` (lines 10-26).

The frames of the spectrogram and its channels are treated alike and independently: one frame of one channel is modelled,
with its complex bins `X 0, ..., X (n - 1)` and the frequency vector `f`.  Exact arithmetic; nan is `none`.
The plots and the setting of STFT parameters are left out.
-/

namespace Verif.Chroma

open Finset

/-- `_pitch2frequency` (`_transforms.py`, lines 25-26): the frequency of pitch `p < 128`. -/
noncomputable def pitchFrequency (tuning : ℝ) (p : ℕ) : ℝ := tuning * 2 ^ (((p : ℝ) - 69) / 12)

/-- `np.abs(stft) ** 2` -/
noncomputable def energy (X : ℕ → ℂ) (k : ℕ) : ℝ := ‖X k‖ ^ 2

/-- The matrix `pitch_transformation` (`transforms.py`, lines 648-652). -/
noncomputable def pitchMatrix (tuning : ℝ) (f : ℕ → ℝ) (p k : ℕ) : ℝ :=
  if f k ≥ pitchFrequency tuning p * 2 ^ (-1 / 24 : ℝ) ∧ f k < pitchFrequency tuning p * 2 ^ (1 / 24 : ℝ)
  then 1 else 0

/-- The matrix `chroma_transformation` (lines 655-658): `[i, i::12] = 1`. -/
def chromaMatrix (i p : ℕ) : ℝ := if i ≤ p ∧ (p - i) % 12 = 0 then 1 else 0

/-- `np.tensordot(pitch_transformation, stft, (1, 0))` (line 661). -/
noncomputable def pitchEnergy (tuning : ℝ) (n : ℕ) (f : ℕ → ℝ) (X : ℕ → ℂ) (p : ℕ) : ℝ :=
  ∑ k ∈ range n, pitchMatrix tuning f p k * energy X k

/-- `np.tensordot(chroma_transformation, pitch_stft, (1, 0))` (line 663). -/
noncomputable def chromaEnergy (tuning : ℝ) (n : ℕ) (f : ℕ → ℝ) (X : ℕ → ℂ) (i : ℕ) : ℝ :=
  ∑ p ∈ range 128, chromaMatrix i p * pitchEnergy tuning n f X p

/-- The features of a frame. -/
structure Features where
  chroma : ℕ → ℝ
  pitch : ℕ → ℝ

/-- `chroma_stft` (lines 637-666). -/
noncomputable def chromaStft (tuning compression : ℝ) (n : ℕ) (f : ℕ → ℝ) (X : ℕ → ℂ) : Except Err Features :=
  if ¬ 0 < tuning then .error .assertionError
  else if ¬ 0 < compression then .error .assertionError
  else .ok ⟨fun i => Real.log (1 + compression * chromaEnergy tuning n f X i),
    fun p => Real.log (1 + compression * pitchEnergy tuning n f X p)⟩

/-- `np.tensordot(mfilt, np.abs(sp) ** 2.0, axes=(-1, 0))` for band `b` (lines 180 and 420): one nan in the row makes the
product nan. -/
noncomputable def bandEnergy (n : ℕ) (row : ℕ → Option ℝ) (X : ℕ → ℂ) : Option ℝ :=
  if ∀ k < n, (row k).isSome then some (∑ k ∈ range n, (row k).getD 0 * energy X k) else none

/-- `to_db(., False)`, which leaves nan as it is (lines 182 and 423). -/
noncomputable def bandLevel (n : ℕ) (row : ℕ → Option ℝ) (X : ℕ → ℂ) : Option ℝ :=
  (bandEnergy n row X).map DecayCurve.powerDb

/-- `log_mel_spectrogram` (lines 177-182): the centre frequencies and the level of each band. -/
noncomputable def logMel (f : List ℝ) (range : Option (ℝ × ℝ)) (bands : ℕ) (X : ℕ → ℂ) :
    Except Err (List ℝ × List (Option ℝ)) :=
  match Mel.filterbank f range bands true with
  | .error e => .error e
  | .ok B => .ok ((List.range bands).map fun (b : ℕ) => B.centers b,
      (List.range bands).map fun (b : ℕ) => bandLevel f.length (B.val b) X)

/-- `dct(x, type=2)` of scipy without normalisation. -/
noncomputable def dct2 (N : ℕ) (x : ℕ → ℝ) (k : ℕ) : ℝ :=
  2 * ∑ n ∈ range N, x n * Real.cos (Real.pi * k * (2 * n + 1) / (2 * N))

/-- `np.abs(dct(log_sp, type=2, axis=0))` with nan pruned (lines 426-429): one nan among the bands makes all coefficients
nan, and these become 0. -/
noncomputable def coefficients (levels : List (Option ℝ)) : List ℝ :=
  (List.range levels.length).map fun (k : ℕ) =>
    if levels.all Option.isSome then |dct2 levels.length (fun n => (levels.getD n none).getD 0) k| else 0

/-- A matrix of mel filters passed by the user. -/
structure Given where
  bands : ℕ
  bins : ℕ
  val : ℕ → ℕ → ℝ

/-- `mfcc` (lines 407-429): the frequency vector in mel and the coefficients. -/
noncomputable def mfcc (f : List ℝ) (given : Option Given) (X : ℕ → ℂ) : Except Err (List ℝ × List ℝ) :=
  match given with
  | none =>
    match Mel.filterbank f none 40 true with
    | .error e => .error e
    | .ok B => .ok ((List.range 40).map fun (b : ℕ) => B.centers b,
        coefficients ((List.range 40).map fun (b : ℕ) => bandLevel f.length (B.val b) X))
  | some M =>
    if ¬ M.bins = f.length then .error .assertionError
    else .ok ([0, (M.bands : ℝ)],
      coefficients ((List.range M.bands).map fun (b : ℕ) => bandLevel f.length (fun k => some (M.val b k)) X))

end Verif.Chroma

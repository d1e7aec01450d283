import Verif.Spec.Realtime
import Verif.Model.DFT
import Mathlib.Analysis.SpecialFunctions.Pow.Real

/-!
# Model of the reconstructing bank of fractional octave filters

`filterbanks/filterbanks.py: reconstructing_fractional_octave_bands`, `tools.py:
fractional_octave_frequencies` (limits of the bands only). Exact arithmetic. The choice of the centre
frequencies is not modelled; the bins `k₁` of the lower cut-off frequencies and the overlaps `P` are
parameters of the loop.
-/

namespace Verif.OctaveBands

open Complex

/-- `np.round`: the nearest integer, the even one of two. -/
noncomputable def roundEven (x : ℝ) : ℤ :=
  if x - ⌊x⌋ < 1 / 2 then ⌊x⌋
  else if 1 / 2 < x - ⌊x⌋ then ⌊x⌋ + 1
  else if ⌊x⌋ % 2 = 0 then ⌊x⌋ else ⌊x⌋ + 1

/-- `k_1` (`filterbanks.py`, line 151, `tools.py`, lines 252-254) for a centre frequency. -/
noncomputable def lowBin (N fs fraction : ℕ) (f : ℝ) : ℤ :=
  roundEven (N * (f * ((10 : ℝ) ^ (3 / 10 : ℝ)) ^ (-1 / 2 / fraction : ℝ)) / fs)

/-- `k_m` (`filterbanks.py`, line 152). -/
noncomputable def midBin (N fs : ℕ) (f : ℝ) : ℤ := roundEven (N * f / fs)

/-- `k_2` (`filterbanks.py`, line 153, `tools.py`, lines 252-254). -/
noncomputable def highBin (N fs fraction : ℕ) (f : ℝ) : ℤ :=
  roundEven (N * (f * ((10 : ℝ) ^ (3 / 10 : ℝ)) ^ (1 / 2 / fraction : ℝ)) / fs)

/-- `P` (`filterbanks.py`, line 156). -/
noncomputable def overlapBins (N fs fraction : ℕ) (overlap f : ℝ) : ℤ :=
  roundEven (overlap / 2 * (highBin N fs fraction f - midBin N fs f))

/-- `phi` (`filterbanks.py`, lines 165-173): the values before the shift to `[0, 1]`, for the index
`p` from `-P` to `P`. -/
noncomputable def ramp (P : ℕ) (slope : ℕ) (p : ℤ) : ℝ :=
  (fun x => Real.sin (Real.pi / 2 * x))^[slope] ((p : ℝ) / P)

/-- The angle of the fade (`filterbanks.py`, lines 175-184). -/
noncomputable def angle (P slope : ℕ) (p : ℤ) : ℝ := Real.pi / 2 * (0.5 * (ramp P slope p + 1))

/-- One pass of the loop (`filterbanks.py`, lines 163-188) on the array `g`, a function of band and bin. A
fade that does not fit into the bins raises ValueError (shapes do not match). -/
noncomputable def pass (bins : ℕ) (k₁ P : ℕ → ℕ) (slope : ℕ) (g : ℕ → ℕ → ℝ) (b : ℕ) : Except Err (ℕ → ℕ → ℝ) :=
  if 0 < P b ∧ (k₁ b < P b ∨ bins < k₁ b + P b + 1) then .error .valueError
  else
    let faded : ℕ → ℕ → ℝ := fun c k =>
      if 0 < P b ∧ k₁ b - P b ≤ k ∧ k < k₁ b + P b + 1 then
        if c = b - 1 then Real.cos (angle (P b) slope ((k : ℤ) - k₁ b))
        else if c = b then Real.sin (angle (P b) slope ((k : ℤ) - k₁ b))
        else g c k
      else g c k
    .ok fun c k =>
      if c = b - 1 ∧ k₁ b + P b ≤ k then 0
      else if c = b ∧ k < k₁ b - P b then 0
      else faded c k

/-- The loop over the bands `1, …, n` (`filterbanks.py`, lines 158-188). -/
noncomputable def gains (bins : ℕ) (k₁ P : ℕ → ℕ) (slope : ℕ) : ℕ → Except Err (ℕ → ℕ → ℝ)
  | 0 => .ok fun _ _ => 1
  | b + 1 =>
    match gains bins k₁ P slope b with
    | .error e => .error e
    | .ok g => pass bins k₁ P slope g (b + 1)

/-- `windows.hann(M)` (symmetric). -/
noncomputable def hann (M j : ℕ) : ℝ := 0.5 - 0.5 * Real.cos (2 * Real.pi * j / (M - 1))

/-- Spectrum of a band with linear phase (`filterbanks.py`, lines 191-196). -/
noncomputable def spectrum (N fs : ℕ) (g : ℕ → ℝ) (k : ℕ) : ℂ :=
  ((g k ^ 2 : ℝ) : ℂ) * exp (-I * 2 * Real.pi * ((k : ℝ) * fs / N : ℝ) * ((N : ℝ) / 2 / fs : ℝ))

/-- The filters before the window (`filterbanks.py`, line 199). -/
noncomputable def response (N fs : ℕ) (g : ℕ → ℝ) (j : ℕ) : ℝ :=
  DFT.irfft (DFT.irfftLen (N / 2 + 1)) (spectrum N fs g) j

/-- `reconstructing_fractional_octave_bands` (`filterbanks.py`, lines 124-214) with `bands` bands below half
the sampling rate: coefficient `j` of filter `b`. -/
noncomputable def filters (N fs bands : ℕ) (k₁ P : ℕ → ℕ) (slope : ℕ) : Except Err (ℕ → ℕ → ℝ) :=
  if N ∉ (List.range 13).map fun i => 2 ^ (i + 5) then .error .assertionError
  else
    match gains (N / 2 + 1) k₁ P slope (bands - 1) with
    | .error e => .error e
    | .ok g => .ok fun b j => response N fs (g b) j * hann N j

end Verif.OctaveBands

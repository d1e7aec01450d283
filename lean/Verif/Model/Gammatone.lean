import Verif.Model.FilterBank
import Verif.Model.FrequencyGrids
import Verif.Model.Helpers
import Verif.Model.OctaveBands
import Verif.Model.SignalData
import Mathlib.Analysis.SpecialFunctions.Trigonometric.Basic
import Mathlib.Analysis.SpecialFunctions.Complex.Circle

/-!
# Model of the gammatone filter bank

`filterbanks/filterbanks.py: auditory_filters_gammatone` (lines 217-303),
`filterbanks/_filterbank.py: GammaToneFilterBank` (lines 664-838).

Exact arithmetic: the last samples of long impulse responses do not vanish by underflow.  All bands
of a multiband signal have the same shape.
-/

namespace Verif.Gammatone

open Verif.Bank (Filt)
open Verif.SignalData (State Input setData)

/-! ### Design -/

/-- `erb_aud` (`filterbanks.py`, line 271). -/
noncomputable def erbAud (f : ℝ) : ℝ := 24.7 + f / 9.265

/-- `a_gamma` (`filterbanks.py`, line 274). -/
noncomputable def aGamma : ℝ := Real.pi * 720 * 2 ^ (-6 : ℤ) / 36

/-- `lam` (`filterbanks.py`, lines 276-278). -/
noncomputable def lam (fs : ℕ) (f : ℝ) : ℝ := Real.exp (-2 * Real.pi * (erbAud f / aGamma) / fs)

/-- `beta` (`filterbanks.py`, line 280). -/
noncomputable def beta (fs : ℕ) (f : ℝ) : ℝ := 2 * Real.pi * f / fs

/-- `coefficients` (`filterbanks.py`, line 282). -/
noncomputable def coefficient (fs : ℕ) (f : ℝ) : ℂ := lam fs f * Complex.exp (Complex.I * beta fs f)

/-- `normalizations` (`filterbanks.py`, line 285). -/
noncomputable def normalization (c : ℂ) : ℝ := 2 * (1 - ‖c‖) ^ 4

/-- The filter of one band: four sections, the gain in the last one (`filterbanks.py`, lines
289-292). -/
def filt (c : ℂ) (g : ℝ) : Filt ℂ :=
  .sos [([1, 0, 0], [1, -c, 0]), ([1, 0, 0], [1, -c, 0]), ([1, 0, 0], [1, -c, 0]),
    ([(g : ℂ), 0, 0], [1, -c, 0])]

/-- One band of a filtered (real) channel, real and imaginary parts together
(`filter_helpers.py`, lines 264-278). -/
noncomputable def analyse (c : ℂ) (g : ℝ) (x : List ℝ) : List ℂ :=
  (filt c g).channel (x.map fun (v : ℝ) => (v : ℂ))

/-! ### Values for the reconstruction -/

/-- One band: centre frequency, coefficient, normalization, delay and phase factor. -/
structure Band where
  freq : ℝ
  coeff : ℂ
  norm : ℝ
  delay : ℤ
  phase : ℂ

/-- `delay_samples` (`_filterbank.py`, line 711) with the delay of 4 ms of line 698. -/
noncomputable def delaySamples (fs : ℕ) : ℕ := (OctaveBands.roundEven (0.004 * fs)).toNat

/-- `dirac` (`generators.py`, lines 298-314) with one channel. -/
def dirac (length delay : ℕ) : Except Err (List ℝ) :=
  if length = 0 then .error .assertionError
  else if length ≤ delay then .error .assertionError
  else .ok ((List.range length).map fun (n : ℕ) => if n = delay then 1 else 0)

/-- `_compute_delays_and_phase_factors` for one band (`_filterbank.py`, lines 704-742).  Negative
indices count from the end.  A normalisation of the filtered impulse (constrained amplitude) changes
neither the delay nor the phase factor and is left out. -/
noncomputable def delayAndPhase (fs : ℕ) (c : ℂ) (g : ℝ) : Except Err (ℤ × ℂ) := do
  let d := delaySamples fs
  let x ← dirac (fs / 2) (d + 3)
  let ir := analyse c g x
  let env := ir.map fun v => ‖v‖
  let idx ← Helpers.argmin ((env.take (d + 1)).map fun a => -a)
  let before : ℤ := (idx : ℤ) - 1
  let slope := ir.getD (idx + 1) 0 - ir.getD (if before < 0 then before + ir.length else before).toNat 0
  pure ((d : ℤ) - idx, Complex.I / (slope / ‖slope‖))

/-- Response of a band with its delay and phase factor at the point `z` of the unit circle
(`_filterbank.py`, lines 760-771). -/
noncomputable def corrected (b : Band) (z : ℂ) : ℂ :=
  (1 - b.coeff / z) ^ (-4 : ℤ) * b.norm * (b.phase * z ^ (-b.delay))

/-- The point of a centre frequency on the unit circle (`_filterbank.py`, lines 751-754). -/
noncomputable def point (fs : ℕ) (f : ℝ) : ℂ := Complex.exp (2 * Complex.I * Real.pi * f / fs)

/-- One entry of `h` (`_filterbank.py`, lines 751-774): band `b` at the frequency `f`. -/
noncomputable def entry (fs : ℕ) (f : ℝ) (b : Band) : ℂ :=
  (corrected b (point fs f) +
    (starRingEnd ℂ) (corrected b ((starRingEnd ℂ) (point fs f)))) / 2

/-- One round of the search for gains (`_filterbank.py`, lines 779-780). -/
noncomputable def gainStep (fs : ℕ) (bands : List Band) (gains : List ℝ) : List ℝ :=
  List.zipWith (fun g b => g / ‖(List.zipWith (fun b' (g' : ℝ) => entry fs b.freq b' * g') bands gains).sum‖)
    gains bands

/-- `_compute_gains` (`_filterbank.py`, lines 744-782). -/
noncomputable def computeGains (fs : ℕ) (bands : List Band) : List ℝ :=
  (gainStep fs bands)^[100] (List.replicate bands.length 1)

/-- The filter bank: sampling rate, bands and gains. -/
structure Bank where
  fs : ℕ
  bands : List Band
  gains : List ℝ

/-- The loop over the bands (`filterbanks.py`, lines 271-294, and `_filterbank.py`, lines 692-700).
Without filters the bank has no sampling rate. -/
noncomputable def ofFrequencies (fs : ℕ) (freqs : List ℝ) : Except Err Bank := do
  if freqs = [] then throw .attributeError
  let bands ← freqs.mapM fun f => do
    let c := coefficient fs f
    let g := normalization c
    let dp ← delayAndPhase fs c g
    pure (⟨f, c, g, dp.1, dp.2⟩ : Band)
  pure ⟨fs, bands, computeGains fs bands⟩

/-- `auditory_filters_gammatone` (`filterbanks.py`, lines 261-303). -/
noncomputable def create (range : List ℝ) (resolution : ℝ) (fs : Option ℕ) : Except Err Bank :=
  match fs with
  | none => .error .assertionError
  | some fs =>
    if range = [] then .error .valueError
    else if ∃ f ∈ range, ((fs / 2 : ℕ) : ℝ) < f then .error .assertionError
    else
      match FrequencyGrids.erbFrequencies range resolution 1000 with
      | .error e => .error e
      | .ok freqs => ofFrequencies fs freqs

/-! ### Reconstruction -/

/-- Complex sample of a band. -/
noncomputable def sample (s : State ℝ) (n ch : ℕ) : ℂ :=
  s.re.val n ch + (match s.im with
    | none => 0
    | some B => B.val n ch) * Complex.I

/-- One band after phase shift, delay and gain (`_filterbank.py`, lines 829-832): `np.roll` moves
the last samples to the beginning. -/
noncomputable def processed (b : Band) (gain : ℝ) (s : State ℝ) (n ch : ℕ) : ℝ :=
  (sample s ((n - b.delay) % s.re.rows).toNat ch * b.phase).re * gain

/-- `reconstruct` (`_filterbank.py`, lines 785-838).  A single band or a single sample with one
channel becomes a vector in line 820, so that `np.roll(…, axis=-1)` is applied to a number and raises
AxisError (a ValueError). Bands without a filter are added as they are. -/
noncomputable def reconstruct (fb : Bank) (signal : List (State ℝ)) : Except Err (State ℝ) :=
  if ∃ s ∈ signal, s.im = none then .error .assertionError
  else
    match signal with
    | [] => .error .indexError
    | s0 :: _ =>
      let N := s0.re.rows
      let C := s0.re.cols
      if C = 1 ∧ (signal.length = 1 ∨ N = 1) ∧ fb.bands ≠ [] then .error .valueError
      else if signal.length < fb.bands.length then .error .indexError
      else
        let y : ℕ → ℕ → ℝ := fun n ch =>
          (List.zipWith (fun (b : Band × ℝ) s => processed b.1 b.2 s n ch)
            (fb.bands.zip fb.gains) signal).sum +
          ((signal.drop fb.bands.length).map fun s => (sample s n ch).re).sum
        setData s0 (if C = 1 then ⟨1, N, fun _ n => y n 0, none⟩ else ⟨C, N, fun ch n => y n ch, none⟩)

end Verif.Gammatone

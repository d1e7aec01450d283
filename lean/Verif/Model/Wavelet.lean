import Verif.Model.Helpers
import Mathlib.Analysis.SpecialFunctions.Exp
import Mathlib.Analysis.SpecialFunctions.Pow.Real
import Mathlib.Analysis.SpecialFunctions.Trigonometric.Basic
import Mathlib.Analysis.SpecialFunctions.Complex.Circle
import Mathlib.Analysis.Complex.Norm
import Mathlib.Analysis.Real.Sqrt

/-!
# Model of the continuous wavelet transform

`transforms/_transforms.py: Wavelet.get_scale_lengths, MorletWavelet, _squeeze_scalogram` (lines 64-300) and
`transforms/transforms.py: cwt` (lines 687-760).

Exact arithmetic.  The channels are treated alike and independently: one channel is modelled.  Frequencies, sampling rate,
bandwidth, scale and step are taken to be positive where they divide.
-/

namespace Verif.Wavelet

open Finset

/-- A `MorletWavelet`: `bound` is `t` of the bounds `[-t, t]`. -/
structure Morlet where
  b : ℝ
  scale : ℝ
  bound : ℝ
  step : ℝ
  interpolation : Bool

/-- `MorletWavelet.__init__` (`_transforms.py`, lines 134-145). -/
noncomputable def Morlet.make (b h : Option ℝ) (scale precision step : ℝ) (interpolation : Bool) : Except Err Morlet :=
  match b, h with
  | none, none => .error .assertionError
  | _, some h =>
    .ok ⟨h ^ 2 / Real.log 2 / 4, scale, √(h ^ 2 / Real.log 2 / 4 * Real.log (1 / precision)), step, interpolation⟩
  | some b, none => .ok ⟨b, scale, √(b * Real.log (1 / precision)), step, interpolation⟩

/-- `len(self._get_x())`: `np.arange(-t, t + step, step)` (line 149). -/
noncomputable def Morlet.size (m : Morlet) : ℕ := ⌈(m.bound + m.step - -m.bound) / m.step⌉₊

/-- `self._get_x()[i]` -/
noncomputable def Morlet.x (m : Morlet) (i : ℕ) : ℝ := -m.bound + i * m.step

/-- Entry `i` of the array of `get_base_wavelet` (lines 151-158). -/
noncomputable def Morlet.base (m : Morlet) (i : ℕ) : ℂ :=
  ((1 / √(Real.pi * m.b) : ℝ) : ℂ) * Complex.exp (2 * Real.pi * Complex.I / m.scale * m.x i) *
    Complex.exp ((-(m.x i) ^ 2 / m.b : ℝ) : ℂ)

/-- `self.get_center_frequency() / f * fs` (lines 160-162 and 185). -/
noncomputable def Morlet.scaleOf (m : Morlet) (f fs : ℝ) : ℝ := 1 / m.scale / f * fs

/-- `x[-1] - x[0]` -/
noncomputable def Morlet.domain (m : Morlet) : ℝ := m.x (m.size - 1) - m.x 0

/-- `get_scale_lengths` (lines 64-82) for one frequency. -/
noncomputable def Morlet.scaleLength (m : Morlet) (f fs : ℝ) : ℕ := ⌊m.scaleOf f fs * m.domain + 1⌋₊

/-- `inds[n]` (line 190). -/
noncomputable def Morlet.ind (m : Morlet) (s : ℝ) (n : ℕ) : ℝ := n / (s * m.step)

/-- `trunc[trunc < len(base)]`, as the positions in `inds` (lines 195-196 and 214-215). -/
noncomputable def Morlet.kept (m : Morlet) (s : ℝ) : List ℕ :=
  (List.range ⌈s * m.domain + 1⌉₊).filter fun n => ⌊m.ind s n⌋₊ < m.size

/-- `_get_interpolated_wave` (lines 206-224).  Reading past the base wavelet and setting the last entry of an empty array raise
IndexError. -/
noncomputable def Morlet.interpolated (m : Morlet) (s : ℝ) : Except Err (List ℂ) :=
  let trunc := (m.kept s).map fun n => ⌊m.ind s n⌋₊
  let L := trunc.length
  if L = 0 then .error .indexError
  else if (List.range (L - 1)).any fun i => m.size ≤ trunc.getD i 0 + 1 then .error .indexError
  else .ok ((List.range L).map fun (i : ℕ) =>
    let j := trunc.getD i 0
    if i + 1 < L then m.base j + (m.base (j + 1) - m.base j) * ((m.ind s i - j : ℝ) : ℂ) else m.base j)

/-- `get_wavelet` (lines 164-204) for one frequency. -/
noncomputable def Morlet.wavelet (m : Morlet) (fs f : ℝ) : Except Err (List ℂ) :=
  if m.interpolation then m.interpolated (m.scaleOf f fs)
  else .ok ((m.kept (m.scaleOf f fs)).map fun n => m.base ⌊m.ind (m.scaleOf f fs) n⌋₊)

/-- `wv /= np.abs(wv).sum()` (`transforms.py`, line 748); a sum of 0, which would give nan, is
excluded in the theorems. -/
noncomputable def normalized (w : List ℂ) : List ℂ :=
  w.map fun v => v / (((w.map fun u => ‖u‖).sum : ℝ) : ℂ)

/-- `oaconvolve(td, wv, mode="same")` (line 750): the middle of the convolution, as long as the signal. -/
noncomputable def convSame (x : List ℝ) (w : List ℂ) : List ℂ :=
  (List.range x.length).map fun (n : ℕ) =>
    ∑ j ∈ range w.length,
      if j ≤ n + (w.length - 1) / 2 then w.getD j 0 * ((x.getD (n + (w.length - 1) / 2 - j) 0 : ℝ) : ℂ) else 0

/-- `np.gradient(scalogram, axis=1)` at time `t` of `T`. -/
noncomputable def gradient (T : ℕ) (S : ℕ → ℂ) (t : ℕ) : ℂ :=
  if t = 0 then S 1 - S 0
  else if t + 1 = T then S t - S (t - 1)
  else (S (t + 1) - S (t - 1)) / 2

/-- The frequency of the phase transform (`_transforms.py`, lines 267-277). -/
noncomputable def phaseFrequency (T : ℕ) (fs : ℝ) (S : ℕ → ℂ) (t : ℕ) : ℝ :=
  (if ‖S t‖ ^ 2 > 1e-40 then |(gradient T S t / S t).im / 2 / Real.pi| else 0) * fs

/-- `np.argmin(np.abs(freqs - v))`; the frequency vector is not empty here. -/
noncomputable def nearest (freqs : List ℝ) (v : ℝ) : ℕ :=
  match Helpers.argmin (freqs.map fun f => |f - v|) with
  | .ok i => i
  | .error _ => 0

/-- `normalizations` (lines 280-282). -/
noncomputable def normalization (apply : Bool) (fs f : ℝ) : ℝ :=
  if apply then (1 / (f / fs)) ^ (-3 / 2 : ℝ) else 1

/-- `_squeeze_scalogram` (lines 227-300) with its threshold `delta_w`: entry `(i, t)`.  `np.gradient` raises ValueError for
less than two samples. -/
noncomputable def squeeze (freqs : List ℝ) (fs : ℝ) (apply : Bool) (deltaW : ℝ) (T : ℕ) (S : ℕ → ℕ → ℂ) :
    Except Err (ℕ → ℕ → ℂ) :=
  if T < 2 then .error .valueError
  else .ok fun i t => ∑ r ∈ range freqs.length,
    let p := phaseFrequency T fs (S r) t
    let ind := nearest freqs p
    if |freqs.getD ind 0 - p| > deltaW * freqs.getD r 0 then 0
    else if ind = i then S r t * (normalization apply fs (freqs.getD r 0) : ℂ) else 0

/-- `cwt` (`transforms.py`, lines 737-760) for one channel: a row for each frequency. -/
noncomputable def cwt (x : List ℝ) (freqs : List ℝ) (fs : ℝ) (wavelet : ℝ → Except Err (List ℂ))
    (synchrosqueezed apply : Bool) : Except Err (List (List ℂ)) := do
  let rows ← freqs.mapM fun f => do
    let w ← wavelet f
    pure (convSame x (normalized w))
  if synchrosqueezed then
    let S ← squeeze freqs fs apply 0.05 x.length fun r t => (rows.getD r []).getD t 0
    pure ((List.range freqs.length).map fun (i : ℕ) => (List.range x.length).map fun (t : ℕ) => S i t)
  else pure rows

end Verif.Wavelet

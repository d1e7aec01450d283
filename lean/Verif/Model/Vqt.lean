import Verif.Model.Wavelet
import Verif.Model.OctaveBands
import Verif.Model.Double

/-!
# Model of the variable-Q transform

`transforms/transforms.py: vqt` (lines 812-923) and `transforms/_transforms.py: _get_kernels_vqt` (lines 327-383).

Exact arithmetic, except for the number of entries of the frequency vector, which depends on the rounding.  The channels are
treated alike: one is modelled, with the numbers of selected and of all channels.  `scipy.signal.resample_poly` is a parameter
(`down d` for `up=1, down=d`, `up u` for `up=u, down=1`), so is `scipy.signal.get_window(., n, fftbins=False)`.
-/

namespace Verif.Vqt

open Finset Verif.Wavelet

/-- External functions. -/
structure Library where
  down : ℕ → List ℝ → List ℝ
  up : ℕ → List ℂ → List ℂ
  window : ℕ → List ℝ

/-- `highest_f` (`transforms.py`, line 877). -/
noncomputable def highest (a4 : ℝ) (o1 : ℤ) : ℝ := a4 * 2 ^ ((o1 : ℝ) - 4 + 2 / 12)

/-- `decimation` (line 881). -/
noncomputable def decimation (fs : ℕ) (a4 : ℝ) (o1 : ℤ) : ℕ := ⌊((fs / 2 : ℕ) : ℝ) / (highest a4 o1 * 1.1)⌋₊

/-- `freqs[i]` (`_transforms.py`, line 360). -/
noncomputable def kernelFrequency (high : ℝ) (bins i : ℕ) : ℝ := high * 2 ^ (-1 / (bins : ℝ) * i)

/-- `lengths[i]` (lines 361-362). -/
noncomputable def kernelLength (q high : ℝ) (bins mid : ℕ) (gamma : ℝ) (i : ℕ) : ℕ :=
  (OctaveBands.roundEven (q * mid / (kernelFrequency high bins i * (2 ^ (1 / (bins : ℝ)) - 1) + gamma))).toNat

/-- A kernel (lines 366-381): `np.arange(-L // 2, L // 2)` starts at `-⌈L / 2⌉`. -/
noncomputable def kernel (window : ℕ → List ℝ) (f : ℝ) (mid L : ℕ) : List ℂ :=
  (List.range L).map fun (m : ℕ) =>
    (((window L).getD m 0 / (window L).sum : ℝ) : ℂ) *
      Complex.exp (Complex.I * f * 2 * Real.pi / mid * (((-(L : ℤ)) / 2 + m : ℤ) : ℂ))

/-- `_get_kernels_vqt` (lines 327-383). -/
noncomputable def kernels (window : ℕ → List ℝ) (q high : ℝ) (bins mid : ℕ) (gamma : ℝ) : List (List ℂ) :=
  (List.range bins).map fun (i : ℕ) =>
    kernel window (kernelFrequency high bins i) mid (kernelLength q high bins mid gamma i)

/-- A row is cut or padded to the length of the signal (`transforms.py`, lines 909-913). -/
def fit (N : ℕ) (y : List ℂ) : List ℂ := (List.range N).map fun (n : ℕ) => y.getD n 0

/-- The rows of an octave (lines 900-913).  Simplification: a kernel of length zero (a tiny `q`), which the convolution refuses,
gives a row here; the theorems assume at least one sample. -/
noncomputable def octaveRows (lib : Library) (dec N : ℕ) (ks : List (List ℂ)) (oc : ℕ) (td : List ℝ) : List (List ℂ) :=
  ks.map fun k =>
    let y := convSame td k
    let y := if oc ≠ 0 then lib.up (2 ^ oc) y else y
    fit N (lib.up dec y)

/-- The loop over the octaves (lines 896-916). -/
noncomputable def octaves (lib : Library) (dec N : ℕ) (ks : List (List ℂ)) : ℕ → ℕ → List ℝ → List (List ℂ)
  | 0, _, _ => []
  | n + 1, oc, td => octaveRows lib dec N ks oc td ++ octaves lib dec N ks n (oc + 1) (lib.down 2 td)

/-- The number of entries of `np.arange(o0 - 4 - 9 / 12, o1 - 4 + 2 / 12, 1 / 12)` (line 921) with the rounding `rnd`. -/
def axisCount (rnd : ℚ → ℚ) (o0 o1 : ℤ) : ℕ :=
  ⌈rnd (rnd (rnd ((o1 - 4 : ℚ) + rnd (2 / 12)) - rnd ((o0 - 4 : ℚ) - rnd (9 / 12))) / rnd (1 / 12))⌉.toNat

/-- The frequency vector (lines 920-922). -/
noncomputable def axis (rnd : ℚ → ℚ) (a4 : ℝ) (o0 o1 : ℤ) : List ℝ :=
  (List.range (axisCount rnd o0 o1)).map fun (i : ℕ) => a4 * 2 ^ ((o0 : ℝ) - 4 - 9 / 12 + i * (1 / 12))

/-- `vqt` (lines 870-923).  `fs // 0` raises ZeroDivisionError, `np.append` of an array with another number of channels
ValueError. -/
noncomputable def vqt (lib : Library) (rnd : ℚ → ℚ) (x : List ℝ) (fs selected total : ℕ) (q gamma : ℝ) (o0 o1 : ℤ)
    (bins : ℕ) (a4 : ℝ) : Except Err (List ℝ × List (List ℂ)) :=
  let high := highest a4 o1
  let dec := decimation fs a4 o1
  if dec = 0 then .error .zeroDivision
  else
    let mid := fs / dec
    let td := lib.down dec x
    let ks := kernels lib.window q high bins mid (gamma / fs * mid)
    let octs := (o1 - o0 + 1).toNat
    if 0 < octs ∧ selected ≠ total then .error .valueError
    else .ok (axis rnd a4 o0 o1, (octaves lib dec x.length ks octs 0 td).reverse)

end Verif.Vqt

import Verif.Model.MinimumPhase

/-!
# Model of `lin_phase_from_mag`

`transfer_functions/transfer_functions.py: lin_phase_from_mag`,
`helpers/spectrum_utilities.py: _correct_for_real_phase_spectrum`.  Exact arithmetic.
-/

namespace Verif.LinearPhase

open Complex MinimumPhase

/-- `x % m` of numpy for `m > 0` -/
noncomputable def pmod (x m : ℝ) : ℝ := x - m * ⌊x / m⌋

/-- `_correct_for_real_phase_spectrum` (`spectrum_utilities.py`, lines 247-266) for a channel with `M`
bins. -/
noncomputable def correctPhase (M : ℕ) (phase : ℕ → ℝ) (k : ℕ) : ℝ :=
  phase k - (k : ℝ) / (M - 1 : ℕ) * pmod (phase (M - 1)) Real.pi

/-- The response of a channel before it is trimmed (`transfer_functions.py`, lines 772-782) for the
frequencies `f`, the magnitudes `mag`, the group delay `tau` in seconds and `n` samples. -/
noncomputable def full (f : List ℚ) (n : ℕ) (tau : ℚ) (mag : ℕ → ℝ) (j : ℕ) : ℝ :=
  Deconv.irfft n f.length (fun k => (mag k : ℂ) * exp (I * correctPhase f.length
    (fun k => -2 * Real.pi * (f.getD k 0 : ℝ) * (tau : ℝ)) k)) j

/-- The largest of the group delays. -/
def maxDelay (nch : ℕ) (tau : ℕ → ℚ) : ℚ := ((List.range nch).map tau).foldl max (tau 0)

/-- The frequencies, the number of samples and the group delay of each channel
(`transfer_functions.py`, lines 709-769).  `minGd f c` is the largest group delay of the minimum-phase
version of channel `c` on the grid `f` (an input here).  Negative delays raise an error of another kind
in the code. -/
def plan (fs nch : ℕ) (delayMs : Option ℚ) (check : Bool) (factor : ℚ) (minGd : List ℚ → ℕ → ℚ) :
    Except Err (List ℚ × ℕ × (ℕ → ℚ)) :=
  match delayMs with
  | none => do
    let (f, _, n) ← frequencyVector 0.5 fs
    if ¬ 1 ≤ factor then throw .assertionError
    let tau : ℕ → ℚ := fun c => factor * (minGd f c + 1e-3)
    if ∃ c < nch, tau c * 2 > n / fs then
      let (f, _, n) ← frequencyVector (1 / (maxDelay nch tau * 2) * 0.9) fs
      return (f, n, tau)
    else return (f, n, tau)
  | some ms => do
    let s : ℚ := ms / 1000
    if s = 0 then throw .zeroDivision
    let (f, _, n) ← frequencyVector (1 / (s * 2) * 0.9) fs
    if check then
      if ¬ 1 ≤ factor then throw .assertionError
      if ∃ c < nch, ¬ factor * (minGd f c + 1e-3) ≤ s then throw .assertionError
      if 0 < nch ∧ s * 2 > n / fs then
        let (f, _, n) ← frequencyVector (1 / (s * 2) * 0.9) fs
        return (f, n, fun _ => s)
      else return (f, n, fun _ => s)
    else return (f, n, fun _ => s)

/-- The result of `lin_phase_from_mag` for all channels (`transfer_functions.py`, lines 772-786);
`interp f c k` is the magnitude of channel `c` at the frequency `k` of `f`. -/
noncomputable def linPhase (fs nch : ℕ) (delayMs : Option ℚ) (check : Bool) (factor : ℚ)
    (minGd : List ℚ → ℕ → ℚ) (interp : List ℚ → ℕ → ℕ → ℝ) : Except Err (List (List ℝ)) := do
  let (f, n, tau) ← plan fs nch delayMs check factor minGd
  let length := ⌊2 * maxDelay nch tau * fs + 0.5⌋₊
  return (List.range nch).map fun c => (List.range length).map fun j =>
    if j < n then full f n (tau c) (interp f c) j else 0

end Verif.LinearPhase

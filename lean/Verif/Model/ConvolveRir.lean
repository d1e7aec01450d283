import Verif.Model.SignalData
import Verif.Model.PadTrim
import Verif.Model.Level

/-!
# Room impulse responses applied to signals (`room_acoustics/room_acoustics.py`)

Exact real arithmetic: `scipy.signal.convolve` and `oaconvolve` (the branch of lines 252-256) are the same
convolution.  The signal is not empty.
-/

namespace Verif.ConvolveRir

open SignalData

/-- Entry `n` of the full convolution of a column `x` of `N` entries with `M` entries of `h`
(`room_acoustics.py`, lines 251-256). -/
noncomputable def full (N M : ℕ) (x h : ℕ → ℝ) (n : ℕ) : ℝ :=
  ∑ k ∈ Finset.range M, if k ≤ n ∧ n - k < N then h k * x (n - k) else 0

/-- `convolve_rir_on_signal` (`room_acoustics.py`, lines 216-265) for sampling rates `fs` and `fsRir`: the
signal and the channels that consist of `nan`, which are zero in the signal here.  (With `nan` the setter
does not scale the data, and neither does the one of the model: peaks of a constrained signal are at
most 1.) -/
noncomputable def convolveRir (s rir : State ℝ) (fs fsRir : ℕ) (keepPeak keepLength : Bool) :
    Except Err (State ℝ × (ℕ → Prop)) :=
  if rir.re.cols ≠ 1 then .error .assertionError
  else if fsRir ≠ fs then .error .assertionError
  else if rir.re.rows = 0 then .error .zeroDivision
  else
    let N := s.re.rows
    let y : ℕ → ℕ → ℝ := fun n c =>
      full N rir.re.rows (fun n => s.re.val n c) (fun k => rir.re.val k 0) n
    let rows := if keepLength then N else N + rir.re.rows - 1
    let oldPeak : ℕ → ℝ := fun c => Level.maxAbs (colOf s.re c)
    let newPeak : ℕ → ℝ := fun c => Level.maxAbs ((List.range rows).map fun (n : ℕ) => y n c)
    let z : ℕ → ℕ → ℝ := fun n c => if keepPeak then y n c * (oldPeak c / newPeak c) else y n c
    match copyWith s ⟨rows, s.re.cols, z, none⟩ with
    | .error e => .error e
    | .ok t => .ok (t, fun c => keepPeak = true ∧ newPeak c = 0)

end Verif.ConvolveRir

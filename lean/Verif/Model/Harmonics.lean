import Verif.Spec.Realtime
import Verif.Model.Polyphase
import Verif.Model.Latency
import Mathlib.Analysis.SpecialFunctions.Log.Base

/-!
# Model of the harmonics of an impulse response measured with an exponential chirp

`transfer_functions/transfer_functions.py: harmonics_from_chirp_ir, harmonic_distortion_analysis` (effects on
the list of the caller), `transfer_functions/_transfer_functions.py: _get_chirp_rate, _get_harmonic_times`.
Exact arithmetic.
-/

namespace Verif.Harmonics

open Polyphase (pySlice)

/-- `_get_chirp_rate` (`_transfer_functions.py`, lines 233-236) for a list with two entries. -/
noncomputable def chirpRate (lo hi length : ℝ) : ℝ := Real.logb 2 (max lo hi / min lo hi) / length

/-- `_get_harmonic_times` (`_transfer_functions.py`, lines 272-273) without offset: time of the harmonic
`i + 2`. -/
noncomputable def harmonicTime (rate : ℝ) (i : ℕ) : ℝ := 0 - Real.logb 2 ((i : ℝ) + 2) / rate

/-- `astype(int)` and `int` -/
noncomputable def truncate (x : ℝ) : ℤ := if 0 ≤ x then ⌊x⌋ else ⌈x⌉

/-- `time_harmonics_samples` (`transfer_functions.py`, lines 1462-1465) with entry `0` for the fundamental. -/
noncomputable def position (n fs : ℕ) (rate : ℝ) : ℕ → ℤ
  | 0 => n
  | i + 1 => n + truncate (harmonicTime rate i * fs + 0.5)

/-- The border between the entries `i` and `i + 1` (`transfer_functions.py`, lines 1472-1481). -/
noncomputable def border (pos : ℕ → ℤ) (offset : ℝ) (i : ℕ) : ℤ :=
  truncate (pos i - (pos i - pos (i + 1)) * offset)

/-- `np.roll(x, s)` -/
def roll (x : List ℝ) (s : ℤ) : List ℝ :=
  (List.range x.length).map fun i : ℕ => x.getD (((i : ℤ) - s) % x.length).toNat 0

/-- `harmonics_from_chirp_ir` (`transfer_functions.py`, lines 1450-1484) for an impulse response with one
channel of at least two samples; with `constrain_amplitude` an empty snippet raises ValueError, a snippet
with one sample always IndexError. -/
noncomputable def harmonics (x : List ℝ) (fs : ℕ) (lo hi length : ℝ) (n : ℕ) (offset : ℝ) (constrain : Bool) :
    Except Err (List (List ℝ)) :=
  if ¬ (offset < 1 ∧ 0 ≤ offset) then .error .assertionError
  else
    match Latency.argmaxAbs x with
    | .error e => .error e
    | .ok p =>
      let td := roll x (-(p : ℤ) + 1)
      let pos := position td.length fs (chirpRate lo hi length)
      (List.range n).mapM fun nh =>
        let snippet := pySlice td (border pos offset (nh + 1)) (border pos offset nh)
        if snippet.length = 1 then .error .indexError
        else if constrain ∧ snippet = [] then .error .valueError
        else .ok snippet

/-- The list of the caller and the lengths of its impulse responses after
`harmonic_distortion_analysis(irs)` (`transfer_functions.py`, lines 1557, 1590-1591): references to
responses, whose lengths are in `store`. -/
def afterAnalysis (store : ℕ → ℕ) (fs : ℕ) (irs : List ℕ) : Except Err ((ℕ → ℕ) × List ℕ) :=
  match irs with
  | [] => .error .indexError
  | r :: rest =>
    let padded := max (fs / 5) (store r) - store r
    .ok (fun q => if q = r then store r + padded else store q, rest)

end Verif.Harmonics

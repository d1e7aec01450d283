import Verif.Model.Fade
import Verif.Model.Level
import Verif.Model.SignalData
import Verif.Model.Helpers
import Verif.Model.Deconvolution
import Mathlib.Analysis.SpecialFunctions.Trigonometric.Basic

/-!
# Model of the signal generators

`generators/generators.py: noise, chirp, dirac, oscillator`,
`generators/_generators.py: _sync_log_chirp`, `helpers/gain_and_level.py: _normalize` (peak, per
channel), `helpers/frequency_conversion.py: _frequency_weightning`.

Exact arithmetic over the real numbers.  A sample is an `Option ℝ`; `none` stands for `nan` and for an
infinite value.  Lengths in seconds are non-negative.  Except for `dirac` one channel is modelled: every
step works on each channel separately.  The final `Signal(None, data, fs)` is modelled for `dirac` only (it
transposes arrays with more channels than samples).
-/

namespace Verif.Generators

open Fade

/-- `int(x + 0.5)` for `x ≥ 0` -/
noncomputable def roundHalf (x : ℝ) : ℕ := ⌊x + 0.5⌋₊

/-- `np.max(np.abs(s))`; `nan` propagates. -/
noncomputable def peakVec (x : List (Option ℝ)) : Option ℝ :=
  x.foldl (fun acc v => match acc, v with
    | some a, some b => some (max a |b|)
    | _, _ => none) (some 0)

/-- `_normalize(s, dbfs, peak_normalization=True, per_channel=True)` of a vector
(`gain_and_level.py`, lines 49-84).  The maximum of an empty array raises ValueError.  For silence the
factor is infinite and every product `0 * inf` is `nan`. -/
noncomputable def normVec (x : List (Option ℝ)) (db : ℝ) : Except Err (List (Option ℝ)) :=
  if x = [] then .error .valueError
  else
    let factor := match peakVec x with
      | none => none
      | some p => if p = 0 then none else some (Level.fromDb db true / p)
    .ok (x.map fun v => nanMul v factor)

/-- The end of `noise`, `chirp` and `oscillator` (`generators.py`, lines 122-141, 241-262 and 431-450):
normalize, fade both ends over 5 % of the length, pad with zeros or trim to `total` samples.  A vector of
one sample with a fade (`squeeze` makes it a scalar) is not modelled. -/
noncomputable def finish (x : List (Option ℝ)) (len db : ℝ) (fade : Option FadeType) (fs total : ℕ) :
    Except Err (List (Option ℝ)) := do
  let v ← normVec x db
  let w ← match fade with
    | none => .ok v
    | some m => fadeChannel v (0.05 * len) m fs true true
  return (List.range total).map fun i => w.getD i (some 0)

/-! ### Impulse -/

/-- `_impulse` (`filter_helpers.py`, lines 146-164). -/
def impulse (n d : ℕ) : List ℝ := (List.replicate n 0).set d 1

/-- `dirac` (`generators.py`, lines 272-314), up to the sampling rate and the type of the object.  The
loop writes each channel. -/
noncomputable def dirac (n d ch : ℕ) : Except Err (SignalData.State ℝ) :=
  if ¬ 0 < n then .error .assertionError
  else if ¬ d < n then .error .assertionError
  else if ¬ 0 < ch then .error .assertionError
  else SignalData.construct ⟨n, ch, fun r _ => (impulse n d).getD r 0, none⟩ false

/-! ### Oscillator -/

/-- `WaveForm` (`generators/enums.py`). -/
inductive WaveForm
  | harmonic | square | triangle | sawtooth
  deriving DecidableEq

open Classical in
/-- `while cond(k): td += term(k); k += 1`.  The harmonics grow without bound, so that the loop ends; the
number of rounds given by the caller is enough (see `Verif.Props.C99`). -/
noncomputable def loopSum (cond : ℕ → Prop) (term : ℕ → ℝ) : ℕ → ℕ → ℝ → ℝ
  | 0, _, acc => acc
  | fuel + 1, k, acc => if cond k then loopSum cond term fuel (k + 1) (acc + term k) else acc

/-- The wave before normalization (`generators.py`, lines 391-429): sample `n`, with the frequency `f`, the
sampling rate `fs`, the cutoff frequency of the harmonics and the phase shift of the channel. -/
noncomputable def wave (mode : WaveForm) (f : ℝ) (fs : ℕ) (cutoff phi : ℝ) (n : ℕ) : ℝ :=
  let fuel := ⌈cutoff / f⌉₊ + 1
  match mode with
  | .harmonic => Real.sin (2 * Real.pi * f / fs * n + phi)
  | .square =>
    loopSum (fun k => (2 * k - 1) * f < cutoff)
      (fun k => Real.sin (Real.pi * 2 * (2 * k - 1) * f / fs * n + phi) / (2 * k - 1)) fuel 1 0
      * (4 / Real.pi)
  | .sawtooth =>
    loopSum (fun k => k * f < cutoff)
      (fun k => Real.sin (Real.pi * 2 * k * f / fs * n + phi) / k * (-1) ^ k) fuel 1 0
      * (-(2 / Real.pi))
  | .triangle =>
    loopSum (fun k => (2 * k - 1) * f < cutoff)
      (fun k => Real.sin (Real.pi * 2 * (2 * k - 1) * f / fs * n + phi) / (2 * k - 1) ^ 2 * (-1) ^ k) fuel 1 0
      * (-8 / Real.pi ^ 2)

/-- One channel of `oscillator` (`generators.py`, lines 317-454); `phi` is the random phase shift of the
channel (zero unless `uncorrelated`). -/
noncomputable def oscillator (f : ℝ) (fs : ℕ) (len : ℝ) (mode : WaveForm) (cutoff : Option ℝ) (db : ℝ)
    (phi : ℝ) (fade : Option FadeType) (pad : ℝ) : Except Err (List (Option ℝ)) :=
  if ¬ f < (fs / 2 : ℕ) then .error .assertionError
  else if ¬ 0 < f then .error .assertionError
  else if pad ≠ 0 ∧ ¬ 0 < pad then .error .assertionError
  else
    let p := if pad ≠ 0 then ⌊pad * fs⌋₊ else 0
    let l := roundHalf (fs * len)
    let c := cutoff.getD (fs / 2 : ℕ)
    if ¬ (0 < c ∧ c ≤ (fs / 2 : ℕ)) then .error .assertionError
    else finish ((List.range l).map fun n => some (wave mode f fs c phi n)) len db fade fs (l + p)

/-! ### Chirp -/

/-- `ChirpType` (`generators/enums.py`). -/
inductive ChirpType
  | linear | logarithmic | syncLog
  deriving DecidableEq

/-- The linear chirp at time `t` (`generators.py`, lines 228-230). -/
noncomputable def linearChirp (f1 f2 len phi t : ℝ) : ℝ :=
  let k := (f2 - f1) / len
  Real.sin ((f1 + k / 2 * t) * 2 * Real.pi * t + phi)

/-- The logarithmic chirp at time `t` (`generators.py`, lines 232-235).  For equal frequencies the code
divides by `log(1) = 0` and multiplies the infinite result by zero, which is `nan`. -/
noncomputable def logChirp (f1 f2 len phi t : ℝ) : Option ℝ :=
  let k := Real.exp ((Real.log f2 - Real.log f1) / len)
  if Real.log k = 0 then none
  else some (Real.sin (2 * Real.pi * f1 / Real.log k * (k ^ t - 1) + phi))

/-- `_sync_log_chirp` (`_generators.py`, lines 5-44): samples and duration.  For equal frequencies
`int(inf)` raises OverflowError, represented by `valueError`. -/
noncomputable def syncLogChirp (f1 f2 len : ℝ) (fs : ℕ) : Except Err (List (Option ℝ) × ℝ) :=
  let f2f1 := Real.log (f2 / f1)
  if f2f1 = 0 then .error .valueError
  else
    let k := roundHalf (f1 * len / f2f1)
    let T := k / f1 * f2f1
    let L := (roundHalf (T * f1 / f2f1) : ℝ) / f1
    .ok ((linspace 0 T (roundHalf (T * fs))).map fun t =>
      some (Real.sin (2 * Real.pi * f1 * L * (Real.exp (t / L) - 1))), T)

/-- The range of a chirp (`generators.py`, lines 204-215): sorted if given. -/
noncomputable def chirpRange (fs : ℕ) : Option (ℝ × ℝ) → ℝ × ℝ
  | some (a, b) => (min a b, max a b)
  | none => (15, (fs / 2 : ℕ))

/-- One channel of `chirp` (`generators.py`, lines 147-269) and the duration that is returned with the
synchronized chirp.  A given range is sorted and checked, the default one is not. -/
noncomputable def chirp (fs : ℕ) (type : ChirpType) (range : Option (ℝ × ℝ)) (len db : ℝ)
    (fade : Option FadeType) (phi pad : ℝ) : Except Err (List (Option ℝ) × Option ℝ) :=
  let r := chirpRange fs range
  if range.isSome = true ∧ ¬ (0 < r.1 ∧ r.2 ≤ (fs / 2 : ℕ)) then .error .assertionError
  else if pad ≠ 0 ∧ ¬ 0 < pad then .error .assertionError
  else
    let p := if pad ≠ 0 then ⌊pad * fs⌋₊ else 0
    let l := roundHalf (fs * len)
    let t := linspace 0 len l
    match type with
    | .linear => (finish (t.map fun t => some (linearChirp r.1 r.2 len phi t)) len db fade fs (l + p)).map
        fun y => (y, none)
    | .logarithmic => (finish (t.map fun t => logChirp r.1 r.2 len phi t) len db fade fs (l + p)).map
        fun y => (y, none)
    | .syncLog =>
      match syncLogChirp r.1 r.2 len fs with
      | .error e => .error e
      | .ok (td, T) => (finish td len db fade fs (l + p)).map fun y => (y, some T)

/-! ### Noise -/

/-- `type_of_noise`: a `NoiseType` or the exponent `beta`. -/
inductive NoiseType
  | white | pink | red | blue | violet | grey
  | beta (b : ℝ)

/-- A quotient that is not finite for a zero denominator. -/
noncomputable def divide (a b : ℝ) : Option ℝ := if b = 0 then none else some (a / b)

/-- The A-weighting before normalization (`frequency_conversion.py`, lines 81-89). -/
noncomputable def aWeight (f : ℝ) : ℝ :=
  12194 ^ 2 * f ^ 4 / ((f ^ 2 + 20.6 ^ 2) * Real.sqrt ((f ^ 2 + 107.7 ^ 2) * (f ^ 2 + 737.9 ^ 2)) *
    (f ^ 2 + 12194 ^ 2))

/-- `_frequency_weightning(f, "a", db_output=False)` (`frequency_conversion.py`, lines 49-95) at the entry
`k`; the weight at the entry next to 1 kHz is the reference. -/
noncomputable def weight (f : List ℝ) (k : ℕ) : Except Err (Option ℝ) := do
  let ind ← Helpers.argmin (f.map fun x => |x - 1000|)
  return divide (aWeight (f.getD k 0)) (aWeight (f.getD ind 0))

/-- The factor applied to the magnitudes from `id_low` on (`generators.py`, lines 107-119), for the entry
`k` of the frequencies. -/
noncomputable def colour (type : NoiseType) (f : List ℝ) (k : ℕ) : Except Err (Option ℝ) :=
  let x := f.getD k 0
  match type with
  | .white => .ok (some 1)
  | .pink => .ok (divide 1 (x ^ (0.5 : ℝ)))
  | .red => .ok (divide 1 x)
  | .blue => .ok (some (x ^ (0.5 : ℝ)))
  | .violet => .ok (some x)
  | .grey => do
    let w ← weight f k
    return w.bind fun w => divide 1 w
  | .beta b => .ok (if x = 0 ∧ 0 < b then none else some (x ^ (-b * 0.5)))

/-- The magnitudes (`generators.py`, lines 90-119) with the random values `draw`.  The condition of line 97
(`!= White or != 0.0`) always holds. -/
noncomputable def magnitudes (type : NoiseType) (f : List ℝ) (draw : ℕ → ℝ) :
    Except Err (List (Option ℝ)) := do
  let low ← Helpers.argmin (f.map fun x => |x - 15|)
  (List.range f.length).mapM fun k => do
    let m := if k = 0 then 0 else draw k
    if k < low then return some (m * 1e-20)
    else
      let c ← colour type f k
      return nanMul (some m) c

/-- The phases (`generators.py`, lines 100-105) with the random values `draw`. -/
def phases (l : ℕ) (draw : ℕ → ℝ) (k : ℕ) : ℝ :=
  if k = 0 then 0 else if l % 2 = 0 ∧ k = l / 2 then 0 else draw k

/-- The noise before normalization (`generators.py`, lines 80-121): `l` samples.  An undefined magnitude
makes every sample undefined. -/
noncomputable def rawNoise (l fs : ℕ) (type : NoiseType) (mag ph : ℕ → ℝ) :
    Except Err (List (Option ℝ)) := do
  let f := (List.range (l / 2 + 1)).map fun k : ℕ => (k : ℝ) * fs / l
  let m ← magnitudes type f mag
  if none ∈ m then return List.replicate l none
  else return (List.range l).map fun j => some (Deconv.irfft l f.length
    (fun k => (((m.getD k none).getD 0 : ℝ) : ℂ) * Complex.exp (Complex.I * phases l ph k)) j)

/-- One channel of `noise` (`generators.py`, lines 20-144).  A length that rounds to zero samples makes
`rfftfreq` divide by zero. -/
noncomputable def noise (len : ℝ) (fs : ℕ) (type : NoiseType) (db : ℝ) (fade : Option FadeType) (pad : ℝ)
    (mag ph : ℕ → ℝ) : Except Err (List (Option ℝ)) :=
  if ¬ 0 < len then .error .assertionError
  else if ¬ db ≤ 0 then .error .assertionError
  else
    let l := roundHalf (len * fs)
    if l = 0 then .error .zeroDivision
    else if pad ≠ 0 ∧ ¬ 0 < pad then .error .assertionError
    else do
      let p := if pad ≠ 0 then roundHalf (pad * fs) else 0
      let v ← rawNoise l fs type mag ph
      finish v len db fade fs (l + p)

end Verif.Generators

import Verif.Model.Echo
import Verif.Model.Rhythm
import Mathlib.Analysis.SpecialFunctions.Trigonometric.DerivHyp

/-!
# The low-frequency oscillator as an object, and its smoothed waveforms

`effects/_effects.py: LFO` (lines 290-397), `_square_oscillator`, `_sawtooth_oscillator`,
`_triangle_oscillator` with smoothing.  Exact arithmetic over the real numbers, numbers are python
numbers.  The random phase is a parameter `shift`.
-/

namespace Verif.Lfo

open Verif.Echo Verif.Level

/-- The waveforms by name. -/
inductive Kind
  | harmonic | sawtooth | square | triangle
  deriving DecidableEq

/-- The argument `frequency_hz`: a number, a pair of a note and beats per minute, a sequence of
another length, an object of another type. -/
inductive FreqArg
  | number (f : ℝ)
  | rhythm (note : List Char) (bpm : ℚ)
  | otherLength
  | otherType

/-- The fields of the object. -/
structure State where
  freq : ℝ
  kind : Kind
  smooth : ℝ
  randomPhase : Bool

/-- `__set_parameters` (`_effects.py`, lines 338-370) with the arguments that are not `None`; a name
of a waveform that does not exist is `some none`.  The fields are set one after the other: the state
after an exception is returned too. -/
noncomputable def setParameters (s : State) (f : Option FreqArg) (w : Option (Option Kind)) (r : Option Bool)
    (sm : Option ℝ) : State × Except Err Unit :=
  let first : State × Except Err Unit :=
    match f with
    | none => (s, .ok ())
    | some (.number x) => ({ s with freq := |x| }, .ok ())
    | some (.rhythm note bpm) =>
      match Rhythm.frequency note bpm with
      | .ok v => ({ s with freq := (v : ℝ) }, .ok ())
      | .error e => (s, .error e)
    | some .otherLength => (s, .error .assertionError)
    | some .otherType => (s, .error .typeError)
  match first with
  | (s, .error e) => (s, .error e)
  | (s, .ok ()) =>
    match w with
    | some none => (s, .error .valueError)
    | w =>
      let s := match w with
        | some (some k) => { s with kind := k }
        | _ => s
      ({ s with smooth := sm.getD s.smooth, randomPhase := r.getD s.randomPhase }, .ok ())

/-- The smoothed part of `_sawtooth_oscillator` (`_effects.py`, lines 450-457): divided by the
magnitude of the largest value.  A power of a negative number is complex and `max` fails.  `none` is
nan. -/
noncomputable def sawtoothSmooth (freq fs shift smooth : ℝ) (len : ℕ) : Except Err (Option (List ℝ)) :=
  if 12 < smooth then .error .typeError
  else
    let a := max 1 ((12 - smooth) ^ (3 / 2 : ℝ))
    let w := (List.range len).map fun (n : ℕ) =>
      let x := Real.pi * (freq / fs) * n + shift
      Real.arcsin (Real.tanh (Real.cos x * a) * Real.sin x)
    match w with
    | [] => .error .valueError
    | v :: l =>
      let top := l.foldl max v
      if top = 0 then .ok none else .ok (some (w.map (· / |top|)))

/-- The smoothed part of `_triangle_oscillator` (`_effects.py`, lines 468-471); `none` is nan. -/
noncomputable def triangleSmooth (freq fs shift smooth : ℝ) (len : ℕ) : Except Err (Option (List ℝ)) :=
  let t := smooth * (0.08 / 10)
  let x := (List.range len).map fun n => (1 - t) * Real.sin (phase freq fs shift n)
  let w := x.map fun v => 1 - 2 / Real.pi * Real.arccos v
  if w = [] then .error .valueError
  else if maxAbs x > 1 ∨ maxAbs w = 0 then .ok none else .ok (some (w.map (· / maxAbs w)))

/-- The maximum of an empty array raises ValueError. -/
noncomputable def unlessEmpty (len : ℕ) (y : Option (List ℝ)) : Except Err (Option (List ℝ)) :=
  if len = 0 then .error .valueError else .ok y

/-- `LFO.get_waveform` (`_effects.py`, lines 382-397).  `np.arange` of a negative length is empty.
For the frequency 0 and no length `int(inf)` raises OverflowError, which stands as `zeroDivision`. -/
noncomputable def getWaveform (s : State) (fs : ℕ) (length : Option ℤ) (shift : ℝ) : Except Err (Option (List ℝ)) :=
  let go (n : ℤ) : Except Err (Option (List ℝ)) :=
    let len := n.toNat
    match s.kind with
    | .harmonic => .ok (harmonic s.freq fs shift len)
    | .square => .ok (square s.freq fs shift s.smooth len)
    | .sawtooth =>
      if s.smooth = 0 then .ok (sawtooth s.freq fs shift len)
      else sawtoothSmooth s.freq fs shift s.smooth len
    | .triangle =>
      if s.smooth = 0 then unlessEmpty len (triangle s.freq fs shift len)
      else triangleSmooth s.freq fs shift s.smooth len
  match length with
  | some n => go n
  | none =>
    if s.freq = 0 then .error .zeroDivision
    else if 0 < s.freq then go ⌊(fs : ℝ) / s.freq⌋ else go ⌈(fs : ℝ) / s.freq⌉

end Verif.Lfo

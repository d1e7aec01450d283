import Verif.Model.Distortion

/-!
# Model of the digital delay, the tremolo, the chorus and the low-frequency oscillators

`effects/effects.py` (`DigitalDelay`, `Tremolo`, `Chorus`), `effects/_effects.py` (`LFO`,
oscillators).  Exact arithmetic over the real numbers; a channel is a list of samples.  A channel
with `nan` is `none`.
-/

namespace Verif.Echo

open Verif.Level (maxAbs)
open Verif.Distortion (restorePeak)

/-! ## DigitalDelay -/

/-- Kinds of saturation (`effects.py`, lines 1393-1414).  A callable is rejected because
`saturation.lower()` raises AttributeError. -/
inductive Saturation
  | digital
  | arctan
  | other
  | callable
  deriving DecidableEq

/-- `set_advanced_parameters` (`effects.py`, lines 1380-1414): a string that is neither
`'digital'` nor `'arctan'` is called, TypeError. -/
noncomputable def setSaturation : Saturation → Except Err (ℝ → ℝ)
  | .digital => .ok id
  | .arctan => .ok fun x => 0.5 * Real.arctan (2 * x)
  | .other => .error .typeError
  | .callable => .error .attributeError

/-- `__set_parameters` (`effects.py`, lines 1352-1358), also used by `set_parameters`; `None`
cannot be compared with 0. -/
noncomputable def setDelay (delayMs feedback : Option ℝ) : Except Err (ℝ × ℝ) :=
  match delayMs, feedback with
  | none, _ => .error .typeError
  | some d, fb =>
    if ¬ 0 < d then .error .assertionError
    else match fb with
      | none => .error .typeError
      | some f => if ¬ 0 < f then .error .assertionError else .ok (d, f)

/-- `for i in np.arange(D, L): td[i] = td[i] + f * sat(td[i - D])` (`effects.py`, lines
1466-1469), in place. -/
noncomputable def echoLoop (sat : ℝ → ℝ) (f : ℝ) (D L : ℕ) (td : ℕ → ℝ) : ℕ → ℝ :=
  (List.range' D (L - D)).foldl (fun a i => Function.update a i (a i + f * sat (a (i - D)))) td

/-- Number of samples added at the end (`effects.py`, line 1463). -/
noncomputable def padding (D : ℕ) (f : ℝ) : ℕ := ⌊(D : ℝ) * (1 + f * 15)⌋₊

/-- `DigitalDelay._apply_this_effect` (`effects.py`, lines 1453-1473) on a channel, for a delay of
`D` samples (rounded), up to the array handed to `copy_with_new_time_data`. -/
noncomputable def applyDelay (sat : ℝ → ℝ) (f : ℝ) (D : ℕ) (x : List ℝ) : Option (List ℝ) :=
  let L := x.length + padding D f
  let td := echoLoop sat f D L fun i => x.getD i 0
  restorePeak (maxAbs x) ((List.range L).map td)

/-! ## Oscillators -/

/-- Phase in radians of sample `n` (`_effects.py`, lines 421, 429, 464). -/
noncomputable def phase (freq fs shift : ℝ) (n : ℕ) : ℝ := freq / fs * 2 * Real.pi * n + shift

/-- `_harmonic_oscillator` (`_effects.py`, lines 416-421). -/
noncomputable def harmonic (freq fs shift : ℝ) (len : ℕ) : Option (List ℝ) :=
  some ((List.range len).map fun n => Real.sin (phase freq fs shift n))

/-- `_square_oscillator` (`_effects.py`, lines 424-436). -/
noncomputable def square (freq fs shift smooth : ℝ) (len : ℕ) : Option (List ℝ) :=
  some ((List.range len).map fun n =>
    if smooth = 0 then SignType.sign (Real.sin (phase freq fs shift n))
    else Real.arctan (Real.sin (phase freq fs shift n) / (smooth * (0.25 / 10))))

/-- `_sawtooth_oscillator` (`_effects.py`, lines 439-449), without smoothing; the phase shift is in
periods. -/
noncomputable def sawtooth (freq fs shift : ℝ) (len : ℕ) : Option (List ℝ) :=
  some ((List.range len).map fun (n : ℕ) => (Int.fract (freq / fs * n + shift) - 0.5) * 2)

/-- `_triangle_oscillator` (`_effects.py`, lines 459-472), without smoothing: divided by the largest
magnitude of the array. -/
noncomputable def triangle (freq fs shift : ℝ) (len : ℕ) : Option (List ℝ) :=
  let w := (List.range len).map fun n => 2 / Real.pi * Real.arcsin (Real.sin (phase freq fs shift n))
  if maxAbs w = 0 then none else some (w.map (· / maxAbs w))

/-! ## Tremolo -/

/-- `Tremolo._apply_this_effect` (`effects.py`, lines 1091-1102) on a channel; `m` is the modulation
signal, as long as the channel. -/
noncomputable def tremolo (depth : ℝ) (m x : List ℝ) : List ℝ :=
  List.zipWith (fun v u => v * |u * depth + 1|) x m

/-- Type check of the modulator (`effects.py`, lines 1049-1064): `type(modulator)` is never
`NDArray[np.float64]`, so that arrays are rejected. -/
inductive Modulator
  | lfo
  | array
  deriving DecidableEq

/-- `Tremolo.__set_parameters` (`effects.py`, lines 1049-1064) in the constructor. -/
noncomputable def setTremolo (depth : ℝ) (m : Modulator) : Except Err ℝ :=
  match m with
  | .array => .error .assertionError
  | .lfo => if 0 < depth ∧ depth ≤ 1 then .ok depth else .error .assertionError

/-! ## Chorus -/

/-- `td[i]` with a python index, negative ones counting from the end. -/
def pyGet (td : List ℝ) (i : ℤ) : ℝ := if i < 0 then td.getD (td.length + i).toNat 0 else td.getD i.toNat 0

/-- Largest magnitude in the table of delays in samples (`effects.py`, line 1305), over
`le` samples and the voices. -/
def maxDelay (le voices : ℕ) (m : ℕ → ℕ → ℤ) : ℕ :=
  (Finset.range le ×ˢ Finset.range voices).sup fun p => (m p.1 p.2).natAbs

/-- `Chorus._apply_this_effect` (`effects.py`, lines 1287-1324) on a channel, given the table `m` of
delays in samples (sample, voice), up to the array handed to `copy_with_new_time_data`. -/
noncomputable def chorus (mix : ℝ) (voices : ℕ) (m : ℕ → ℕ → ℤ) (x : List ℝ) : Option (List ℝ) :=
  let le := x.length
  let td := x ++ List.replicate (maxDelay le voices m) 0
  let new := (List.range le).map fun i =>
    td.getD i 0 + ((List.range voices).map fun v => pyGet td (i + m i v)).sum
  let mixed := (List.range le).map fun i => new.getD i 0 * mix + td.getD i 0 * (1 - mix)
  restorePeak (maxAbs x) mixed

/-- Lengths of the lists kept by a `Chorus` (`effects.py`, lines 1157-1252). -/
structure Voices where
  number : ℕ
  base : ℕ
  depths : ℕ
  modulators : ℕ
  deriving DecidableEq

/-- `__set_parameters` as far as the lengths of the lists are concerned (`effects.py`, lines
1157-1245); the arguments are the lengths of the given lists, `none` for `None`.  Nothing is
repaired when an argument is `None`. -/
def setVoices (s : Voices) (base depths mods : Option ℕ) : Except Err Voices :=
  let number := max (max (base.getD s.base) (depths.getD s.depths)) (mods.getD s.modulators)
  if ∃ b ∈ base, b ≠ 1 ∧ b ≠ number then .error .assertionError
  else if ∃ b ∈ mods, b ≠ 1 ∧ b ≠ number then .error .assertionError
  else if ∃ b ∈ depths, b ≠ 1 ∧ b ≠ number then .error .assertionError
  else .ok ⟨number, if base.isSome then number else s.base,
    if depths.isSome then number else s.depths, if mods.isSome then number else s.modulators⟩

end Verif.Echo

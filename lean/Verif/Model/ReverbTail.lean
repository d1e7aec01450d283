import Verif.Model.ImageSource
import Verif.Model.CSM
import Verif.Model.PadTrim

/-!
# Model of the synthetic room impulse response and its reverberant tail

`room_acoustics/_room_acoustics.py: get_mixing_time` (lines 451-504), `_add_reverberant_tail_noise`
(lines 840-886); `room_acoustics/room_acoustics.py: generate_synthetic_rir` (lines 300-447), without
detailed absorption and without band-pass.

Exact real arithmetic.  The random numbers are an argument.  `none` as a sample stands for nan.
-/

namespace Verif.ReverbTail

open Verif.Room Verif.SignalData

/-- The argument `mode` of `get_mixing_time` after `lower()`. -/
inductive Mode where
  | perceptual | physical | other

/-- `get_mixing_time` (`_room_acoustics.py`, lines 490-504) for a positive speed of sound. -/
noncomputable def mixingTime (volume : ℝ) (mode : Mode) (reflections c : ℝ) : Except Err ℝ :=
  match mode with
  | .other => .error .assertionError
  | .perceptual => .ok ((√volume * 0.58 + 21.2) * 1e-3)
  | .physical =>
    if 0 < reflections then .ok (√(reflections * volume / (4 * Real.pi * c ^ 3)))
    else .error .assertionError

/-- The slice `x[a:b]` of python with bounds that may be negative. -/
def slice (x : List ℝ) (a b : ℤ) : List ℝ :=
  let norm := fun (i : ℤ) => (if i < 0 then i + x.length else i).toNat
  (x.take (norm b)).drop (norm a)

/-- `np.squeeze(np.where(rir != 0))[0]` (`_room_acoustics.py`, line 863).  A single index is squeezed to an array
without dimensions, which cannot be indexed; no index gives an empty array. -/
noncomputable def direct (x : List ℝ) : Except Err ℕ :=
  let idx := (List.range x.length).filter fun i => decide (x.getD i 0 ≠ 0)
  if idx.length = 1 then .error .indexError
  else match idx with
    | [] => .error .indexError
    | i :: _ => .ok i

/-- The decaying noise before the normalisation (lines 870-872); `g` are the normal random numbers. -/
noncomputable def decaying (g : ℕ → ℝ) (t60 sr : ℝ) (k : ℕ) : ℝ :=
  |g k| * Real.exp (-(0.02 * 343 / t60) * k / sr)

/-- `np.max(noise)` of `n ≥ 1` numbers that are not negative (line 873). -/
noncomputable def peak (n : ℕ) (v : ℕ → ℝ) : ℝ := ((List.range n).map v).foldr max 0

/-- The gain (lines 876-880); the median of no values is nan. -/
noncomputable def gain (x : List ℝ) (n : ℕ) : Option ℝ :=
  let window := (slice x (-(n : ℤ) - 50) (-(n : ℤ) + 50)).filter fun v => decide (v ≠ 0)
  if window = [] then none else some (CSM.median window * 0.5)

/-- `_add_reverberant_tail_noise` (lines 840-886) for a mixing time that is not negative.  A negative
length of the noise raises ValueError in `np.random.normal`, the length 0 in `np.max`.  Random numbers
that are all 0 give 0/0. -/
noncomputable def addTail (x : List ℝ) (mixing t60 sr : ℝ) (g : ℕ → ℝ) :
    Except Err (List (Option ℝ)) :=
  match direct x with
  | .error e => .error e
  | .ok d =>
    let m := ⌊mixing * sr⌋₊
    if x.length ≤ d + m then .error .valueError
    else
      let n := x.length - d - m
      let v := decaying g t60 sr
      let p := peak n v
      let noise := fun k => if p = 0 then none else (gain x n).map fun a => v k / p * a
      .ok ((List.range x.length).map fun i =>
        if x.length - n ≤ i ∧ x.getD i 0 = 0 then noise (i - (x.length - n))
        else some (x.getD i 0))

/-- The room with the property `mixing_time_s`, which does not exist at first. -/
structure RoomState where
  dims : Fin 3 → ℝ
  t60 : ℝ
  absorption : ℝ
  mixing : Option ℝ

/-- `self.volume` of the room (`_room_acoustics.py`, line 429) -/
def RoomState.volume (r : RoomState) : ℝ := r.dims 0 * r.dims 1 * r.dims 2

/-- `get_mixing_time` as a method, which saves its result (line 503). -/
noncomputable def getMixingTime (r : RoomState) (mode : Mode) (reflections c : ℝ) :
    Except Err ℝ × RoomState :=
  match mixingTime r.volume mode reflections c with
  | .error e => (.error e, r)
  | .ok t => (.ok t, { r with mixing := some t })

open Classical in
/-- `generate_synthetic_rir` (`room_acoustics.py`, lines 300-447) without detailed absorption and
without band-pass, for a length that is not negative: the samples and the room after the call.  The
image source method does not give nan for different positions of source and receiver
(`Model/ImageSource`), so that line 391 does nothing.  The samples are those handed to the constructor of
`ImpulseResponse`. -/
noncomputable def generateSynthetic (r : RoomState) (s p : Fin 3 → ℝ) (sr length : ℝ)
    (tail : Bool) (mo : Option ℕ) (g : ℕ → ℝ) : Except Err (List (Option ℝ)) × RoomState :=
  if ¬ inRoom r.dims s then (.error .assertionError, r)
  else if ¬ inRoom r.dims p then (.error .assertionError, r)
  else
    match generateRir r.dims [r.absorption] s p r.t60 mo sr with
    | .error e => (.error e, r)
    | .ok h =>
      let x := padTrim h ⌊length * sr⌋₊ true
      if tail then
        match r.mixing with
        | some t => (addTail x t r.t60 sr g, r)
        | none =>
          match getMixingTime r .physical 1000 343 with
          | (.error e, r') => (.error e, r')
          | (.ok t, r') => (addTail x t r'.t60 sr g, r')
      else (.ok (x.map some), r)

end Verif.ReverbTail

import Verif.Model.RoomDescriptors
import Verif.Model.OctaveBank

/-!
# Model of `descriptors` with automatic trimming, for bands, and of the bass ratio

`room_acoustics/room_acoustics.py: descriptors, _bass_ratio`,
`room_acoustics/_room_acoustics.py: _d50_from_rir, _c80_from_rir, _ts_from_rir`.  Exact reals, window
lengths as in `Model/RoomDescriptors`.
-/

namespace Verif.Room

/-- `RoomAcousticsDescriptor` -/
inductive Descriptor
  | d50 | c80 | centerTime | bassRatio
  deriving DecidableEq

/-- What the functions below call: `stop`, the second result of `_trim_ir(td, fs, 0)` (modelled in
`Model/TrimIR`, here arbitrary), and `times`, the reverberation times (band by channel) of the
channels filtered with a bank, `reverb_time(fb.filter_signal(rir, ...))`. -/
structure Calls where
  stop : List ℝ → Except Err ℕ
  times : List OctaveBank.Design → List (List ℝ) → Except Err (List (List ℝ))

/-- `_d50_from_rir` (`_room_acoustics.py`, lines 889-922); `none` is nan. -/
noncomputable def d50Of (fs : ℕ) (calls : Calls) (auto : Bool) (x : List ℝ) : Except Err (Option ℝ) :=
  let td := x.drop (irStart (-20) x)
  let window := 50 * fs / 1000
  let result (stop : ℕ) : Option ℝ :=
    if energy (td.take stop) = 0 then none
    else some (energy (td.take window) / energy (td.take stop))
  if auto then
    match calls.stop td with
    | .error e => .error e
    | .ok stop => .ok (result (max window stop))
  else .ok (result td.length)

/-- `_c80_from_rir` (`_room_acoustics.py`, lines 924-959); `none` is inf, -inf or nan. -/
noncomputable def c80Of (fs : ℕ) (calls : Calls) (auto : Bool) (x : List ℝ) : Except Err (Option ℝ) :=
  let td := x.drop (irStart (-20) x)
  let window := 80 * fs / 1000
  let result (stop : ℕ) : Option ℝ :=
    let early := energy (td.take window)
    let late := energy ((td.take stop).drop window)
    if early = 0 ∨ late = 0 then none else some (10 * Real.logb 10 (early / late))
  if auto then
    match calls.stop td with
    | .error e => .error e
    | .ok stop => .ok (result (max window stop))
  else .ok (result td.length)

/-- `_ts_from_rir` (`_room_acoustics.py`, lines 961-997). -/
noncomputable def centerTimeOf (fs : ℕ) (calls : Calls) (auto : Bool) (x : List ℝ) :
    Except Err (Option ℝ) :=
  let td := x.drop (irStart (-20) x)
  let result (stop : ℕ) : Option ℝ :=
    let td := (td.take stop).map (· ^ 2)
    if td.sum = 0 then none
    else some ((td.mapIdx fun n v => v * timeVector fs td.length n).sum / td.sum)
  if auto then
    match calls.stop td with
    | .error e => .error e
    | .ok stop => .ok (result stop)
  else .ok (result td.length)

/-- `_bass_ratio` (`room_acoustics.py`, lines 519-541); `none` is nan or inf. -/
noncomputable def bassRatio (fs : ℕ) (calls : Calls) (channels : List (List ℝ)) :
    Except Err (List (Option ℝ)) :=
  match OctaveBank.octaveBands [125, 1000] 1 (some fs) with
  | .error e => .error e
  | .ok bank =>
    match calls.times bank.filters channels with
    | .error e => .error e
    | .ok rt =>
      let t (band ch : ℕ) : ℝ := (rt.getD band []).getD ch 0
      .ok ((List.range channels.length).map fun ch =>
        if t 2 ch + t 3 ch = 0 then none else some ((t 0 ch + t 1 ch) / (t 2 ch + t 3 ch)))

/-- `descriptors` of an impulse response (`room_acoustics.py`, lines 486-503). -/
noncomputable def ofResponse (fs : ℕ) (calls : Calls) (d : Descriptor) (auto : Bool)
    (channels : List (List ℝ)) : Except Err (List (Option ℝ)) :=
  match d with
  | .d50 => channels.mapM (d50Of fs calls auto)
  | .c80 => channels.mapM (c80Of fs calls auto)
  | .centerTime => channels.mapM (centerTimeOf fs calls auto)
  | .bassRatio => bassRatio fs calls channels

/-- The argument `rir`. -/
inductive Rir
  | response (channels : List (List ℝ))
  | bands (bands : List (List (List ℝ)))
  | other

/-- `descriptors` (`room_acoustics.py`, lines 452-516).  The vector of an impulse response is given
as one row.  The bands are impulse responses with equal numbers of channels. -/
noncomputable def descriptors (fs : ℕ) (calls : Calls) (rir : Rir) (d : Descriptor) (auto : Bool) :
    Except Err (List (List (Option ℝ))) :=
  match rir with
  | .response channels =>
    match ofResponse fs calls d auto channels with
    | .error e => .error e
    | .ok r => .ok [r]
  | .bands bands =>
    if d = .bassRatio then .error .assertionError
    else bands.mapM fun b => ofResponse fs calls d true b
  | .other => .error .typeError

end Verif.Room

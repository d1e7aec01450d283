import Verif.Model.Level

/-!
# Model of the start of an impulse response and of the energy descriptors

`room_acoustics/_room_acoustics.py`, one channel, exact reals.  The automatic trimming
(`_trim_ir`) is not modelled: descriptors are those of `automatic_trimming_rir=False`.  The window
lengths `int(50e-3 * fs)` and `int(80e-3 * fs)` are taken without rounding errors.
-/

namespace Verif.Room

open Verif.Level

/-- `np.argmax(np.abs(ir))`: the first position of the maximum. -/
noncomputable def argmaxAbs (x : List ℝ) : ℕ := (x.map fun v => |v|).idxOf (maxAbs x)

open Classical in
/-- The loop `for start in range(n, -1, -1): if below(start): break`; without a break the loop
variable ends at 0. -/
noncomputable def descend (below : ℕ → Prop) : ℕ → ℕ
  | 0 => 0
  | n + 1 => if below (n + 1) then n + 1 else descend below n

/-- The threshold of `_find_ir_start` (`_room_acoustics.py`, line 110). -/
noncomputable def threshold (db : ℝ) (x : List ℝ) : ℝ :=
  |x.getD (argmaxAbs x) 0| * fromDb (-|db|) true

/-- `_find_ir_start` (`_room_acoustics.py`, lines 88-115). -/
noncomputable def irStart (db : ℝ) (x : List ℝ) : ℕ :=
  descend (fun i => |x.getD i 0| < threshold db x) (argmaxAbs x)

/-- `np.sum(td ** 2)` -/
def energy (x : List ℝ) : ℝ := (x.map (· ^ 2)).sum

/-- `_d50_from_rir` (`_room_acoustics.py`, lines 889-922); `none` is nan (silence). -/
noncomputable def d50 (fs : ℕ) (x : List ℝ) : Option ℝ :=
  let td := x.drop (irStart (-20) x)
  if energy td = 0 then none else some (energy (td.take (50 * fs / 1000)) / energy td)

/-- `_c80_from_rir` (`_room_acoustics.py`, lines 924-959); `none` is inf, -inf or nan. -/
noncomputable def c80 (fs : ℕ) (x : List ℝ) : Option ℝ :=
  let td := x.drop (irStart (-20) x)
  let w := 80 * fs / 1000
  let early := energy (td.take w)
  let late := energy (td.drop w)
  if early = 0 ∨ late = 0 then none else some (10 * Real.logb 10 (early / late))

/-- `np.linspace(0, len / fs, len)[n]`: the last point is `len / fs`; one point is 0. -/
noncomputable def timeVector (fs len n : ℕ) : ℝ := n * ((len / fs : ℝ) / (len - 1 : ℕ))

/-- `_ts_from_rir` (`_room_acoustics.py`, lines 961-997). -/
noncomputable def centerTime (fs : ℕ) (x : List ℝ) : Option ℝ :=
  let td := (x.drop (irStart (-20) x)).map (· ^ 2)
  if td.sum = 0 then none
  else some ((td.mapIdx fun n v => v * timeVector fs td.length n).sum / td.sum)

end Verif.Room

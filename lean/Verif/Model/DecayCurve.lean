import Verif.Model.Reverb
import Verif.Model.Smoothing
import Verif.Model.CrestFactor

/-!
# The energy decay curve (`room_acoustics/_room_acoustics.py`: `_compute_energy_decay_curve`)

Exact arithmetic, one channel.  The index at which the response ends (`_trim_ir`, see `Model/TrimIR`) is
an argument.
-/

namespace Verif.DecayCurve

open Finset Verif.Room

/-- `to_db(x, False)` with its default limit (`helpers/gain_and_level.py`, lines 158-200). -/
noncomputable def powerDb (x : ℝ) : ℝ := 10 * Real.logb 10 (max |x| Level.tiny)

/-- `np.var`; `none` is the `nan` of an empty array. -/
noncomputable def variance (x : List ℝ) : Option ℝ :=
  if x = [] then none
  else some ((x.map fun v => (v - x.sum / x.length) ^ 2).sum / x.length)

/-- `np.polyfit(t[i0:N], y[i0:N], 1)`: slope and level at time 0; `none` if the points do not determine
a line (NumPy warns and returns another solution). -/
noncomputable def fitLine (i0 N : ℕ) (t y : ℕ → ℝ) : Option (ℝ × ℝ) :=
  (polyfitSlope i0 N t y).map fun a => (a, mean i0 N y - a * mean i0 N t)

/-- `signal_db` (`_room_acoustics.py`, line 1187). -/
noncomputable def signalDb (fs N : ℕ) (p : ℕ → ℝ) (n : ℕ) : ℝ :=
  powerDb ((Smoothing.smoothFilter (Smoothing.factorOr 0.02 fs) N p).getD n 0)

open Classical in
/-- `start_index_int` (`_room_acoustics.py`, lines 1183-1188) for the noise power `noise`: the first
index below half of the dynamic range.  Without noise the dynamic range is infinite, for a silent
response it is `nan`. -/
noncomputable def fitStart (fs N : ℕ) (p : ℕ → ℝ) (noise : ℝ) : Option ℕ :=
  if noise = 0 then if ∃ n < N, p n ≠ 0 then some 0 else none
  else (List.range N).find? fun (i : ℕ) =>
    decide (∃ m < N, (∀ n < N, signalDb fs N p m ≤ signalDb fs N p n) ∧ ∃ q < N, (∀ n < N, p n ≤ p q) ∧
      powerDb (p q / noise) / 2 + signalDb fs N p m > signalDb fs N p i)

open Classical in
/-- The compensation energy (`_room_acoustics.py`, lines 1190-1199), `none` if the corrections are
avoided.  Without noise the exponent `A` is infinite and the energy 0.  If the noise power equals `B` the
compensation is infinite and all energies are negative, so that the corrections are avoided, too. -/
noncomputable def compensate (fs : ℕ) (p0 p1 noise : ℝ) : Option ℝ :=
  if noise = 0 then if p1 ≥ 0 ∨ (powerDb 0 - p0) / p1 ≤ 0 then none else some 0
  else if (compensation p0 p1 noise).1 ∨ noise = Level.fromDb p0 false then none
  else some ((compensation p0 p1 noise).2.2 * fs)

/-- Energy after sample `n` (`_room_acoustics.py`, lines 1202-1206). -/
noncomputable def restEnergy (N : ℕ) (p : ℕ → ℝ) (noise e : ℝ) (n : ℕ) : ℝ :=
  ∑ i ∈ range N, (p i - noise) + e - ∑ i ∈ range (n + 1), (p i - noise)

/-- A curve of energies in dB relative to the first one (`_room_acoustics.py`, lines 1221-1222). -/
noncomputable def toCurve (L : ℕ) (e : ℕ → ℝ) : Except Err (List ℝ) :=
  if L = 0 then .error .indexError
  else .ok ((List.range L).map fun (n : ℕ) => powerDb (e n) - powerDb (e 0))

/-- The curve without corrections (`_room_acoustics.py`, lines 1215-1222). -/
noncomputable def plainCurve (N : ℕ) (p : ℕ → ℝ) : Except Err (List ℝ) :=
  toCurve (N * 95 / 100) (restEnergy N p 0 0)

open Classical in
/-- The curve from the powers on (`_room_acoustics.py`, lines 1183-1222). -/
noncomputable def curve (fs N : ℕ) (p : ℕ → ℝ) (noise : ℝ) : Except Err (List ℝ) :=
  match fitStart fs N p noise with
  | none => .error .indexError
  | some i0 =>
    match fitLine i0 N (timeVector fs N) (signalDb fs N p) with
    | none => .error .notImplemented
    | some (p0, p1) =>
      match compensate fs p0 p1 noise with
      | none => plainCurve N p
      | some e =>
        match (List.range N).find? fun (n : ℕ) => decide (restEnergy N p noise e n ≤ 0) with
        | none => toCurve N (restEnergy N p noise e)
        | some j =>
          if j ≤ (3 * fs + 50) / 100 then plainCurve N p
          else toCurve j (restEnergy N p noise e)

/-- `_compute_energy_decay_curve` (`_room_acoustics.py`, lines 1140-1222); `stop` is the end of the
response.  The maximum of no powers raises ValueError; with a noise power of `nan` no index is below the
dynamic range. -/
noncomputable def decayCurve (x : List ℝ) (fs stop : ℕ) : Except Err (List ℝ) :=
  let start := irStart (-20) x
  let p := ((x.take stop).drop start).map (· ^ 2)
  if p = [] then .error .valueError
  else
    match (if stop ≠ x.length then variance (x.drop stop) else variance (x.take start)) with
    | none => .error .indexError
    | some noise => curve fs p.length (fun n => p.getD n 0) noise

end Verif.DecayCurve

import Verif.Model.Beamforming
import Verif.Model.FractionalDelay

/-!
# Model of grids, microphone arrays, sources and the beamformer in the time domain

`dsptoolbox/beamforming/beamforming.py`.  Exact arithmetic.
-/

namespace Verif.Beamforming

open Verif.SignalData (State colOf padTrim)

/-! ### Grids -/

/-- `Regular2DGrid` (`beamforming.py`, lines 118-152): the coordinates.  The dimensions are given as
numbers, other strings than x, y, z are not modelled.  `squeeze` makes a line of one point to a scalar
without length. -/
noncomputable def grid2D (line1 line2 : List ℝ) (dim1 dim2 : Fin 3) (value3 : ℝ) :
    Except Err (List Point) :=
  if dim1 = dim2 then .error .assertionError
  else if line1.length = 1 ∨ line2.length = 1 then .error .typeError
  else
    let positions := line1.flatMap fun a => line2.map fun b => (a, b)
    let along (d : Fin 3) : List ℝ := positions.map fun p =>
      if d = dim1 then p.1 else if d = dim2 then p.2 else value3
    makePoints (along 0) (along 1) (along 2)

/-- `Regular2DGrid.reconstruct_map_shape` (`beamforming.py`, lines 169-173) for a vector. -/
def reshape2D (points n1 n2 : ℕ) (v : List ℝ) : Except Err (List (List ℝ)) :=
  if v.length ≠ points then .error .assertionError
  else .ok ((List.range n1).map fun i => (List.range n2).map fun j => v.getD (i * n2 + j) 0)

/-- `Regular3DGrid` (`beamforming.py`, lines 251-273). -/
def grid3D (lineX lineY lineZ : List ℝ) : Except Err (List Point) :=
  if lineX.length = 1 ∨ lineY.length = 1 ∨ lineZ.length = 1 then .error .assertionError
  else
    let positions := lineX.flatMap fun a => lineY.flatMap fun b => lineZ.map fun c => (a, b, c)
    makePoints (positions.map fun p => p.1) (positions.map fun p => p.2.1)
      (positions.map fun p => p.2.2)

/-- `Regular3DGrid.reconstruct_map_shape` (`beamforming.py`, lines 291-295) for a vector. -/
def reshape3D (points n1 n2 n3 : ℕ) (v : List ℝ) : Except Err (List (List (List ℝ))) :=
  if v.length ≠ points then .error .assertionError
  else .ok ((List.range n1).map fun i => (List.range n2).map fun j => (List.range n3).map fun k =>
    v.getD ((i * n2 + j) * n3 + k) 0)

/-- `LineGrid` (`beamforming.py`, lines 403-422): `base_dimensions.pop(ind)` leaves the next
dimension (cyclically) at the index. -/
noncomputable def lineGrid (line : List ℝ) (dim : Fin 3) (value2 value3 : ℝ) :
    Except Err (List Point) :=
  let base : List (Fin 3) := [0, 1, 2, 0]
  let dim2 := (base.eraseIdx dim).getD dim 0
  let along (d : Fin 3) : List ℝ := line.map fun a =>
    if d = dim then a else if d = dim2 then value2 else value3
  makePoints (along 0) (along 1) (along 2)

/-! ### Arrays -/

/-- The distances between different microphones, row by row. -/
noncomputable def pairDistances (mics : List Point) : List ℝ :=
  (List.range mics.length).flatMap fun i => ((List.range mics.length).filter fun j => j ≠ i).map
    fun j => distance (mics.getD i 0) (mics.getD j 0)

/-- `aperture` (`beamforming.py`, lines 506-515) for two or more microphones: the maximum without the
diagonal. -/
noncomputable def aperture (mics : List Point) : ℝ :=
  (pairDistances mics).foldl max ((pairDistances mics).getD 0 0)

/-- `min_distance` (`beamforming.py`, lines 506-515) for two or more microphones. -/
noncomputable def minDistance (mics : List Point) : ℝ :=
  (pairDistances mics).foldl min ((pairDistances mics).getD 0 0)

/-- `he_to_hz` (`beamforming.py`, line 561). -/
noncomputable def heToHz (mics : List Point) (c he : ℝ) : ℝ := he * c / aperture mics

/-- `hz_to_he` (`beamforming.py`, line 580). -/
noncomputable def hzToHe (mics : List Point) (c f : ℝ) : ℝ := f * aperture mics / c

/-- `get_maximum_frequency_range` (`beamforming.py`, lines 602-603). -/
noncomputable def frequencyRange (mics : List Point) (he c : ℝ) : List ℝ :=
  [heToHz mics c he, c / minDistance mics / 2]

/-! ### Sources -/

/-- `fractional_delay` of a signal with one channel and the default order and window. -/
noncomputable def delayChannel (x : List ℝ) (fs : ℕ) (delay : ℝ) (keep : Bool) :
    Except Err (List ℝ) :=
  match FractionalDelay.fractionalDelay ⟨⟨x.length, 1, fun r _ => x.getD r 0⟩, none, false, 1⟩ fs delay
    none keep 30 60 with
  | .error e => .error e
  | .ok s => .ok (colOf s.re 0)

/-- `MonopoleSource.get_signals_on_array` (`beamforming.py`, lines 1440-1459): the channels of the
result, for a signal without constrained amplitude and with more samples than microphones. -/
noncomputable def onArray (fs : ℕ) (c : ℝ) (mics : List Point) (x : List ℝ) (s : Point) :
    Except Err (List (List ℝ)) :=
  mics.mapM fun m =>
    match delayChannel x fs (distance m s / c) true with
    | .error e => .error e
    | .ok y => .ok (y.map fun a => a / (1 + distance m s))

/-- One pass of the loop of `mix_sources_on_array` (`beamforming.py`, lines 1496-1510); the state has
the sum and the emitted signals with the positions of the sources seen so far. -/
noncomputable def mixStep (fs : ℕ) (c : ℝ) (mics : List Point)
    (st : List (List ℝ) × ℕ × List (List ℝ × Point)) (s : List ℝ × Point) :
    Except Err (List (List ℝ) × ℕ × List (List ℝ × Point)) :=
  let (sum, total, seen) := st
  let differ := total ≠ s.1.length
  let total' := if differ then min total s.1.length else total
  let sum' := if differ then sum.map fun y => padTrim y total' true else sum
  let x := if differ then padTrim s.1 total' true else s.1
  match onArray fs c mics x s.2 with
  | .error e => .error e
  | .ok ys => .ok (List.zipWith (fun a b => List.zipWith (· + ·) a b) sum' ys, total', seen ++ [(x, s.2)])

/-- `mix_sources_on_array` (`beamforming.py`, lines 1482-1510) for a list of sources: the result and
the list of the caller afterwards, which has lost its first entry. -/
noncomputable def mixSources (fs : ℕ) (c : ℝ) (mics : List Point) (sources : List (List ℝ × Point)) :
    Except Err (List (List ℝ) × List (List ℝ × Point)) :=
  match sources with
  | [] => .error .assertionError
  | first :: rest =>
    match onArray fs c mics first.1 first.2 with
    | .error e => .error e
    | .ok ys =>
      match rest.foldlM (mixStep fs c mics) (ys, first.1.length, []) with
      | .error e => .error e
      | .ok (sum, _, seen) => .ok (sum, seen)

/-! ### Delay-and-sum in the time domain -/

/-- The distances of all microphones to all grid points. -/
noncomputable def allDistances (mics grid : List Point) : List ℝ :=
  mics.flatMap fun m => grid.map fun g => distance m g

/-- `BeamformerDASTime.get_beamformer_output` (`beamforming.py`, lines 1357-1393): the channels of the
result for the channels `xs` of the microphones, all of the length `L`. -/
noncomputable def dasTime (fs : ℕ) (c : ℝ) (mics grid : List Point) (L : ℕ) (xs : List (List ℝ)) :
    Except Err (List (List ℝ)) :=
  let ds := allDistances mics grid
  let least := ds.foldl min (ds.getD 0 0)
  let r0 := ds.foldl max (ds.getD 0 0)
  let total := L + ⌊(r0 - least) / c * fs + 2⌋₊
  grid.mapM fun g =>
    match (List.range mics.length).mapM fun im =>
        match delayChannel (xs.getD im []) fs ((r0 - distance (mics.getD im 0) g) / c) false with
        | .error e => (.error e : Except Err (List ℝ))
        | .ok y => .ok (padTrim (y.map fun a => a * distance (mics.getD im 0) g) total true) with
    | .error e => .error e
    | .ok ys => .ok ((List.range total).map fun j =>
        (ys.map fun y => y.getD j 0).sum / mics.length)

end Verif.Beamforming

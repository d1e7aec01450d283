import Verif.Model.Arrays

/-!
# `MicArray` with its saved properties

`beamforming/_beamforming.py: BasePoints` (coordinates, dimensions; lines 60-79) and
`beamforming/beamforming.py: MicArray` (lines 472-603), `BaseBeamformer.get_frequency_range_from_he`
(lines 720-737).  Center, aperture and minimum distance are computed on demand and saved.  Exact
arithmetic; coordinates are arrays with three columns.
-/

namespace Verif.Beamforming

/-- What an array holds: the coordinates, the axes along which it extends, the saved center (position and
channel) and the saved aperture and minimum distance. -/
structure MicState where
  coords : List Point
  dims : List (Fin 3)
  center : Option (Point × ℕ)
  extents : Option (ℝ × ℝ)

/-- Assignments and reading of properties. `assign none` is an assignment of something that is not a numpy
array. -/
inductive MicOp
  | assign (p : Option (List Point))
  | coordinates
  | dimensions
  | centerCoordinates
  | centerChannel
  | aperture
  | minDistance
  | heToHz (he c : ℝ)
  | hzToHe (f c : ℝ)
  | maximumRange (he c : ℝ)
  | rangeFromHe (he : List ℝ) (c : ℝ)

/-- Results of operations -/
inductive MicVal
  | done
  | points (l : List Point)
  | axes (l : List (Fin 3))
  | point (p : Point)
  | number (n : ℕ)
  | reals (l : List ℝ)

/-- `len(np.unique(column)) == 1`: there are points and all have the same coordinate. -/
def constantAxis (l : List Point) (i : Fin 3) : Prop := ∃ v, l ≠ [] ∧ ∀ p ∈ l, p i = v

open Classical in
/-- The dimensions found by the setter (`_beamforming.py`, lines 69-77). -/
noncomputable def extendedAxes (l : List Point) : List (Fin 3) :=
  (List.finRange 3).filter fun i => ¬ constantAxis l i

/-- The constructor (`_beamforming.py`, line 54; `beamforming.py`, lines 472-479) after the coordinates
have been put together. -/
noncomputable def MicState.new (l : List Point) : MicState := ⟨l, extendedAxes l, none, none⟩

/-- The center, computed if it has not been saved (`beamforming.py`, lines 494-504 and 535-541).  An array
without points raises ValueError. -/
noncomputable def MicState.getCenter (s : MicState) : Except Err (Point × ℕ) × MicState :=
  match s.center with
  | some c => (.ok c, s)
  | none =>
    match centerIndex s.coords with
    | .error e => (.error e, s)
    | .ok i => (.ok (s.coords.getD i 0, i), { s with center := some (s.coords.getD i 0, i) })

/-- Aperture and minimum distance, computed if they have not been saved (`beamforming.py`, lines 482-492 and
506-515).  The distances of fewer than two points are no square matrix after `squeeze`, or have no minimum:
ValueError. -/
noncomputable def MicState.getExtents (s : MicState) : Except Err (ℝ × ℝ) × MicState :=
  match s.extents with
  | some e => (.ok e, s)
  | none =>
    if s.coords.length < 2 then (.error .valueError, s)
    else (.ok (Beamforming.aperture s.coords, Beamforming.minDistance s.coords),
      { s with extents := some (Beamforming.aperture s.coords, Beamforming.minDistance s.coords) })

/-- A value that needs the center. -/
noncomputable def MicState.withCenter (s : MicState) (f : Point × ℕ → MicVal) : Except Err MicVal × MicState :=
  let r := s.getCenter
  (r.1.map f, r.2)

/-- A value that needs aperture or minimum distance. -/
noncomputable def MicState.withExtents (s : MicState) (f : ℝ × ℝ → MicVal) : Except Err MicVal × MicState :=
  let r := s.getExtents
  (r.1.map f, r.2)

/-- One operation on an array. -/
noncomputable def MicState.step (s : MicState) : MicOp → Except Err MicVal × MicState
  -- `_beamforming.py`, lines 63-79
  | .assign none => (.error .assertionError, s)
  | .assign (some l) => (.ok .done, { s with coords := l, dims := extendedAxes l })
  -- `_beamforming.py`, line 61
  | .coordinates => (.ok (.points s.coords), s)
  | .dimensions => (.ok (.axes s.dims), s)
  | .centerCoordinates => s.withCenter fun c => .point c.1
  | .centerChannel => s.withCenter fun c => .number c.2
  | .aperture => s.withExtents fun e => .reals [e.1]
  | .minDistance => s.withExtents fun e => .reals [e.2]
  -- `beamforming.py`, lines 561, 580 and 602-603
  | .heToHz he c => s.withExtents fun e => .reals [he * c / e.1]
  | .hzToHe f c => s.withExtents fun e => .reals [f * e.1 / c]
  | .maximumRange he c => s.withExtents fun e => .reals [he * c / e.1, c / e.2 / 2]
  -- `beamforming.py`, lines 736-737
  | .rangeFromHe he c =>
    if he.length ≠ 2 then (.error .assertionError, s)
    else s.withExtents fun e => .reals (he.map fun h => h * c / e.1)

/-- The state after a history -/
noncomputable def MicState.after (s : MicState) (h : List MicOp) : MicState := h.foldl (fun s op => (s.step op).2) s

/-- The result of an operation after a history -/
noncomputable def MicState.answer (s : MicState) (h : List MicOp) (op : MicOp) : Except Err MicVal :=
  ((s.after h).step op).1

end Verif.Beamforming

import Verif.Spec.Realtime
import Mathlib.Analysis.SpecialFunctions.Sqrt
import Mathlib.Analysis.Real.Pi.Bounds
import Mathlib.Algebra.BigOperators.Fin
import Mathlib.Data.List.Sort

/-!
# Model of the room classes (`room_acoustics/_room_acoustics.py`, lines 272-837)

Exact reals.
-/

namespace Verif.Room

open Finset

/-- Attributes of a room. -/
structure RoomData where
  volume : ℝ
  area : ℝ
  t60 : ℝ
  absorption : ℝ
  schroeder : ℝ
  criticalDistance : ℝ

/-- `Room.__init__` (`_room_acoustics.py`, lines 275-334).  With both arguments neither branch stores
`t60_s`, and reading it raises AttributeError.  (`t60_s=0` raises ZeroDivisionError for Python floats;
for NumPy floats the quotient is infinite and the assertion fails.) -/
noncomputable def construct (volume area : ℝ) (t60 absorption : Option ℝ) : Except Err RoomData :=
  if ¬ 0 < area then .error .assertionError
  else if ¬ 0 < volume then .error .assertionError
  else
    let derived := fun t a : ℝ =>
      (⟨volume, area, t, a, 2000 * √(t / volume), 0.057 * √(volume / t)⟩ : RoomData)
    match t60, absorption with
    | none, none => .error .assertionError
    | none, some a =>
      if 0 < a ∧ a ≤ 1 then .ok (derived (0.161 * volume / area / a) a) else .error .assertionError
    | some t, none =>
      if t = 0 then .error .zeroDivision
      else if 0 < 0.161 * volume / area / t ∧ 0.161 * volume / area / t ≤ 1 then
        .ok (derived t (0.161 * volume / area / t))
      else .error .assertionError
    | some _, some _ => .error .attributeError

/-- `ShoeboxRoom.__init__` (`_room_acoustics.py`, lines 380-431). -/
noncomputable def shoebox (x y z : ℝ) (t60 absorption : Option ℝ) : Except Err RoomData :=
  if 0 < x ∧ 0 < y ∧ 0 < z then
    construct (x * y * z) ((z * x + x * y + y * z) * 2) t60 absorption
  else .error .assertionError

/-- `modal_density` (`_room_acoustics.py`, lines 355-377) for one frequency. -/
noncomputable def modalDensity (r : RoomData) (f c : ℝ) : ℝ :=
  4 * Real.pi * f ^ 2 * r.volume / c ^ 3 + Real.pi * f * r.area / 2 / c ^ 2

/-- `check_if_in_room` (`_room_acoustics.py`, lines 433-449). -/
def inRoom (dims p : Fin 3 → ℝ) : Prop := ∀ i, p i ≤ dims i

/-- Frequency of a mode (`_room_acoustics.py`, lines 538-546). -/
noncomputable def modeFrequency (c : ℝ) (dims : Fin 3 → ℝ) (n : ℕ × ℕ × ℕ) : ℝ :=
  c / 2 * √((n.1 / dims 0) ^ 2 + (n.2.1 / dims 1) ^ 2 + (n.2.2 / dims 2) ^ 2)

/-- The triple loop, without its first pass (`_room_acoustics.py`, lines 529-549). -/
def modeOrders (maxOrder : ℕ) : List (ℕ × ℕ × ℕ) :=
  ((List.range (maxOrder + 1)).flatMap fun nx => (List.range (maxOrder + 1)).flatMap fun ny =>
    (List.range (maxOrder + 1)).map fun nz => (nx, ny, nz)).tail

open Classical in
/-- `get_room_modes` (`_room_acoustics.py`, lines 506-552); the order of modes of equal frequency
is not specified by `argsort` and taken as in the loop. -/
noncomputable def modes (maxOrder : ℕ) (c : ℝ) (dims : Fin 3 → ℝ) : List (ℝ × ℕ × ℕ × ℕ) :=
  ((modeOrders maxOrder).map fun n => (modeFrequency c dims n, n)).mergeSort
    fun a b => decide (a.1 ≤ b.1)

/-- The walls. -/
inductive Wall
  | north | south | east | west | floor | ceiling
  deriving DecidableEq

/-- All walls. -/
def Wall.all : List Wall := [.north, .south, .east, .west, .floor, .ceiling]

/-- Number of bands (`_room_acoustics.py`, lines 741-760): the largest number of coefficients of a
wall. -/
def numberOfBands (d : Wall → List ℝ) : ℕ :=
  Wall.all.foldl (fun n w => if (d w).length = 1 then n
    else if (d w).length < n then n else (d w).length) 1

/-- Coefficient of a wall in a band after trimming and padding (`_room_acoustics.py`, lines 742-768):
a single coefficient is repeated, otherwise the last one is. -/
def coefficient (d : Wall → List ℝ) (w : Wall) (b : ℕ) : ℝ :=
  if (d w).length = 1 then (d w).getD 0 0
  else (d w).getD (min b ((d w).length - 1)) 0

/-- Area of a wall (`_room_acoustics.py`, lines 785-800). -/
def wallArea (x y z : ℝ) : Wall → ℝ
  | .ceiling | .floor => x * y
  | .south | .north => x * z
  | .east | .west => y * z

/-- Equivalent absorption area of a band (`_room_acoustics.py`, lines 785-800). -/
def absorptionArea (x y z : ℝ) (d : Wall → List ℝ) (b : ℕ) : ℝ :=
  x * y * (coefficient d .ceiling b + coefficient d .floor b)
    + x * z * (coefficient d .south b + coefficient d .north b)
    + y * z * (coefficient d .east b + coefficient d .west b)

/-- Weight of a band (`_room_acoustics.py`, lines 833-834). -/
noncomputable def bandWeight (n b : ℕ) : ℝ := 2 ^ b / ∑ j ∈ range n, (2 : ℝ) ^ j

open Classical in
/-- `add_detailed_absorption` (`_room_acoustics.py`, lines 687-837): the room afterwards and the
reverberation time of each band.  The dictionary of the caller has `keys` keys. -/
noncomputable def addDetailed (x y z : ℝ) (r : RoomData) (keys : ℕ) (d : Wall → List ℝ) :
    Except Err (RoomData × (ℕ → ℝ)) :=
  if keys ≠ 6 then .error .assertionError
  else if ∃ w, d w = [] ∨ 8 < (d w).length then .error .valueError
  else if ¬ ∀ w, ∀ a ∈ d w, a < 1 ∧ 0 < a then .error .assertionError
  else
    let n := numberOfBands d
    let a := ∑ b ∈ range n, absorptionArea x y z d b / r.area * bandWeight n b
    .ok (⟨r.volume, r.area, 0.161 * r.volume / (a * r.area), a, r.schroeder, r.criticalDistance⟩,
      fun b => 0.161 * r.volume / absorptionArea x y z d b)

end Verif.Room

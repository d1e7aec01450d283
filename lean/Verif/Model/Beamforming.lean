import Verif.Model.Helpers
import Verif.Model.Distances
import Mathlib.Analysis.SpecialFunctions.Complex.Log
import Mathlib.Data.Fin.VecNotation

/-!
# Model of `dsptoolbox/beamforming`: points, arrays, steering vectors, beamformers

Exact arithmetic.  A point has three coordinates, a set of points is a list.
-/

namespace Verif.Beamforming

open Complex

abbrev Point := Fin 3 → ℝ

/-- `_euclidean_distance_matrix` (`helpers/other.py`, lines 147-153) for two points. -/
noncomputable def distance (x y : Point) : ℝ :=
  √(∑ i, x i ^ 2 + ∑ i, y i ^ 2 - 2 * ∑ i, x i * y i)

/-- The constructor of `BasePoints` (`_beamforming.py`, lines 43-54) for three one-dimensional
arrays.  `squeeze` makes arrays of one entry to scalars, the coordinates then have one axis and
`new_r.shape[1]` (line 75) raises IndexError. -/
def makePoints (x y z : List ℝ) : Except Err (List Point) :=
  if ¬ (x.length = y.length ∧ x.length = z.length) then .error .assertionError
  else if x.length = 1 then .error .indexError
  else .ok ((List.range x.length).map fun i => ![x.getD i 0, y.getD i 0, z.getD i 0])

/-- `np.mean(self.coordinates, axis=0)` -/
noncomputable def centroid (mics : List Point) : Point :=
  fun i => (mics.map fun p => p i).sum / mics.length

/-- `__compute_array_center` (`beamforming.py`, lines 517-543): the index. -/
noncomputable def centerIndex (mics : List Point) : Except Err ℕ :=
  Helpers.argmin (mics.map fun p => distance p (centroid mics))

/-- `array_center_coordinates`; empty arrays raise ValueError. -/
noncomputable def center (mics : List Point) : Point :=
  match centerIndex mics with
  | .ok i => mics.getD i 0
  | .error _ => 0

/-- `find_nearest_point` (`_beamforming.py`, lines 174-201). -/
noncomputable def findNearestPoint (points : List Point) (p : Point) : Except Err (ℕ × Point) :=
  match Helpers.argmin (points.map fun q => distance q p) with
  | .error e => .error e
  | .ok i => .ok (i, points.getD i 0)

/-- The exponential of the steering vectors for a wave number, a grid point and a microphone. -/
noncomputable def phase (k : ℝ) (mics : List Point) (t : Point) (i : ℕ) : ℂ :=
  exp (-I * k * ((distance t (mics.getD i 0) - distance t (center mics) : ℝ) : ℂ))

/-- `rtj` of `true_power_steering` (`beamforming.py`, line 1645). -/
noncomputable def inverseSquares (mics : List Point) (t : Point) : ℝ :=
  ∑ i ∈ Finset.range mics.length, 1 / distance (mics.getD i 0) t ^ 2

/-- `SteeringVectorType` (`beamforming/enums.py`). -/
inductive Formulation where
  | classic | inverse | truePower | trueLocation
deriving DecidableEq

/-- The magnitude of the entry of the microphone `i`: `classic_steering` (`beamforming.py`, lines
1544-1558), `inverse_steering` (lines 1590-1605), `true_power_steering` (lines 1638-1654),
`true_location_steering` (lines 1686-1703). -/
noncomputable def magnitude (f : Formulation) (mics : List Point) (t : Point) (i : ℕ) : ℝ :=
  let N : ℝ := mics.length
  let r0 := distance t (center mics)
  let ri := distance t (mics.getD i 0)
  match f with
  | .classic => 1 / N
  | .inverse => ri / N / r0
  | .truePower => 1 / r0 / ri / inverseSquares mics t
  | .trueLocation => 1 / ri / √(N * inverseSquares mics t)

/-- The entry of the steering vector for the wave number `k`, the grid point `t` and the
microphone `i` (`SteeringVector.get_vector`, `beamforming.py`, lines 634-648). -/
noncomputable def steering (f : Formulation) (k : ℝ) (mics : List Point) (t : Point) (i : ℕ) : ℂ :=
  magnitude f mics t i * phase k mics t i

/-- `np.linalg.multi_dot([h_H, csm, h]).real` -/
noncomputable def form (n : ℕ) (h : ℕ → ℂ) (C : ℕ → ℕ → ℂ) : ℝ :=
  (∑ r ∈ Finset.range n, ∑ c ∈ Finset.range n, (starRingEnd ℂ) (h r) * C r c * h c).re

/-- Removal of the diagonal in `BeamformerDASFrequency` (`beamforming.py`, lines 841-845). -/
noncomputable def withoutDiagonal (n : ℕ) (C : ℕ → ℕ → ℂ) (r c : ℕ) : ℂ :=
  if r = c then 0 else C r c * ((n / (n - 1) : ℝ) : ℂ)

/-- One entry of the map of `BeamformerDASFrequency` for one frequency (`beamforming.py`, lines
841-845 and 862-872). -/
noncomputable def das (n : ℕ) (remove : Bool) (C : ℕ → ℕ → ℂ) (h : ℕ → ℂ) : ℝ :=
  if remove then
    let v := form n h (withoutDiagonal n C)
    if v < 0 then 0 else v
  else form n h C

/-- `_get_fractional_octave_bandwidth` (`helpers/other.py`, lines 156-178). -/
noncomputable def octaveBand (fc : ℝ) (fraction : ℕ) : List ℝ :=
  if fraction = 0 then [fc, fc]
  else [fc * (2 : ℝ) ^ (-1 / (fraction : ℝ) / 2), fc * (2 : ℝ) ^ (1 / (fraction : ℝ) / 2)]

/-- The first and last (exclusive) bin of a band (`beamforming.py`, lines 848-853). -/
noncomputable def bins (f : List ℝ) (fc : ℝ) (fraction : ℕ) : Except Err (ℕ × ℕ) :=
  match Helpers.findNearest (octaveBand fc fraction) f with
  | .error e => .error e
  | .ok ids =>
    let id1 := ids.getD 0 0
    let id2 := ids.getD 1 0
    .ok (id1, if id1 = id2 then id2 + 1 else id2)

/-- The integration over the frequencies (`beamforming.py`, lines 874-878) of the values of `n`
bins. -/
noncomputable def integrate (n : ℕ) (df : ℝ) (v : ℕ → ℝ) : ℝ :=
  if n > 1 then Distances.simpson n df v else v 0

/-- The map of `BeamformerDASFrequency.get_beamformer_map` (`beamforming.py`, lines 800-880) for the
grid point `t`: `f` is the frequency vector, `C` the cross-spectral matrices. -/
noncomputable def dasMap (form : Formulation) (mics : List Point) (c : ℝ) (f : List ℝ)
    (C : ℕ → ℕ → ℕ → ℂ) (fc : ℝ) (fraction : ℕ) (remove : Bool) (t : Point) : Except Err ℝ :=
  match bins f fc fraction with
  | .error e => .error e
  | .ok (id1, id2) =>
    .ok (integrate (id2 - id1) (f.getD (id1 + 1) 0 - f.getD id1 0) fun j =>
      das mics.length remove (C (id1 + j))
        (steering form (f.getD (id1 + j) 0 * Real.pi * 2 / c) mics t))

end Verif.Beamforming

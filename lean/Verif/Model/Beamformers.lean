import Verif.Model.Beamforming

/-!
# Model of the other gridded beamformers of `dsptoolbox/beamforming/beamforming.py`

For one frequency; the choice of the bins and the integration are those of `Beamforming.dasMap`.
The decompositions of `numpy.linalg` are relations: the theorems hold for every result that has the
documented properties.
-/

namespace Verif.Beamforming

open Complex Finset

/-- The columns (and rows) of the first `n` are orthonormal. -/
def IsUnitary (n : ℕ) (u : ℕ → ℕ → ℂ) : Prop :=
  (∀ i < n, ∀ j < n, ∑ r ∈ range n, (starRingEnd ℂ) (u r i) * u r j = if i = j then 1 else 0) ∧
    ∀ i < n, ∀ j < n, ∑ r ∈ range n, u i r * (starRingEnd ℂ) (u j r) = if i = j then 1 else 0

/-- `u, s, vh = np.linalg.svd(C)`; the columns of `v` are the conjugated rows of `vh`. -/
structure IsSVD (n : ℕ) (C u : ℕ → ℕ → ℂ) (s : ℕ → ℝ) (v : ℕ → ℕ → ℂ) : Prop where
  eq : ∀ r < n, ∀ c < n, C r c = ∑ j ∈ range n, u r j * s j * (starRingEnd ℂ) (v c j)
  nonneg : ∀ j < n, 0 ≤ s j
  left : IsUnitary n u
  right : IsUnitary n v

/-- `csm_` of `BeamformerFunctional` (`beamforming.py`, lines 1201-1204). -/
noncomputable def functionalMatrix (n : ℕ) (γ : ℝ) (u : ℕ → ℕ → ℂ) (s : ℕ → ℝ) (v : ℕ → ℕ → ℂ)
    (r c : ℕ) : ℂ :=
  ∑ j ∈ range n, u r j * ((s j ^ (1 / γ) : ℝ) : ℂ) * (starRingEnd ℂ) (v c j)

/-- One entry of the map of `BeamformerFunctional` (`beamforming.py`, lines 1206-1212) for the new
matrix `C`. -/
noncomputable def functional (n : ℕ) (γ : ℝ) (C : ℕ → ℕ → ℂ) (h : ℕ → ℂ) : ℝ :=
  let normalization := (∑ i ∈ range n, (starRingEnd ℂ) (h i) * h i).re
  (form n h C / normalization) ^ γ * normalization

/-- `D = np.linalg.inv(C)` -/
def IsInverse (n : ℕ) (C D : ℕ → ℕ → ℂ) : Prop :=
  (∀ r < n, ∀ c < n, ∑ j ∈ range n, C r j * D j c = if r = c then 1 else 0) ∧
    ∀ r < n, ∀ c < n, ∑ j ∈ range n, D r j * C j c = if r = c then 1 else 0

/-- One entry of the map of `BeamformerMVDR` (`beamforming.py`, lines 1298-1306) for the inverse `D`
of the matrix. -/
noncomputable def mvdr (n : ℕ) (D : ℕ → ℕ → ℂ) (h : ℕ → ℂ) : ℝ := 1 / form n h D

/-- `w, v = np.linalg.eigh(C)`: ascending eigenvalues, orthonormal eigenvectors as columns. -/
structure IsEigh (n : ℕ) (C : ℕ → ℕ → ℂ) (w : ℕ → ℝ) (v : ℕ → ℕ → ℂ) : Prop where
  eq : ∀ r < n, ∀ j < n, ∑ c ∈ range n, C r c * v c j = w j * v r j
  ascending : ∀ i j, i ≤ j → j < n → w i ≤ w j
  unitary : IsUnitary n v

/-- `np.argmax`: the first of the largest entries. -/
noncomputable def argmax (l : List ℝ) : Except Err ℕ := Helpers.argmin (l.map fun a => -a)

/-- `eig_map[eig, gind, find]` (`beamforming.py`, lines 1111-1112) for the eigenvector `v`. -/
noncomputable def eigValue (n : ℕ) (v h : ℕ → ℂ) : ℝ :=
  normSq (∑ i ∈ range n, (starRingEnd ℂ) (h i) * v i)

/-- The map of `BeamformerOrthogonal` (`beamforming.py`, lines 1105-1116): `h` are the steering
vectors of the grid points, `K` is the number of eigenvalues. -/
noncomputable def orthogonal (n K : ℕ) (w : ℕ → ℝ) (v : ℕ → ℕ → ℂ) (h : List (ℕ → ℂ)) :
    Except Err (List ℝ) :=
  (List.range K).foldlM (fun map e =>
    let eig := h.map (eigValue n fun i => v i (n - 1 - e))
    match argmax eig with
    | .error err => .error err
    | .ok g => .ok (map.set g (eig.getD g 0 * w (n - 1 - e)))) (List.replicate h.length 0)

/-- `np.linalg.norm(D, ord=1)`: the largest sum of the absolute values of a column. -/
noncomputable def norm1 (n : ℕ) (D : ℕ → ℕ → ℂ) : ℝ :=
  ((List.range n).map fun c => ∑ r ∈ range n, ‖D r c‖).foldr max 0

/-- One iteration for the vector `h_` in `_clean_sc_deconvolve` (`_beamforming.py`, lines 278-279).
The argument of the complex square root is real and positive. -/
noncomputable def cleanVector (n : ℕ) (d w h : ℕ → ℂ) (i : ℕ) : ℂ :=
  (d i + (starRingEnd ℂ) (h i) * h i * w i) /
    ((√(1 + ∑ j ∈ range n, ‖h j‖ ^ 2 * ‖w j‖ ^ 2) : ℝ) : ℂ)

/-- The variables of the loop: `map`, `second_map`, `D[0]`, `D[1]`. -/
structure CleanState where
  map : List ℝ
  second : List ℝ
  last : ℕ → ℕ → ℂ
  D : ℕ → ℕ → ℂ

/-- `G` (`_beamforming.py`, lines 267-284) for the point with the steering vector `w` and the
maximum `P`, which is not zero. -/
noncomputable def cleanG (n : ℕ) (remove : Bool) (D : ℕ → ℕ → ℂ) (w : ℕ → ℂ) (P : ℝ) (r c : ℕ) : ℂ :=
  let d : ℕ → ℂ := fun i => (∑ j ∈ range n, D i j * w j) / P
  let h := (cleanVector n d w)^[20] w
  if remove = true ∧ r = c then 0 else h r * (starRingEnd ℂ) (h c) * P

/-- The loop of `_clean_sc_deconvolve` (`_beamforming.py`, lines 249-295). -/
noncomputable def cleanLoop (n : ℕ) (remove : Bool) (safety : ℝ) (h : List (ℕ → ℂ)) :
    ℕ → CleanState → Except Err (List ℝ)
  | 0, st => .ok st.second
  | k + 1, st =>
    match argmax st.map with
    | .error e => .error e
    | .ok g =>
      let P := st.map.getD g 0
      let second := st.second.set g (st.second.getD g 0 + P * safety)
      if norm1 n st.last ≤ norm1 n st.D then .ok second
      else
        let G := cleanG n remove st.D (h.getD g 0) P
        cleanLoop n remove safety h k
          { map := List.zipWith (fun a v => a - form n v G * safety) st.map h
            second := second
            last := st.D
            D := fun r c => st.D r c - safety * G r c }

/-- The map of `BeamformerCleanSC` for one frequency (`beamforming.py`, lines 939-999; the
deconvolution in `_beamforming.py`, lines 238-297). -/
noncomputable def cleanSC (n : ℕ) (remove : Bool) (safety : ℝ) (iterations : Option ℕ)
    (C : ℕ → ℕ → ℂ) (h : List (ℕ → ℂ)) : Except Err (List ℝ) :=
  if iterations = some 0 then .error .assertionError
  else if ¬ (0 < safety ∧ safety ≤ 1) then .error .assertionError
  else
    let D : ℕ → ℕ → ℂ := fun r c => if remove = true ∧ r = c then 0 else C r c
    cleanLoop n remove safety h (iterations.getD (n * 2))
      { map := h.map fun v => form n v D
        second := List.replicate h.length 0
        last := fun r c => D r c * 2
        D := D }

end Verif.Beamforming

import Verif.Model.Room
import Mathlib.Analysis.SpecialFunctions.Trigonometric.Basic
import Mathlib.Data.Fin.VecNotation
import Mathlib.Algebra.Order.Floor.Semiring

/-!
# Model of the image source method (`room_acoustics/_room_acoustics.py`, lines 162-269)

Exact reals.  An image at distance 0 gives `inf` in the code and 0 here; this only happens if source
and receiver are the same point, and the theorems exclude it.
-/

namespace Verif.Room

open Finset

/-- Geometry, reflection factors of the walls at 0 (`b1`) and opposite (`b2`), sampling rate. -/
structure Setup where
  dims : Fin 3 → ℝ
  s : Fin 3 → ℝ
  r : Fin 3 → ℝ
  b1 : Fin 3 → ℝ
  b2 : Fin 3 → ℝ
  sr : ℝ

/-- Reflection factors (`_room_acoustics.py`, lines 196-205). -/
noncomputable def reflection (alpha : List ℝ) : Except Err ((Fin 3 → ℝ) × (Fin 3 → ℝ)) :=
  let beta := fun i => √(1 - alpha.getD i 0)
  if alpha.length = 1 then .ok (fun _ => beta 0, fun _ => beta 0)
  else if alpha.length = 6 then .ok (![beta 1, beta 3, beta 4], ![beta 0, beta 2, beta 5])
  else .error .valueError

/-- Maximum order (`_room_acoustics.py`, lines 208-214). -/
noncomputable def limit (rt : ℝ) (dims : Fin 3 → ℝ) (mo : Option ℕ) : ℕ :=
  let est := ⌈√(∑ i, (343 * (rt * 1.1) / 2 / dims i) ^ 2)⌉₊
  match mo with
  | none => est
  | some m => if est < m then est else m

/-- Length of the response (`_room_acoustics.py`, line 217). -/
noncomputable def rirLength (rt sr : ℝ) : ℕ := ⌊rt * 1.1 * 5 * sr⌋₊

/-- The eight mirror patterns (`_room_acoustics.py`, lines 223-234). -/
def uVectors : List (Fin 3 → ℤ) :=
  [![0, 0, 0], ![0, 0, 1], ![0, 1, 0], ![1, 0, 0], ![0, 1, 1], ![1, 0, 1], ![1, 1, 0], ![1, 1, 1]]

/-- `get_distance` for one pattern (`_room_acoustics.py`, lines 236-252; the helper matrix adds the
three squares of each pattern). -/
noncomputable def Setup.distance (S : Setup) (l u : Fin 3 → ℤ) : ℝ :=
  √(∑ i, ((1 - 2 * u i) * S.s i + 2 * l i * S.dims i - S.r i) ^ 2)

/-- `get_damping` for one pattern (`_room_acoustics.py`, lines 254-257). -/
def Setup.damping (S : Setup) (l u : Fin 3 → ℤ) : ℝ :=
  (∏ i, S.b1 i ^ (l i - u i).natAbs) * ∏ i, S.b2 i ^ (l i).natAbs

/-- `seconds2samples(ds / c)` (`_room_acoustics.py`, lines 219-220). -/
noncomputable def Setup.index (S : Setup) (l u : Fin 3 → ℤ) : ℕ :=
  ⌊S.distance l u / 343 * S.sr + 0.5⌋₊

/-- Amplitude of an image (`_room_acoustics.py`, line 268). -/
noncomputable def Setup.amplitude (S : Setup) (l u : Fin 3 → ℤ) : ℝ :=
  S.damping l u / (4 * Real.pi * S.distance l u)

/-- NumPy's `x[idx] += vals`: all old values are read first, then written in turn. -/
noncomputable def fancyAdd (x : List ℝ) (iv : List (ℕ × ℝ)) : Except Err (List ℝ) :=
  if ∀ p ∈ iv, p.1 < x.length then
    .ok (iv.foldl (fun y p => y.set p.1 (x.getD p.1 0 + p.2)) x)
  else .error .indexError

/-- The three loops (`_room_acoustics.py`, lines 261-265). -/
def orders (L : ℕ) : List (Fin 3 → ℤ) :=
  (List.range (2 * L + 1)).flatMap fun i : ℕ => (List.range (2 * L + 1)).flatMap fun j : ℕ =>
    (List.range (2 * L + 1)).map fun k : ℕ => ![(i : ℤ) - L, (j : ℤ) - L, (k : ℤ) - L]

/-- `_generate_rir` for given order, length and reflection factors (`_room_acoustics.py`, lines
259-269). -/
noncomputable def generate (S : Setup) (L len : ℕ) : Except Err (List ℝ) :=
  (orders L).foldlM (fun x l => fancyAdd x (uVectors.map fun u => (S.index l u, S.amplitude l u)))
    (List.replicate len 0)

/-- `_generate_rir` (`_room_acoustics.py`, lines 162-269). -/
noncomputable def generateRir (dims : Fin 3 → ℝ) (alpha : List ℝ) (s r : Fin 3 → ℝ) (rt : ℝ)
    (mo : Option ℕ) (sr : ℝ) : Except Err (List ℝ) := do
  let b ← reflection alpha
  generate ⟨dims, s, r, b.1, b.2, sr⟩ (limit rt dims mo) (rirLength rt sr)

/-- Wave number of a mode along one axis (`_room_acoustics.py`, lines 641-647). -/
noncomputable def waveNumber (dims : Fin 3 → ℝ) (n : Fin 3 → ℕ) (i : Fin 3) : ℝ :=
  n i / dims i * Real.pi

/-- Contribution of one mode (`_room_acoustics.py`, lines 648-668); `eta` gives the damping from the
frequency of the mode, `cn` is 4, 2 or 1 for axial, tangential and oblique modes. -/
noncomputable def modeTerm (dims s r : Fin 3 → ℝ) (c : ℝ) (eta : ℝ → ℝ) (f : ℝ) (n : Fin 3 → ℕ) : ℂ :=
  let ks := waveNumber dims n
  let omegaN := c * √(∑ i, ks i ^ 2)
  let e := eta (omegaN / 2 / Real.pi)
  let cn : ℝ := if (univ.filter fun i => n i ≠ 0).card = 1 then 4
    else if (univ.filter fun i => n i ≠ 0).card = 2 then 2 else 1
  ((∏ i, (Real.cos (ks i * s i) * Real.cos (ks i * r i)) : ℝ) : ℂ) /
    (cn * (omegaN ^ 2 + 2 * Complex.I * e * omegaN - (2 * Real.pi * f) ^ 2))

/-- `get_analytical_transfer_function` at one frequency, without the plot (`_room_acoustics.py`, lines
554-685; the positions were checked to be in the room). -/
noncomputable def transferFunction (dims s r : Fin 3 → ℝ) (c : ℝ) (eta : ℝ → ℝ) (maxOrder : ℕ)
    (f : ℝ) : ℂ :=
  (((modeOrders maxOrder).map fun n => modeTerm dims s r c eta f ![n.1, n.2.1, n.2.2]).sum) *
    ((8 * c ^ 2 / ∏ i, dims i : ℝ) : ℂ)

end Verif.Room

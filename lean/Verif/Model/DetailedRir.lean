import Verif.Model.ReverbTail

/-!
# Synthetic room impulse responses with detailed absorption

`room_acoustics/room_acoustics.py: generate_synthetic_rir` (lines 300-447) with `use_detailed_absorption=True` and
without the band-pass.  Exact arithmetic.  The bands of the crossover with zero phase (lines 398-403 and 423) are an
argument that keeps the length.
-/

namespace Verif.ReverbTail

open Verif.Room Verif.SignalData

/-- The loop of lines 409-424: `columns` are the remaining columns of the absorption matrix, `ind` is the number of
the first one, `rir` the accumulator.  `gen` is `_generate_rir` for a column, `n` the total length. -/
def accumulate (gen : List ℝ → Except Err (List ℝ)) (band : ℕ → List ℝ → List ℝ) (n : ℕ) :
    List (List ℝ) → ℕ → List ℝ → Except Err (List ℝ)
  | [], _, rir => .ok rir
  | alphas :: rest, ind, rir =>
    match gen alphas with
    | .error e => .error e
    | .ok h => accumulate gen band n rest (ind + 1) (List.zipWith (· + ·) rir (band ind (padTrim h n true)))

open Classical in
/-- `generate_synthetic_rir` with detailed absorption (lines 365-377, 393-439): `columns` is the absorption matrix of
the room, which may have none.  Length, tail and state of the room as in `generateSynthetic`. -/
noncomputable def generateDetailed (r : RoomState) (columns : Option (List (List ℝ))) (band : ℕ → List ℝ → List ℝ)
    (s p : Fin 3 → ℝ) (sr length : ℝ) (tail : Bool) (mo : Option ℕ) (g : ℕ → ℝ) :
    Except Err (List (Option ℝ)) × RoomState :=
  if ¬ inRoom r.dims s then (.error .assertionError, r)
  else if ¬ inRoom r.dims p then (.error .assertionError, r)
  else
    match columns with
    | none => (.error .assertionError, r)
    | some columns =>
      let n := ⌊length * sr⌋₊
      match accumulate (fun a => generateRir r.dims a s p r.t60 mo sr) band n columns 0 (List.replicate n 0) with
      | .error e => (.error e, r)
      | .ok x =>
        if tail then
          match r.mixing with
          | some t => (addTail x t r.t60 sr g, r)
          | none =>
            match getMixingTime r .physical 1000 343 with
            | (.error e, r') => (.error e, r')
            | (.ok t, r') => (addTail x t r'.t60 sr g, r')
        else (.ok (x.map some), r)

end Verif.ReverbTail

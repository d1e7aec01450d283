import Verif.Model.Merge
import Verif.Model.Biquad
import Verif.Model.Framing
import Verif.Model.Level

/-!
# Model of the integrated loudness

`standard/gain_and_level.py: lufs_integrated` (lines 203-281).  Exact arithmetic; the level of
silence (`-inf`) is `⊥` and `nan` is `none`.  The lengths `int(0.4 * fs + 0.5)` and
`int(0.25 * n + 0.5)` are computed exactly.
-/

namespace Verif.Loudness

open Verif.SignalData Verif.Bank Verif.Biquad Verif.Framing Verif.Level

/-- `Filter.biquad` (`classes/filter.py`, lines 176-187). -/
noncomputable def biquadFilter (t : EqType) (f gain q : ℝ) (fs : ℕ) : FilterObj ℝ :=
  let c := biquad t fs f gain q
  ⟨fs, .ba [c.b0, c.b1, c.b2] [c.a0, c.a1, c.a2]⟩

/-- `k_filter` (`gain_and_level.py`, lines 234-253).  `tf2sos` is external. -/
noncomputable def kFilter (tf2sos : List ℝ → List ℝ → List (List ℝ × List ℝ)) (fs : ℕ) :
    Except Err (FilterObj ℝ) :=
  mergeFilters tf2sos
    [biquadFilter .highshelf 1500 4 (2 ^ (0.5 : ℝ) / 2) fs, biquadFilter .highpass 38.1 0 0.5 fs]

/-- `Tg_samples` (`gain_and_level.py`, lines 254, 256). -/
def blockLength (fs : ℕ) : ℕ := (4 * fs + 5) / 10

/-- `step` (`gain_and_level.py`, lines 257-258). -/
def stepLength (fs : ℕ) : ℕ := (blockLength fs + 2) / 4

/-- `G` (`gain_and_level.py`, line 255). -/
noncomputable def channelWeights (cols : ℕ) : List ℝ := [1, 1, 1, 1.41, 1.41].take cols

/-- One channel of `z_ji` (`gain_and_level.py`, lines 269-272). -/
noncomputable def blockMeans (x : List ℝ) (W step : ℕ) : Except Err (List ℝ) :=
  (framed (x.map (· ^ 2)) W step false).map fun fr => fr.map fun f => f.sum / W

/-- `z_ji` (`gain_and_level.py`, lines 269-272): for every block the means of the channels. -/
noncomputable def blocks (A : Mat ℝ) (W step : ℕ) : Except Err (List (List ℝ)) :=
  match (List.range A.cols).mapM fun c => blockMeans (colOf A c) W step with
  | .error e => .error e
  | .ok chans =>
    .ok ((List.range (chans.getD 0 []).length).map fun (j : ℕ) => chans.map fun l => l.getD j 0)

/-- `gated_loudness` of one row (`gain_and_level.py`, lines 274-275). -/
noncomputable def gatedLoudness (G z : List ℝ) : WithBot ℝ :=
  (logDb 10 (List.zipWith (· * ·) z G).sum).map (-0.691 + ·)

/-- `np.mean(z, axis=0)` of rows with `cols` entries; `nan` without rows. -/
noncomputable def meanRows (cols : ℕ) (zs : List (List ℝ)) : Option (List ℝ) :=
  if zs = [] then none
  else some ((List.range cols).map fun (c : ℕ) => (zs.map fun z => z.getD c 0).sum / zs.length)

/-- `z_ji[l_j > bound, :]` (`gain_and_level.py`, lines 278-279); nothing is greater than `nan`. -/
noncomputable def above (G : List ℝ) (bound : Option (WithBot ℝ)) (zs : List (List ℝ)) :
    List (List ℝ) :=
  open Classical in
  match bound with
  | none => []
  | some b => zs.filter fun z => b < gatedLoudness G z

/-- `gamma_r` (`gain_and_level.py`, line 278). -/
noncomputable def relativeGate (cols : ℕ) (G : List ℝ) (zs : List (List ℝ)) : Option (WithBot ℝ) :=
  (meanRows cols (above G (some ((-70 : ℝ) : WithBot ℝ)) zs)).map fun m =>
    (gatedLoudness G m).map (· - 10)

/-- The number returned (`gain_and_level.py`, lines 277-279).  `max(nan, -70)` is `nan`. -/
noncomputable def integrate (cols : ℕ) (G : List ℝ) (zs : List (List ℝ)) : Option (WithBot ℝ) :=
  (meanRows cols (above G ((relativeGate cols G zs).map fun g => max g ((-70 : ℝ) : WithBot ℝ))
    zs)).map fun m => gatedLoudness G m

/-- `lufs_integrated` (`gain_and_level.py`, lines 230-279): what is returned and the signal of the
caller afterwards.  The imaginary part of a filtered complex signal is not used. -/
noncomputable def lufsIntegrated (tf2sos : List ℝ → List ℝ → List (List ℝ × List ℝ))
    (s : State ℝ) (fs : ℕ) : Except Err (Option (WithBot ℝ)) × State ℝ :=
  if ¬ s.re.cols ≤ 5 then (.error .assertionError, s)
  else
    match kFilter tf2sos fs with
    | .error e => (.error e, s)
    | .ok k =>
      let s1 := (setConstrain s false).2
      match filterSignal k.filt s1 with
      | .error e => (.error e, s1)
      | .ok p =>
        match setConstrain s1 s.constrain with
        | (some e, s2) => (.error e, s2)
        | (none, s2) =>
          (match blocks p.re (blockLength fs) (stepLength fs) with
            | .error e => .error e
            | .ok z => .ok (integrate s.re.cols (channelWeights s.re.cols) z), s2)

end Verif.Loudness

import Verif.Model.FilterBank
import Verif.Model.Level

/-!
# Model of `apply_gain` (`standard/gain_and_level.py`, lines 284-359)

The gains are the linear ones, `from_db` of those in dB (see `Level.fromDb`).  A `Filter` gets a
single gain.
-/

namespace Verif.Gain

open Verif.SignalData Verif.Bank

variable {K : Type} [Field K] [LinearOrder K]

/-- `target.time_data * gain_linear` with the broadcasting of numpy: one gain for all, one gain
per channel, or (a signal with one channel) one new channel per gain. -/
def scaleData (A : Mat K) (g : List K) : Except Err (Input K) :=
  if g.length = 1 then .ok ⟨A.rows, A.cols, fun r c => A.val r c * g.getD 0 0, none⟩
  else if g.length = A.cols then .ok ⟨A.rows, A.cols, fun r c => A.val r c * g.getD c 0, none⟩
  else if A.cols = 1 then .ok ⟨A.rows, g.length, fun r c => A.val r 0 * g.getD c 0, none⟩
  else .error .valueError

/-- `apply_gain` of a `Signal` (lines 322-329).  The new signal is built from the real part; it is
not complex, so that the lines for the imaginary part are never entered. -/
def gainSignal (s : State K) (g : List K) : Except Err (State K) :=
  match scaleData s.re g with
  | .error e => .error e
  | .ok x => copyWith s x

/-- `apply_gain` of a `MultiBandSignal` (lines 330-334). -/
def gainMultiband (bands : List (State K)) (g : List K) : Except Err (List (State K)) :=
  bands.mapM fun s => gainSignal s g

/-- `sos[-1, :3] *= gain` -/
def scaleLast (g : K) : List (List K × List K) → Except Err (List (List K × List K))
  | [] => .error .indexError
  | [s] => .ok [(s.1.map (· * g), s.2)]
  | s :: t :: rest =>
    match scaleLast g (t :: rest) with
    | .error e => .error e
    | .ok l => .ok (s :: l)

/-- `apply_gain` of a `Filter` (lines 335-346) without stored zeros and poles. -/
def gainFilter (F : Filt K) (g : K) : Except Err (Filt K) :=
  match F with
  | .fir b => .ok (.fir (b.map (· * g)))
  | .ba b a => .ok (.ba (b.map (· * g)) a)
  | .sos secs => (scaleLast g secs).map .sos

/-- `apply_gain` of a `FilterBank` (lines 347-357). -/
def gainBank (Fs : List (Filt K)) (g : List K) : Except Err (List (Filt K)) :=
  if g.length ≠ 1 ∧ g.length ≠ Fs.length then .error .assertionError
  else
    let gs := if g.length = 1 then List.replicate Fs.length (g.getD 0 0) else g
    (Fs.zip gs).mapM fun p => gainFilter p.1 p.2

/-- Gains in dB to linear gains (amplitude). -/
noncomputable def linear (g : List ℝ) : List ℝ := g.map fun x => Level.fromDb x true

end Verif.Gain

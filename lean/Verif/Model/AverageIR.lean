import Verif.Model.FractionalDelay
import Verif.Model.Collapse
import Verif.Model.Helpers

/-!
# Model of averages of impulse responses and of their combination with impulses

`transfer_functions/transfer_functions.py: average_irs, combine_ir_with_dirac`.  Exact arithmetic;
real impulse responses.  The latencies that `_get_fractional_impulse_peak_index` finds are an input.
-/

namespace Verif.AverageIR

open Verif.SignalData Verif.FractionalDelay Verif.Collapse

/-- `np.sum(signal.time_data**2, axis=0)` (line 578) of channel `c`. -/
noncomputable def energy (s : State ℝ) (c : ℕ) : ℝ := ∑ r ∈ Finset.range s.re.rows, s.re.val r c ^ 2

/-- The copy with the "normalized" channels (lines 575-580): `avg_sig.time_data *= energies` changes the
array and then runs the setter.  If the first channel is silent, all entries are divided by 0: the model
refuses this case (NaN in the code). -/
noncomputable def normalized (s : State ℝ) (normalizeEnergy : Bool) : Except Err (State ℝ) :=
  if normalizeEnergy = true then
    if energy s 0 = 0 then .error .zeroDivision
    else setData s ⟨s.re.rows, s.re.cols, fun r c => s.re.val r c * (energy s c / energy s 0), none⟩
  else .ok s

/-- The loop over the channels (lines 599-609): every channel except for `follow` is replaced by the
delayed channel **of the given signal**. -/
noncomputable def alignLoop (s : State ℝ) (fs : ℕ) (lat : ℕ → ℝ) (follow : ℕ) :
    List ℕ → (ℕ → List ℝ) → Except Err (ℕ → List ℝ)
  | [], cols => .ok cols
  | i :: rest, cols =>
    if follow = i then alignLoop s fs lat follow rest cols
    else
      match getChannels s [(i : ℤ)] with
      | .error e => .error e
      | .ok one =>
        match fractionalDelay one fs ((lat follow - lat i) / fs) none true 30 60 with
        | .error e => .error e
        | .ok d => alignLoop s fs lat follow rest (Function.update cols i (colOf d.re 0))

/-- `average_irs` (lines 571-612) for given latencies (`time_average=True`) of all channels. -/
noncomputable def averageTime (s : State ℝ) (fs : ℕ) (normalizeEnergy : Bool) (lat : ℕ → ℝ) :
    Except Err (State ℝ) :=
  if s.re.cols ≤ 1 then .error .assertionError
  else
    match normalized s normalizeEnergy with
    | .error e => .error e
    | .ok avg =>
      match Helpers.argmin ((List.range s.re.cols).map fun c => -lat c) with
      | .error e => .error e
      | .ok follow =>
        match alignLoop s fs lat follow (List.range s.re.cols) (colOf avg.re) with
        | .error e => .error e
        | .ok cols =>
          setData avg ⟨s.re.rows, 1,
            fun r _ => (∑ c ∈ Finset.range s.re.cols, (cols c).getD r 0) / s.re.cols, none⟩

/-- `average_irs` (lines 571-612) with `time_average=False`; `spectral` stands for the average of
magnitudes and unwrapped phases and the inverse transform (lines 582-595), which take their data from
`signal`. -/
noncomputable def averageSpectral (spectral : Mat ℝ → ℕ → ℝ) (s : State ℝ) (normalizeEnergy : Bool) :
    Except Err (State ℝ) :=
  if s.re.cols ≤ 1 then .error .assertionError
  else
    match normalized s normalizeEnergy with
    | .error e => .error e
    | .ok avg => setData avg ⟨s.re.rows, 1, fun r _ => spectral s.re r, none⟩

/-- `dirac(length, delay_samples=0, number_of_channels=1)` (`generators.py`, lines 310-314). -/
noncomputable def dirac (n : ℕ) : Except Err (State ℝ) :=
  construct ⟨n, 1, fun r _ => if r = 0 then 1 else 0, none⟩ true

/-- The loop that makes the impulses of `combine_ir_with_dirac` (lines 1154-1157).  `imp` grows by one
channel in each pass, and `imp.get_channels(ch)` is its channel `ch`. -/
noncomputable def diracLoop (fs : ℕ) (lat : ℕ → ℝ) : List ℕ → State ℝ → Except Err (State ℝ)
  | [], imp => .ok imp
  | ch :: rest, imp =>
    match getChannels imp [(ch : ℤ)] with
    | .error e => .error e
    | .ok one =>
      match fractionalDelay one fs (lat ch / fs) none true 30 60 with
      | .error e => .error e
      | .ok d =>
        match appendSignals [(imp, fs), (d, fs)] true true with
        | .error e => .error e
        | .ok imp' => diracLoop fs lat rest imp'.1

/-- The impulses that `combine_ir_with_dirac` combines with an impulse response of `n` samples and
`channels` channels (lines 1143-1162). -/
noncomputable def diracs (n channels fs : ℕ) (lat : ℕ → ℝ) : Except Err (State ℝ) :=
  match dirac n with
  | .error e => .error e
  | .ok imp =>
    match diracLoop fs lat (List.range channels) imp with
    | .error e => .error e
    | .ok all =>
      match removeChannel all 0 with
      | (none, imp') => .ok imp'
      | (some e, _) => .error e

end Verif.AverageIR

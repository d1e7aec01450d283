import Verif.Spec.Realtime
import Verif.Model.Latency
import Mathlib.Analysis.SpecialFunctions.Log.Base

/-!
# Model of the trimming of impulse responses

`transfer_functions/_transfer_functions.py: _trim_ir, __find_index_above_noise_floor`,
`transfer_functions/transfer_functions.py: trim_ir`. Exact arithmetic. The smoothed energy time curve
(`hilbert`, `to_db`, `time_smoothing`) is a parameter: a function of the samples from the peak on, whose length
is at least the number of these samples (`next_fast_len`).
-/

namespace Verif.TrimIR

/-- `np.mean(env[a : a + w])` -/
noncomputable def meanAt (env : List ℝ) (a w : ℕ) : ℝ := (∑ i ∈ Finset.range w, env.getD (a + i) 0) / w

/-- `window_lengths` (`_transfer_functions.py`, line 327) for the length in milliseconds. -/
noncomputable def windowLength (fs ms : ℕ) : ℕ := ⌊(ms : ℝ) * (1 / 1000) * fs + 1 / 2⌋₊

/-- Loop over the windows (`_transfer_functions.py`, lines 332-344): the number of windows passed, for the
mean values `m` of the windows, the number of passes left, the windows passed and the last mean value. -/
noncomputable def scan (m : ℕ → ℝ) : ℕ → ℕ → ℝ → ℕ
  | 0, k, _ => k
  | left + 1, k, cur => if cur ≤ m k then k else scan m left (k + 1) (m k)

/-- `end_with_current_window` (`_transfer_functions.py`, lines 332-349). -/
noncomputable def endOf (env : List ℝ) (w : ℕ) : ℕ :=
  let start := scan (fun k => meanAt env (k * w) w) (env.length / w) 0 0 * w
  min ((start * 2 + w) / 2) env.length

/-- Sums of the regression over the first `n` values: of the squares of the centred indices, the products and
the squares of the centred values. -/
noncomputable def sxx (n : ℕ) : ℝ :=
  ∑ i ∈ Finset.range n, ((i : ℝ) - (∑ j ∈ Finset.range n, (j : ℝ)) / n) ^ 2

/-- see `sxx` -/
noncomputable def sxy (env : List ℝ) (n : ℕ) : ℝ :=
  ∑ i ∈ Finset.range n, ((i : ℝ) - (∑ j ∈ Finset.range n, (j : ℝ)) / n) * (env.getD i 0 - meanAt env 0 n)

/-- see `sxx` -/
noncomputable def syy (env : List ℝ) (n : ℕ) : ℝ :=
  ∑ i ∈ Finset.range n, (env.getD i 0 - meanAt env 0 n) ^ 2

/-- `pearsonr(x[:n], envelope[:n])[0]` (`_transfer_functions.py`, lines 350-353); ValueError for less than two
values. For a constant envelope scipy gives nan: not modelled (`notImplemented`). -/
noncomputable def pearson (env : List ℝ) (n : ℕ) : Except Err ℝ :=
  if n < 2 then .error .valueError
  else if syy env n = 0 then .error .notImplemented
  else .ok (sxy env n / (Real.sqrt (sxx n) * Real.sqrt (syy env n)))

/-- Coefficients of the fitted line, constant first (`_transfer_functions.py`, lines 388-396). -/
noncomputable def fit (env : List ℝ) (n : ℕ) : ℝ × ℝ :=
  let slope := sxy env n / sxx n
  (meanAt env 0 n - slope * ((∑ j ∈ Finset.range n, (j : ℝ)) / n), slope)

/-- Entries of `ends` whose coefficient is at most `t`. -/
noncomputable def upTo (t : ℝ) (ends : List ℕ) (corr : List ℝ) : List ℕ :=
  ((ends.zip corr).filter fun p => p.2 ≤ t).map Prod.fst

/-- Choice of the end (`_transfer_functions.py`, lines 356-367). -/
noncomputable def choose (len : ℕ) (ends : List ℕ) (corr : List ℝ) (select : ℕ) : ℕ :=
  if corr.getD select 0 ≤ -0.95 then ends.getD select 0
  else if upTo (-0.9) ends corr ≠ [] then (upTo (-0.9) ends corr).sum / (upTo (-0.9) ends corr).length
  else if upTo (-0.7) ends corr ≠ [] then
    (9 * ends.getD select 0 + (upTo (-0.7) ends corr).sum) / (9 + (upTo (-0.7) ends corr).length)
  else (5 * len + ends.sum) / (5 + ends.length)

/-- `int` of a finite float -/
noncomputable def truncate (x : ℝ) : ℤ := if 0 ≤ x then ⌊x⌋ else ⌈x⌉

/-- `to_db(np.var(x), False)`; nan for an empty array. -/
noncomputable def noiseFloor (x : List ℝ) (minValue : ℝ) : Option ℝ :=
  if x = [] then none
  else
    let mean := x.sum / x.length
    some (10 * Real.logb 10 (max ((x.map fun a => (a - mean) ^ 2).sum / x.length) minValue))

/-- `__find_index_above_noise_floor(envelope[:n], …)` (`_transfer_functions.py`, lines 388-411); `int` of nan or
infinity raises (ValueError here, OverflowError for infinity). -/
noncomputable def aboveNoise (env : List ℝ) (n : ℕ) (floor : Option ℝ) (distance : ℝ) : Except Err ℕ :=
  let p := fit env n
  if 0 < p.2 then .ok n
  else
    match floor with
    | none => .error .valueError
    | some f =>
      if p.2 = 0 then .error .valueError
      else
        let new := truncate ((f + distance - p.1) / p.2 + 1 / 2)
        let low := ⌊(n : ℝ) * 75 / 100 + 1 / 2⌋₊
        .ok (min (max new.toNat low) n)

/-- The five windows (`_transfer_functions.py`, lines 327-354). -/
noncomputable def ends (env : List ℝ) (fs : ℕ) : List ℕ :=
  [10, 30, 50, 70, 90].map fun ms => endOf env (windowLength fs ms)

/-- `_trim_ir` (`_transfer_functions.py`, lines 300-378) for the function giving the envelope. -/
noncomputable def trim (envelope : List ℝ → List ℝ) (minValue : ℝ) (x : List ℝ) (fs : ℕ) (offset safety : ℝ) :
    Except Err (ℕ × ℕ × ℕ) :=
  match Latency.argmaxAbs x with
  | .error e => .error e
  | .ok peak =>
    let start := (peak : ℤ) - 1 - truncate (offset * fs + 1 / 2)
    let start := start.toNat
    let env := envelope (x.drop peak)
    match (ends env fs).mapM (pearson env) with
    | .error e => .error e
    | .ok corr =>
      match Helpers.argmin corr with
      | .error e => .error e
      | .ok select =>
        let n := choose env.length (ends env fs) corr select
        if safety = 0 then .ok (start, n + peak, peak - start)
        else
          match aboveNoise env n (noiseFloor (x.drop (n + peak)) minValue) |safety| with
          | .error e => .error e
          | .ok n => .ok (start, n + peak, peak - start)

/-- `trim_ir` (`transfer_functions.py`, lines 1752-1786) for all channels and a given offset: common start and
stop and the channels cut there. -/
noncomputable def trimAll (envelope : List ℝ → List ℝ) (minValue : ℝ) (channels : List (List ℝ)) (fs : ℕ)
    (offset : Option ℝ) : Except Err (List (List ℝ) × ℕ × ℕ) :=
  let off := match offset with
    | none => ((channels.headD []).length : ℝ) / fs
    | some o => o
  if ¬ 0 ≤ off then .error .assertionError
  else
    match channels.mapM fun x => trim envelope minValue x fs off 10 with
    | .error e => .error e
    | .ok bounds =>
      match bounds with
      | [] => .error .valueError
      | b :: rest =>
        let start := rest.foldl (fun m c => min m c.1) b.1
        let stop := rest.foldl (fun m c => max m c.2.1) b.2.1
        .ok (channels.map fun x => (x.take stop).drop start, start, stop)

end Verif.TrimIR

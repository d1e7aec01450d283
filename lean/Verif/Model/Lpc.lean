import Verif.Model.AR
import Verif.Model.Framing
import Verif.Model.FilterBank
import Mathlib.Analysis.Real.Sqrt

/-!
# Model of linear predictive coding (`transforms/transforms.py: lpc`, lines 1199-1283)

Exact real arithmetic, one channel.  `none` stands for nan.  The window (`get_window`) and the
random numbers are arguments.
-/

namespace Verif.Lpc

open Verif.AR Verif.Framing

/-- `_yw_ar_estimation` for one frame of an array with three dimensions (`helpers/ar_estimation.py`,
lines 114-126).  The `order + 1` places are filled with a slice of the correlation, which is shorter
for short frames (ValueError) and repeated if it has one entry.  A silent frame gives 0/0, and the
comparison of nan with 0 does not raise. -/
noncomputable def ywFrame (order : ℕ) (frame : List ℝ) : Except Err (Option (List ℝ × ℝ)) :=
  if frame.length ≠ 1 ∧ frame.length < order + 1 then .error .valueError
  else
    let R := (List.range (order + 1)).map fun lag =>
      autocorr frame (if frame.length = 1 then 0 else lag)
    match levinson R with
    | .ok r => .ok (some r)
    | .error .zeroDivision => .ok none
    | .error e => .error e

/-- `_burg_ar_estimation` for one frame of an array with three dimensions (lines 129-205). -/
noncomputable def burgFrame (eps : ℝ) (order : ℕ) (frame : List ℝ) :
    Except Err (Option (List ℝ × ℝ)) :=
  match burg eps frame order true with
  | .ok r => .ok (some r)
  | .error e => .error e

/-- The result of `lpc`: coefficients and variance of each frame, or a signal. -/
inductive Result where
  | coefficients (l : List (Option (List ℝ × ℝ)))
  | signal (x : List (Option ℝ))

/-- The frame synthesised from coefficients and noise (`transforms.py`, lines 1272-1279);
`g` are random numbers with variance 1.  Frames with nan are kept apart in `synthesis`. -/
noncomputable def synthFrame (W : ℕ) (g : ℕ → ℝ) : Option (List ℝ × ℝ) → List ℝ
  | some (a, var) => Bank.lfilter [1] a ((List.range W).map fun i => √var * g i)
  | none => List.replicate W 0

/-- The synthesised signal (lines 1270-1283) before the constructor of `Signal`: a sample is nan if a
frame with nan covers it. -/
noncomputable def synthesis (w : List ℝ) (hop L : ℕ) (tiny : ℝ) (g : ℕ → ℕ → ℝ)
    (l : List (Option (List ℝ × ℝ))) : Except Err (List (Option ℝ)) :=
  let frames := (List.range l.length).map fun k => synthFrame w.length (g k) (l.getD k none)
  match reconstruct frames w.length hop (some w) (some L) (some 1e-4) tiny with
  | .error e => .error e
  | .ok y => .ok ((List.range y.length).map fun j =>
      if ∃ k < l.length, l.getD k none = none ∧ k * hop ≤ j ∧ j < k * hop + w.length then none
      else some (y.getD j 0))

/-- `lpc` (lines 1199-1283) for one channel; `w` is the window, whose length is
`window_length_samples`.  Windows are positive in length. -/
noncomputable def lpc (x w : List ℝ) (order : ℕ) (synthesize useBurg : Bool) (hop : Option ℕ)
    (eps tiny : ℝ) (g : ℕ → ℕ → ℝ) : Except Err Result :=
  let hop := match hop with
    | none => w.length / 2
    | some h => h
  match framed x w.length hop true with
  | .error e => .error e
  | .ok td =>
    let td := td.map (applyWindow w)
    match td.mapM (if useBurg then burgFrame eps order else ywFrame order) with
    | .error e => .error e
    | .ok l =>
      if synthesize then
        match synthesis w hop x.length tiny g l with
        | .error e => .error e
        | .ok y => .ok (.signal y)
      else .ok (.coefficients l)

end Verif.Lpc

import Verif.Model.IIRFilter
import Verif.Model.FilterBank
import Mathlib.Analysis.SpecialFunctions.Pow.Real
import Mathlib.Analysis.Complex.Basic

/-!
# Model of `KautzFilter` (`dsptoolbox/classes/kautz_filter.py`, lines 13-359)

Exact arithmetic; the search for poles (lines 361-421) is the subject of `Verif.Model.KautzPoles`.  The sum over the taps is
built from the last tap to the first one instead of from the first to the last.
-/

namespace Verif.Kautz

open Verif.Bank (lfilter)

/-- A real pole, or a pair of conjugate poles given by `q = -2 Re p` and `r = |p| ^ 2`
(`kautz_filter.py`, lines 161-162 and 312-313). -/
inductive Section
  | real (p : ℝ)
  | pair (q r : ℝ)

/-- Number of taps. -/
def Section.taps : Section → ℕ
  | .real _ => 1
  | .pair _ _ => 2

/-- `__set_poles` (`kautz_filter.py`, lines 101-112): real poles first, then the others. -/
noncomputable def sections (poles : List ℂ) : List Section :=
  open Classical in
  (poles.filter fun p => p.im = 0).map (fun p => .real p.re) ++
    (poles.filter fun p => ¬ p.im = 0).map fun p => .pair (-2 * p.re) (‖p‖ ^ 2)

/-- `total_n_poles` (`kautz_filter.py`, lines 108-110). -/
def total (ss : List Section) : ℕ := (ss.map Section.taps).sum

/-! ### Sample by sample -/

/-- No further poles: the loops of `process_sample` end. -/
def silent : RTFilter ℝ (List ℝ) where
  State := Unit
  init := ()
  setChannels := fun s _ => s
  reset := fun s => s
  process := fun s _ _ => (.ok [], s)

/-- A filter whose output is one more tap (`kautz_filter.py`, lines 208, 212-213); the input is
passed on to the rest. -/
def addTap (T : RTFilter ℝ) (G : RTFilter ℝ (List ℝ)) : RTFilter ℝ (List ℝ) where
  State := T.State × G.State
  init := (T.init, G.init)
  setChannels := fun s n => (T.setChannels s.1 n, G.setChannels s.2 n)
  reset := fun s => (T.reset s.1, G.reset s.2)
  process := fun s x ch =>
    match T.process s.1 x ch with
    | (.error e, s1) => (.error e, (s1, s.2))
    | (.ok y, s1) =>
      match G.process s.2 x ch with
      | (.error e, s2) => (.error e, (s1, s2))
      | (.ok ys, s2) => (.ok (y :: ys), (s1, s2))

/-- `x = filter.process_sample(x, channel)` before the rest of the loop (`kautz_filter.py`, lines
209, 218-220). -/
def advance (A : RTFilter ℝ) (G : RTFilter ℝ (List ℝ)) : RTFilter ℝ (List ℝ) where
  State := A.State × G.State
  init := (A.init, G.init)
  setChannels := fun s n => (A.setChannels s.1 n, G.setChannels s.2 n)
  reset := fun s => (A.reset s.1, G.reset s.2)
  process := fun s x ch =>
    match A.process s.1 x ch with
    | (.error e, s1) => (.error e, (s1, s.2))
    | (.ok y, s1) =>
      let r := G.process s.2 y ch
      (r.1, (s1, r.2))

/-- `__compute_filters` (`kautz_filter.py`, lines 138-183) with the loops of `set_n_channels`,
`reset_state` and `process_sample` (lines 185-221) over them. -/
noncomputable def bank : List Section → RTFilter ℝ (List ℝ)
  | [] => silent
  | .real p :: ss =>
    addTap (IIRFilter.filter [√(1 - p ^ 2)] [1, -p])
      (advance (IIRFilter.filter [-p, 1] [1, -p]) (bank ss))
  | .pair q r :: ss =>
    addTap (IIRFilter.filter [√((1 - r) * (1 + r - q) / 2), -√((1 - r) * (1 + r - q) / 2)] [1, q, r])
      (addTap
        (IIRFilter.filter [√((1 - r) * (1 + r + q) / 2), √((1 - r) * (1 + r + q) / 2)] [1, q, r])
        (advance (IIRFilter.filter [r, q, 1] [1, q, r]) (bank ss)))

/-- The object: poles, coefficients (those of the real poles first) and the states of all filters. -/
structure Obj where
  sections : List Section
  coeffs : List ℝ
  state : (bank sections).State

/-- `set_filter_coefficients` (`kautz_filter.py`, lines 114-136). -/
def setCoefficients (o : Obj) (c : List ℝ) : Except Err Obj :=
  if c.length ≠ total o.sections then .error .assertionError else .ok { o with coeffs := c }

/-- New object with given poles, all coefficients 1, one channel (`kautz_filter.py`, lines 65-69). -/
noncomputable def ofSections (ss : List Section) : Obj := ⟨ss, List.replicate (total ss) 1, (bank ss).init⟩

/-- `KautzFilter(poles, fs)` (`kautz_filter.py`, lines 26-69). -/
noncomputable def create (poles : List ℂ) : Except Err Obj :=
  open Classical in
  if ∃ p ∈ poles, p.im < 0 then .error .assertionError
  else if ∃ p ∈ poles, 1 ≤ ‖p‖ then .error .assertionError
  else .ok (ofSections (sections poles))

/-- The sum `y` of `process_sample` (`kautz_filter.py`, lines 206-221). -/
def weighted (c t : List ℝ) : ℝ := (List.zipWith (· * ·) t c).sum

/-- `process_sample` (`kautz_filter.py`, lines 205-221). -/
noncomputable def process (o : Obj) (x : ℝ) (ch : ℕ) : Except Err ℝ × Obj :=
  let r := (bank o.sections).process o.state x ch
  (r.1.map (weighted o.coeffs), { o with state := r.2 })

/-! ### Whole signals -/

/-- `__process_time_data_vector` for one channel with `compute_tap_out_matrix`
(`kautz_filter.py`, lines 276-335): one list over time per pole. -/
noncomputable def columns : List Section → List ℝ → List ℝ → List (List ℝ)
  | [], _, _ => []
  | .real p :: ss, c, x =>
    (lfilter [1] [1, -p] x).map (fun v => √(1 - p ^ 2) * v * c.getD 0 0) ::
      columns ss (c.drop 1) (lfilter [-p, 1] [1, -p] x)
  | .pair q r :: ss, c, x =>
    (lfilter [1, -1] [1, q, r] x).map (fun v => √((1 - r) * (1 + r - q) / 2) * v * c.getD 0 0) ::
    (lfilter [1, 1] [1, q, r] x).map (fun v => √((1 - r) * (1 + r + q) / 2) * v * c.getD 1 0) ::
      columns ss (c.drop 2) (lfilter [r, q, 1] [1, q, r] x)

/-- `__process_time_data_vector` for one channel without the matrix: the sum of the columns
(`kautz_filter.py`, lines 291, 303, 325, 332). -/
noncomputable def filterVector (ss : List Section) (c x : List ℝ) : List ℝ :=
  (List.range x.length).map fun (n : ℕ) => ((columns ss c x).map fun l => l.getD n 0).sum

/-- `get_ir` (`kautz_filter.py`, lines 267-274). -/
noncomputable def getIr (o : Obj) (n : ℕ) : List ℝ :=
  filterVector o.sections o.coeffs ((List.range n).map fun (k : ℕ) => if k = 0 then 1 else 0)

/-- `fit_coefficients_to_ir` (`kautz_filter.py`, lines 223-256) for an impulse response of one
channel, with the object left behind; `coefficients[-1, :, 0]` of an empty one raises IndexError. -/
noncomputable def fitCoefficients (o : Obj) (ir : List ℝ) : Except Err Unit × Obj :=
  match setCoefficients o (List.replicate (total o.sections) 1) with
  | .error e => (.error e, o)
  | .ok o1 =>
    if ir.length = 0 then (.error .indexError, o1)
    else
      match setCoefficients o1
        ((columns o1.sections o1.coeffs ir.reverse).map fun l => l.getD (ir.length - 1) 0) with
      | .error e => (.error e, o1)
      | .ok o2 => (.ok (), o2)

/-- `fit_poles_and_coefficients_to_ir` (`kautz_filter.py`, lines 337-359) with the poles found by
the search: new filters with one channel, then new coefficients.  The poles found are not checked. -/
noncomputable def fitPoles (_ : Obj) (poles : List ℂ) (ir : List ℝ) : Except Err Unit × Obj :=
  fitCoefficients (ofSections (sections poles)) ir

/-! ### Histories of calls -/

/-- The calls that leave the poles as they are. -/
inductive Call
  | op (o : Op ℝ)
  | coefficients (c : List ℝ)
  | fit (ir : List ℝ)

/-- The object after one more call. -/
noncomputable def exec (o : Obj) : Call → Obj
  | .op (.sample x ch) => (process o x ch).2
  | .op .reset => { o with state := (bank o.sections).reset o.state }
  | .op (.setChannels n) => { o with state := (bank o.sections).setChannels o.state n }
  | .coefficients c => match setCoefficients o c with
    | .ok o' => o'
    | .error _ => o
  | .fit ir => (fitCoefficients o ir).2

/-- The object after a history of calls. -/
noncomputable def after (o : Obj) (h : List Call) : Obj := h.foldl exec o

end Verif.Kautz

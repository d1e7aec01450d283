import Verif.Model.IIRFilter
import Verif.Model.FIRFilter
import Verif.Model.FilterBank
import Mathlib.Analysis.Complex.Basic
import Mathlib.Algebra.Order.Floor.Ring

/-!
# Model of `ParallelFilter` (`dsptoolbox/classes/parallel_filter.py`)

Exact arithmetic.  `scipy.signal.zpk2sos` (the denominators `1, a1, a2` of the sections) and
`scipy.linalg.lstsq` (the solution) are parameters of the fit, so that the theorems hold for all of
them.  The sums over the sections are built from the last to the first.
-/

namespace Verif.Parallel

open Verif.Bank (lfilter)
open Verif.LFilter (fullConv)

/-- Attributes of the object.  `none` stands for an attribute that does not exist (yet). -/
structure Obj where
  fs : ℝ
  nFir : ℕ
  delay : ℕ
  offset : ℕ
  /-- `__sos`: numerators with denominators -/
  sos : Option (List (List ℝ × List ℝ))
  /-- `__fir_coefficients` -/
  firCoeffs : Option (List ℝ)
  /-- `iir`: coefficients and states -/
  iir : Option (List ((List ℝ × List ℝ) × IIRFilter.State ℝ))
  /-- `fir` -/
  fir : Option (List ℝ × FIRFilter.State ℝ)
  /-- `iir_delay` -/
  iirDelay : Option (List ℝ × FIRFilter.State ℝ)

/-- `set_parameters` (`parallel_filter.py`, lines 81-109); `None >= 0` raises TypeError. -/
noncomputable def setParameters (o : Obj) (delay : Option ℤ) (offsetMs : ℝ) : Except Err Obj :=
  match delay with
  | none => .error .typeError
  | some d =>
    if d < 0 then .error .assertionError
    else .ok { o with
      offset := max 1 ⌊o.fs * offsetMs / 1000 + 1 / 2⌋₊
      delay := d.toNat }

/-- `np.isclose(x, p)` with its default tolerances. -/
def isClose (x p : ℂ) : Prop := ‖x - p‖ ≤ 1 / 10 ^ 8 + 1 / 10 ^ 5 * ‖p‖

/-- `ParallelFilter(poles, n_fir, fs)` (`parallel_filter.py`, lines 28-79).  The poles are only used
by the fit. -/
noncomputable def create (poles : List ℂ) (nFir : ℤ) (fs : ℝ) : Except Err Obj :=
  open Classical in
  if nFir < 0 then .error .assertionError
  else if ∃ p ∈ poles, 1 ≤ ‖p‖ then .error .assertionError
  else if ∃ p ∈ poles, p.im < 0 then .error .assertionError
  else if ∃ p ∈ poles, ‖p‖ = 0 then .error .assertionError
  else if ∃ p ∈ poles, (poles.filter fun x => isClose x p).length ≠ 1 then .error .assertionError
  else if fs ≤ 0 then .error .assertionError
  else setParameters ⟨fs, nFir.toNat, 0, 1, none, none, none, none, none⟩ (some 0) 0

/-- `set_coefficients` (`parallel_filter.py`, lines 111-138) with two coefficients per section. -/
def setCoefficients (o : Obj) (c : List (ℝ × ℝ)) (fir : Option (List ℝ)) : Except Err Obj :=
  match o.sos with
  | none => .error .attributeError
  | some sos =>
    if c.length ≠ sos.length then .error .assertionError
    else .ok { o with
      sos := some (List.zipWith (fun s v => (v.1 :: v.2 :: s.1.drop 2, s.2)) sos c)
      firCoeffs := some (fir.getD [])
      nFir := (fir.getD []).length }

/-! ### The fit -/

/-- Columns of the model matrix for one frequency (`parallel_filter.py`, lines 165-208), with `z`
the value of one sample of delay: each section with numerators `1, z, z²`, all multiplied with the
delay, then the delays of the FIR part. -/
noncomputable def matrixRow (dens : List (ℝ × ℝ)) (delay offset nFir : ℕ) (z : ℂ) : List ℂ :=
  (dens.flatMap fun d =>
    [1 / (1 + d.1 * z + d.2 * z ^ 2) * z ^ delay, z / (1 + d.1 * z + d.2 * z ^ 2) * z ^ delay,
      z ^ 2 / (1 + d.1 * z + d.2 * z ^ 2) * z ^ delay]) ++
  (List.range nFir).map fun (n : ℕ) => z ^ (n * offset)

/-- `ff[::step] = v` on zeros of length `len` (`parallel_filter.py`, lines 226-229): a single value
is repeated, otherwise the numbers of entries have to agree. -/
noncomputable def strided (len step : ℕ) (v : List ℝ) : Except Err (List ℝ) :=
  let count := (len + step - 1) / step
  if v.length = count ∨ v.length = 1 then
    .ok ((List.range len).map fun (k : ℕ) =>
      if k % step = 0 then (if v.length = 1 then v.getD 0 0 else v.getD (k / step) 0) else 0)
  else .error .valueError

/-- The delays between the FIR coefficients (`parallel_filter.py`, lines 225-231). -/
noncomputable def spread (offset nFir : ℕ) (c : List ℝ) : Except Err (List ℝ) :=
  if 1 < offset ∧ 1 < nFir then
    match strided (offset * (c.length - 1) + 1) (offset + 1) c.dropLast with
    | .error e => .error e
    | .ok ff => .ok (ff.set (ff.length - 1) (c.getLastD 0))
  else .ok c

/-- `sos2tf` of one section: `np.polymul` drops leading zeros of the numerator (all zeros: one
zero); the denominators begin with 1. -/
noncomputable def sos2tf (s : List ℝ × List ℝ) : List ℝ × List ℝ :=
  open Classical in
  (if s.1.all (· = 0) then [0] else s.1.dropWhile (· = 0), s.2)

/-- `__compute_filter_bank` and `__compute_real_time_filters` (`parallel_filter.py`, lines 236-261):
one filter per section, the FIR filter if there are coefficients, the delay if it is positive; each
of them new and with one channel. -/
noncomputable def computeFilters (o : Obj) (sos : List (List ℝ × List ℝ)) (fir : List ℝ) : Obj :=
  { o with
    iir := some (sos.map fun s => (sos2tf s, (IIRFilter.filter (K := ℝ) [] []).init))
    fir := if 0 < fir.length then some (fir, (FIRFilter.filter fir).init) else o.fir
    iirDelay := if 0 < o.delay then
        some (List.replicate o.delay 0 ++ [1],
          (FIRFilter.filter (List.replicate o.delay (0 : ℝ) ++ [1])).init)
      else o.iirDelay }

/-- Numerators and denominators after the fit (`parallel_filter.py`, lines 217-221). -/
noncomputable def fittedSos (dens : List (ℝ × ℝ)) (sol : List ℝ) : List (List ℝ × List ℝ) :=
  (List.range dens.length).map fun (i : ℕ) =>
    ([sol.getD (3 * i) 0, sol.getD (3 * i + 1) 0, sol.getD (3 * i + 2) 0],
      [1, (dens.getD i (0, 0)).1, (dens.getD i (0, 0)).2])

/-- `fit_to_ir` (`parallel_filter.py`, lines 140-234) with the denominators from `zpk2sos` and the
solution of the least squares problem, together with the object left behind. -/
noncomputable def fit (o : Obj) (dens : List (ℝ × ℝ)) (sol : List ℝ) : Except Err Unit × Obj :=
  let o1 := { o with
    sos := some (fittedSos dens sol)
    firCoeffs := some (sol.drop (3 * dens.length)) }
  match spread o.offset o.nFir (sol.drop (3 * dens.length)) with
  | .error e => (.error e, o1)
  | .ok c => (.ok (), computeFilters { o1 with firCoeffs := some c } (fittedSos dens sol) c)

/-! ### Whole signals -/

/-- `filter_signal` for one channel (`parallel_filter.py`, lines 263-294). -/
noncomputable def filterSignal (o : Obj) (x : List ℝ) : Except Err (List ℝ) :=
  let part : Except Err (List ℝ) :=
    if 0 < o.nFir then
      match o.firCoeffs with
      | none => .error .attributeError
      | some b => .ok ((fullConv b x).take x.length)
    else .ok (List.replicate x.length 0)
  match part with
  | .error e => .error e
  | .ok y =>
    match o.sos with
    | none => .error .attributeError
    | some sos =>
      let td := (List.replicate o.delay 0 ++ x).take x.length
      .ok ((List.range x.length).map fun (n : ℕ) =>
        y.getD n 0 + (sos.map fun s => (lfilter s.1 s.2 td).getD n 0).sum)

/-- `get_ir` (`parallel_filter.py`, lines 296-299). -/
noncomputable def getIr (o : Obj) (n : ℕ) : Except Err (List ℝ) :=
  filterSignal o ((List.range n).map fun (k : ℕ) => if k = 0 then 1 else 0)

/-! ### Sample by sample -/

/-- `f.process_sample` of one IIR filter. -/
noncomputable def iirStep (f : (List ℝ × List ℝ) × IIRFilter.State ℝ) (x : ℝ) (ch : ℕ) :
    Except Err ℝ × IIRFilter.State ℝ := (IIRFilter.filter f.1.1 f.1.2).process f.2 x ch

/-- The loop over the IIR filters (`parallel_filter.py`, lines 331-332). -/
noncomputable def iirLoop : List ((List ℝ × List ℝ) × IIRFilter.State ℝ) → ℝ → ℕ →
    Except Err ℝ × List ((List ℝ × List ℝ) × IIRFilter.State ℝ)
  | [], _, _ => (.ok 0, [])
  | f :: fs, x, ch =>
    match iirStep f x ch with
    | (.error e, s) => (.error e, (f.1, s) :: fs)
    | (.ok y, s) =>
      match iirLoop fs x ch with
      | (.error e, fs') => (.error e, (f.1, s) :: fs')
      | (.ok ys, fs') => (.ok (y + ys), (f.1, s) :: fs')

/-- The delay and the IIR part of `process_sample` (`parallel_filter.py`, lines 326-332). -/
noncomputable def tail (o : Obj) (x : ℝ) (ch : ℕ) : Except Err ℝ × Obj :=
  let loop (o : Obj) (x : ℝ) : Except Err ℝ × Obj :=
    match o.iir with
    | none => (.error .attributeError, o)
    | some fs =>
      let r := iirLoop fs x ch
      (r.1, { o with iir := some r.2 })
  if 0 < o.delay then
    match o.iirDelay with
    | none => (.error .attributeError, o)
    | some d =>
      match (FIRFilter.filter d.1).process d.2 x ch with
      | (.error e, s) => (.error e, { o with iirDelay := some (d.1, s) })
      | (.ok x', s) => loop { o with iirDelay := some (d.1, s) } x'
  else loop o x

/-- `process_sample` (`parallel_filter.py`, lines 317-333). -/
noncomputable def process (o : Obj) (x : ℝ) (ch : ℕ) : Except Err ℝ × Obj :=
  if 1 < o.nFir then
    match o.fir with
    | none => (.error .attributeError, o)
    | some f =>
      match (FIRFilter.filter f.1).process f.2 x ch with
      | (.error e, s) => (.error e, { o with fir := some (f.1, s) })
      | (.ok y, s) =>
        let r := tail { o with fir := some (f.1, s) } x ch
        (r.1.map (y + ·), r.2)
  else if o.nFir = 1 then
    match o.firCoeffs with
    | none => (.error .attributeError, o)
    | some c =>
      let r := tail o x ch
      (r.1.map (c.getD 0 0 * x + ·), r.2)
  else tail o x ch

/-- `set_n_channels` (`parallel_filter.py`, lines 301-307). -/
noncomputable def setChannels (o : Obj) (n : ℕ) : Except Err Unit × Obj :=
  match o.iir with
  | none => (.error .attributeError, o)
  | some fs =>
    let o1 := { o with iir := some (fs.map fun f => (f.1, IIRFilter.setChannels f.2 n)) }
    if 0 < o.nFir ∧ o.fir = none then (.error .attributeError, o1)
    else
      let o2 := if 0 < o.nFir then
          { o1 with fir := o.fir.map fun f => (f.1, FIRFilter.setChannels f.2 n) }
        else o1
      if 0 < o.delay ∧ o.iirDelay = none then (.error .attributeError, o2)
      else if 0 < o.delay then
        (.ok (), { o2 with iirDelay := o.iirDelay.map fun f => (f.1, FIRFilter.setChannels f.2 n) })
      else (.ok (), o2)

/-- `reset_state` (`parallel_filter.py`, lines 309-315). -/
noncomputable def reset (o : Obj) : Except Err Unit × Obj :=
  match o.iir with
  | none => (.error .attributeError, o)
  | some fs =>
    let o1 := { o with iir := some (fs.map fun f => (f.1, IIRFilter.reset f.2)) }
    if 1 < o.nFir ∧ o.fir = none then (.error .attributeError, o1)
    else
      let o2 := if 1 < o.nFir then
          { o1 with fir := o.fir.map fun f => (f.1, FIRFilter.reset f.2) }
        else o1
      if 0 < o.delay ∧ o.iirDelay = none then (.error .attributeError, o2)
      else if 0 < o.delay then
        (.ok (), { o2 with iirDelay := o.iirDelay.map fun f => (f.1, FIRFilter.reset f.2) })
      else (.ok (), o2)

/-- The object as a realtime filter, starting with `o`. -/
noncomputable def realtime (o : Obj) : RTFilter ℝ where
  State := Obj
  init := o
  setChannels := fun s n => (setChannels s n).2
  reset := fun s => (reset s).2
  process := process

end Verif.Parallel

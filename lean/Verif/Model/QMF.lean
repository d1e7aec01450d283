import Verif.Model.Resample
import Mathlib.Data.Complex.Basic

/-!
# Model of the quadrature mirror filter crossover

`filterbanks/_filterbank.py: BaseCrossover` (lines 842-951), `QMFCrossover` (lines 1077-1209),
`_crossover_downsample` (lines 1212-1270), `_reconstruct_from_crossover_upsample` (lines
1273-1304).  One channel, exact arithmetic; the resampling in one step is `Model/Resample`.  The
assignments of the samples to `Signal` objects are C14; here the amplitude is not constrained
and the arrays keep their shape.  Filter states (`activate_zi`) play no role with downsampling.
-/

namespace Verif.QMF

open Verif.Polyphase

section
variable {K : Type} [Field K] [LinearOrder K]

/-- `b_high = b.copy(); b_high[1::2] *= -1` (lines 1129-1131, 1183-1184). -/
def alternate (b : List K) : List K :=
  (List.range b.length).map fun i => if i % 2 = 1 then -b.getD i 0 else b.getD i 0

/-- The filters of a crossover: `filters` and `filters_synthesis`. -/
structure Crossover (K : Type) where
  low : ResampleFilter K
  high : ResampleFilter K
  synthesisLow : ResampleFilter K
  synthesisHigh : ResampleFilter K

/-- A filter with finite impulse response. -/
def fir (b : List K) (fs : ℕ) : ResampleFilter K := ⟨b, [1], true, fs⟩

/-- `QMFCrossover(lowpass)` for a filter with finite impulse response (lines 1124-1138 and
1176-1193). -/
def ofFir (b : List K) (fs : ℕ) : Crossover K where
  low := fir b fs
  high := fir (alternate b) fs
  synthesisLow := fir b fs
  synthesisHigh := fir ((alternate b).map fun v => -v) fs

/-- `FilterBankMode` -/
inductive Mode
  | parallel | sequential | summed

/-- Values read when an array with `n` rows is assigned from `l`: a single row is repeated. -/
def broadcast (l : List K) (k : ℕ) : K := if l.length = 1 then l.getD 0 0 else l.getD k 0

/-- `_crossover_downsample` (lines 1235-1270) with factor 2: the bands and their sampling rate.
In the summed mode arrays of other lengths raise ValueError. -/
def downsampled (c : Crossover K) (x : List K) (fs : ℕ) : Mode → Except Err (List (List K) × ℕ)
  | .parallel => do
    let r0 ← resample c.low x fs (fs / 2)
    let r1 ← resample c.high x fs (fs / 2)
    pure ([r0.1, r1.1], fs / 2)
  | .sequential => do
    let r0 ← resample c.low x fs (fs / 2)
    let r1 ← resample c.high r0.1 r0.2 (fs / 2)
    pure ([r1.1], r1.2)
  | .summed => do
    let r0 ← resample c.low x fs (fs / 2)
    if r0.1.length ≠ x.length / 2 ∧ r0.1.length ≠ 1 then throw .valueError
    let r1 ← resample c.high x fs (fs / 2)
    if r1.1.length ≠ x.length / 2 ∧ r1.1.length ≠ 1 then throw .valueError
    pure ([(List.range (x.length / 2)).map fun k => broadcast r0.1 k + broadcast r1.1 k], fs / 2)

/-- `filter_signal` with `downsample=True` (lines 908-918). -/
def filterSignal (c : Crossover K) (x : List K) (fs : ℕ) (mode : Mode) (zeroPhase : Bool) :
    Except Err (List (List K) × ℕ) :=
  if zeroPhase then .error .notImplemented
  else if fs ≠ c.low.fs then .error .assertionError
  else downsampled c x fs mode

/-- `reconstruct_signal` (lines 941-951) with `_reconstruct_from_crossover_upsample` (lines
1295-1304): the samples and their sampling rate. -/
def reconstruct (c : Crossover K) (bands : List (List K)) (fs : ℕ) (up : Bool) :
    Except Err (List K × ℕ) :=
  match bands with
  | [v0, v1] => do
    let r0 ← resample c.synthesisLow v0 fs (fs * if up then 2 else 1)
    let r1 ← resample c.synthesisHigh v1 fs (fs * if up then 2 else 1)
    if r1.1.length ≠ r0.1.length then throw .valueError
    pure ((List.range r0.1.length).map (fun k => r0.1.getD k 0 + r1.1.getD k 0), r0.2)
  | _ => .error .assertionError

end

/-- Coefficients of `∏ (1 - r w)` in the unit delay `w`, over the roots `r`. -/
def polyOf : List ℂ → List ℂ
  | [] => [1]
  | r :: rs => (List.range ((polyOf rs).length + 1)).map fun n =>
      (polyOf rs).getD n 0 - r * (if n = 0 then 0 else (polyOf rs).getD (n - 1) 0)

/-- `Filter({Zpk: [z, p, k]})` as used by `filter_and_resample_signal`: `sos2tf(zpk2sos(z, p,
k))` (`classes/filter.py`, lines 786-788), the product of the sections.  Roots come in
conjugated pairs, so the coefficients are real.  The zeros that scipy appends to the shorter
list lie at the origin and do not change the coefficients (trailing zeros are dropped here). -/
noncomputable def ofZpk (z p : List ℂ) (k : ℝ) (fs : ℕ) : ResampleFilter ℝ :=
  ⟨(polyOf z).map fun c => k * c.re, (polyOf p).map fun c => c.re, false, fs⟩

/-- `QMFCrossover(lowpass)` for a recursive filter with these zeros, poles and gain (lines
1139-1149 and 1194-1207). -/
noncomputable def ofIir (z p : List ℂ) (k : ℝ) (fs : ℕ) : Crossover ℝ where
  low := ofZpk z p k fs
  high := ofZpk (z.map fun c => c * -1) (p.map fun c => c * -1) k fs
  synthesisLow := ofZpk z p k fs
  synthesisHigh := ofZpk (z.map fun c => c * -1) (p.map fun c => c * -1) (-k) fs

end Verif.QMF

import Verif.Model.Append
import Mathlib.Analysis.SpecialFunctions.Log.Base

/-!
# A `Spectrum` with coherence, its channels and its grid (`dsptoolbox/classes/spectrum.py`,
`dsptoolbox/classes/_multichannel_data.py`)

Exact real and complex arithmetic.  Methods that change the object return the object left behind
together with the exception, if there is one.
-/

namespace Verif.SpecObj

open Spectrum SpecConv Verif.Append Complex

/-- A `Spectrum` and its attribute `coherence`, which exists only after `set_coherence`
(`spectrum.py`, lines 304-314 and 885). -/
structure Obj where
  spec : CSpec
  coherence : Option (Mat ℝ)

/-- The constructor (`spectrum.py`, lines 32-53): no coherence. -/
noncomputable def create (f : List ℝ) (A : Mat ℂ) (isMagnitude : Bool) : Except Err Obj :=
  match construct f A isMagnitude with
  | .error e => .error e
  | .ok s => .ok ⟨s, none⟩

open Classical in
/-- Setter of `frequency_vector_hz` (`spectrum.py`, lines 151-179) for real vectors. -/
noncomputable def setFreqs (o : Obj) (f : List ℝ) : Obj × Option Err :=
  if ¬ ((∀ x ∈ f, 0 ≤ x) ∧ ∀ i < f.length - 1, f.getD i 0 < f.getD (i + 1) 0) then
    (o, some .assertionError)
  else (⟨{ o.spec with freqs := f }, o.coherence⟩, none)

open Classical in
/-- Setter of `spectral_data` (`spectrum.py`, lines 232-269): data is stored before it is looked at
for negative values. -/
noncomputable def setData (o : Obj) (A : Mat ℂ) (isMagnitude : Bool) : Obj × Option Err :=
  if (upright A).rows ≠ o.spec.freqs.length then (o, some .assertionError)
  else if isMagnitude = true ∧ ¬ ∀ r < (upright A).rows, ∀ c < (upright A).cols,
      0 ≤ ((upright A).val r c).re then
    (⟨{ o.spec with data := upright A, isMagnitude := isMagnitude }, o.coherence⟩,
      some .assertionError)
  else (⟨{ o.spec with data := upright A, isMagnitude := isMagnitude }, o.coherence⟩, none)

/-- `set_interpolator_parameters` (`spectrum.py`, lines 686-724). -/
def setInterpolator (o : Obj) (d : Domain) (s : Scheme) (e : Edges) : Obj × Option Err :=
  if (d = .complex ∨ d = .magnitudePhase) ∧ o.spec.isMagnitude = true then
    (o, some .assertionError)
  else (⟨{ o.spec with domain := d, scheme := s, edges := e }, o.coherence⟩, none)

/-- `set_coherence` (`spectrum.py`, lines 871-885). -/
def setCoherence (o : Obj) (G : Mat ℝ) (isComplex : Bool) : Obj × Option Err :=
  if ¬ (G.rows = o.spec.data.rows ∧ G.cols = o.spec.data.cols) then (o, some .assertionError)
  else if isComplex then (o, some .assertionError)
  else (⟨o.spec, some G⟩, none)

/-- `_create_copy_with_new_data` (`spectrum.py`, lines 1008-1022). -/
noncomputable def createCopy (o : Obj) (A : Mat ℂ) (isMagnitude : Bool) : Except Err Obj :=
  match create o.spec.freqs A isMagnitude with
  | .error e => .error e
  | .ok n =>
    match setInterpolator n o.spec.domain o.spec.scheme o.spec.edges with
    | (_, some e) => .error e
    | (n1, none) =>
      match o.coherence with
      | none => .ok n1
      | some G =>
        match setCoherence n1 G false with
        | (_, some e) => .error e
        | (n2, none) => .ok n2

/-- Index of a column as numpy counts them. -/
def colIndex (C : ℕ) (j : ℤ) : ℕ := (if j < 0 then j + C else j).toNat

/-- `get_channels` (`_multichannel_data.py`, lines 89-105) for integers.  An empty list turns into an
array of floats, which is no index. -/
noncomputable def getChannels (o : Obj) (idx : List ℤ) : Except Err Obj :=
  let C := o.spec.data.cols
  if idx = [] then .error .indexError
  else if ¬ ∀ j ∈ idx, -(C : ℤ) ≤ j ∧ j < C then .error .indexError
  else createCopy o (o.spec.data.selectCols (idx.map (colIndex C))) o.spec.isMagnitude

/-- `sum_channels` (`spectrum.py`, lines 435-461; `_multichannel_data.py`, lines 107-118). -/
noncomputable def sumChannels (o : Obj) (powerSum : Bool) : Except Err Obj :=
  let A := o.spec.data
  if powerSum then
    createCopy o ⟨A.rows, 1, fun r _ =>
      ((Real.sqrt (∑ c ∈ Finset.range A.cols, ‖A.val r c‖ ^ 2) : ℝ) : ℂ)⟩ true
  else
    createCopy o ⟨A.rows, 1, fun r _ => ∑ c ∈ Finset.range A.cols, A.val r c⟩ o.spec.isMagnitude

/-- `swap_channels` (`_multichannel_data.py`, lines 57-87) for a vector of integers. -/
noncomputable def swapChannels (o : Obj) (order : List ℤ) : Obj × Option Err :=
  let C := o.spec.data.cols
  if order.length ≠ C then (o, some .assertionError)
  else if ¬ ∀ j ∈ order, 0 ≤ j ∧ j < (C : ℤ) then (o, some .assertionError)
  else if ¬ order.Nodup then (o, some .assertionError)
  else setData o (o.spec.data.selectCols (order.map Int.toNat)) o.spec.isMagnitude

/-- `remove_channel` (`_multichannel_data.py`, lines 32-55).  `np.delete` accepts negative numbers
down to minus the number of channels. -/
noncomputable def removeChannel (o : Obj) (ch : ℤ) : Obj × Option Err :=
  let C := o.spec.data.cols
  let ch := if ch = -1 then (C : ℤ) - 1 else ch
  if C ≤ 1 then (o, some .assertionError)
  else if (C : ℤ) - 1 < ch then (o, some .assertionError)
  else if ch < -(C : ℤ) then (o, some .indexError)
  else setData o (o.spec.data.deleteCol (colIndex C ch)) o.spec.isMagnitude

/-- `trim` (`spectrum.py`, lines 407-433): the frequency vector, then the data. -/
noncomputable def trimTo (o : Obj) (lo hi : Option ℝ) (inclusive : Bool) : Obj × Option Err :=
  match toSlice o.spec.freqs lo hi inclusive with
  | .error e => (o, some e)
  | .ok (i, j) =>
    match setFreqs o ((o.spec.freqs.drop i).take (j - i)) with
    | (o1, some e) => (o1, some e)
    | (o1, none) => setData o1 (sliceRows o.spec.data i j) o.spec.isMagnitude

/-- `resample` (`spectrum.py`, lines 463-492). -/
noncomputable def resample (sp : Spline) (o : Obj) (f : List ℝ) : Obj × Option Err :=
  let dom : Domain := if o.spec.isMagnitude then .power else .magnitudePhase
  match setInterpolator o dom o.spec.scheme o.spec.edges with
  | (o1, some e) => (o1, some e)
  | (o1, none) =>
    match interpolateAll sp o1.spec f (if o1.spec.isMagnitude then .magnitude else .complex) with
    | .error e => (o1, some e)
    | .ok A =>
      match setFreqs o1 f with
      | (o2, some e) => (o2, some e)
      | (o2, none) => setData o2 A o1.spec.isMagnitude

/-- `apply_octave_smoothing` (`spectrum.py`, lines 805-869).  `smooth beta` is
`fractional_octave_smoothing` with the given fraction and window.  For other frequency vectors
`np.linspace` is called with a float as number of points, which raises TypeError. -/
noncomputable def octaveSmoothing (smooth : Option ℝ → Mat ℝ → Mat ℝ) (o : Obj) :
    Obj × Option Err :=
  let f := o.spec.freqs
  let A := o.spec.data
  match spacing f with
  | .other => (o, some .typeError)
  | sp =>
    let beta := if sp = .logarithmic then
      some (Real.logb 2 (f.getD (f.length - 1) 0 / f.getD (f.length - 2) 0)) else none
    if o.spec.isMagnitude then
      let M := smooth beta ⟨A.rows, A.cols, fun r c => (A.val r c).re⟩
      setData o ⟨M.rows, M.cols, fun r c => (M.val r c : ℂ)⟩ true
    else
      let M := smooth beta ⟨A.rows, A.cols, fun r c => ‖A.val r c‖⟩
      let P := smooth beta ⟨A.rows, A.cols, fun r c => unwrap (fun i => (A.val i c).arg) r⟩
      setData o ⟨M.rows, M.cols, fun r c => (M.val r c : ℂ) * exp (I * (P.val r c : ℂ))⟩ false

/-- A method that changes the object. -/
inductive Call where
  | freqs (f : List ℝ)
  | data (A : Mat ℂ) (isMagnitude : Bool)
  | interpolator (d : Domain) (s : Scheme) (e : Edges)
  | coherence (G : Mat ℝ) (isComplex : Bool)
  | swap (order : List ℤ)
  | remove (ch : ℤ)
  | trim (lo hi : Option ℝ) (inclusive : Bool)
  | resample (f : List ℝ)
  | smooth (window : Option ℝ → Mat ℝ → Mat ℝ)

/-- One call. -/
noncomputable def call (sp : Spline) (o : Obj) : Call → Obj × Option Err
  | .freqs f => setFreqs o f
  | .data A m => setData o A m
  | .interpolator d s e => setInterpolator o d s e
  | .coherence G z => setCoherence o G z
  | .swap order => swapChannels o order
  | .remove ch => removeChannel o ch
  | .trim lo hi i => trimTo o lo hi i
  | .resample f => resample sp o f
  | .smooth w => octaveSmoothing w o

/-- Calls until one of them raises. -/
noncomputable def calls (sp : Spline) (o : Obj) : List Call → Obj × Option Err
  | [] => (o, none)
  | x :: xs =>
    match call sp o x with
    | (o1, some e) => (o1, some e)
    | (o1, none) => calls sp o1 xs

end Verif.SpecObj

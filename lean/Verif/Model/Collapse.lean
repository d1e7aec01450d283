import Verif.Model.PadTrim

/-!
# Collapsing a multiband signal and selecting channels

`MultiBandSignal.collapse` works on the array of the first band itself
(`classes/multibandsignal.py`, lines 405-427), so that the model returns the bands as they
are afterwards together with the result.  The arrays of different bands are assumed to be
different objects.
-/

namespace Verif.Collapse

open SignalData

variable {K : Type} [Field K] [LinearOrder K]

/-- Sum of the real parts of all bands at one position. -/
def sumRe (bands : List (State K)) (r c : ℕ) : K := (bands.map fun b => b.re.val r c).sum

/-- Sum of the imaginary parts of all bands at one position. -/
def sumIm (bands : List (State K)) (r c : ℕ) : K :=
  (bands.map fun b => b.im.elim 0 fun B => B.val r c).sum

/-- `MultiBandSignal.collapse` (`multibandsignal.py`, lines 405-427) of bands with the same
shape.  For real bands the first array is summed up in place.  `owned` says whether that
array owns its memory: if so `copy_with_new_time_data` (`signal.py`, lines 1647-1680) does
not copy it and a normalisation of the result also changes the first band. -/
def collapse (owned : Bool) (bands : List (State K)) :
    Except Err (State K × List (State K)) :=
  match bands with
  | [] => .error .indexError
  | b0 :: rest =>
    match b0.im with
    | none =>
      let x : Input K := ⟨b0.re.rows, b0.re.cols, sumRe bands, none⟩
      match copyWith b0 x with
      | .error e => .error e
      | .ok t =>
        let left : Mat K := if owned then t.re else x.reMat
        .ok (t, ⟨left, none, b0.constrain, b0.scale⟩ :: rest)
    | some _ =>
      let x : Input K := ⟨b0.re.rows, b0.re.cols, sumRe bands, some (sumIm bands)⟩
      match copyWith b0 x with
      | .error e => .error e
      | .ok t => .ok (t, bands)

/-- Python index in a list of `n` elements. -/
def pyIndex (n : ℕ) (i : ℤ) : Option ℕ :=
  if 0 ≤ i ∧ i < n then some i.toNat else if -n ≤ i ∧ i < 0 then some (i + n).toNat else none

/-- `get_channels` (`_multichannel_data.py`, lines 92-109). -/
def getChannels (s : State K) (channels : List ℤ) : Except Err (State K) :=
  match channels.mapM (pyIndex s.re.cols) with
  | none => .error .indexError
  | some js =>
    copyWith s ⟨s.re.rows, js.length, fun r c => s.re.val r (js.getD c 0),
      s.im.map fun B r c => B.val r (js.getD c 0)⟩

/-- `sum_channels` (`_multichannel_data.py`, lines 111-122). -/
def sumChannels (s : State K) : Except Err (State K) :=
  copyWith s ⟨s.re.rows, 1, fun r _ => ∑ c ∈ Finset.range s.re.cols, s.re.val r c,
    s.im.map fun B r _ => ∑ c ∈ Finset.range s.re.cols, B.val r c⟩

end Verif.Collapse

import Verif.Model.SignalData

/-!
# Model of padding, trimming, appending and delaying signals

`helpers/other.py: _pad_trim`, `standard/pad_trim_methods.py: pad_trim`,
`standard/appending.py: append_signals`, `standard/latency_delay.py: delay`.

A signal is the `State` of `Verif.SignalData` (its sampling rate is passed separately where
it matters).  Functions that build a new signal with `copy_with_new_time_data`
(`classes/signal.py`, lines 1647-1680) are modelled with the constructor, which applies the
standard form and, if `constrain_amplitude` is set, the normalization.
-/

namespace Verif.SignalData

/-- `_pad_trim` along the first axis (`helpers/other.py`, lines 216-259).  The entries are
samples (one-dimensional arrays) or rows of an array. -/
def padTrim {α : Type} [Zero α] (xs : List α) (n : ℕ) (atEnd : Bool) : List α :=
  if xs.length = n then xs
  else if xs.length < n then
    let v := if atEnd then xs else xs.reverse
    let w := v ++ List.replicate (n - xs.length) 0
    if atEnd then w else w.reverse
  else
    let v := if atEnd then xs else xs.reverse
    let w := v.take n
    if atEnd then w else w.reverse

variable {K : Type} [Field K] [LinearOrder K]

/-- `A[:, c]` -/
def colOf (A : Mat K) (c : ℕ) : List K := (List.range A.rows).map fun r => A.val r c

/-- An array of `n` rows given by its columns. -/
def ofCols (n cols : ℕ) (f : ℕ → List K) : Input K := ⟨n, cols, fun r c => (f c).getD r 0, none⟩

/-- `copy_with_new_time_data` (`classes/signal.py`, lines 1647-1680), as far as the data is
concerned. -/
def copyWith (s : State K) (x : Input K) : Except Err (State K) := construct x s.constrain

/-- `pad_trim` of a `Signal` (`standard/pad_trim_methods.py`, lines 31-39). -/
def padTrimSignal (s : State K) (n : ℕ) (atEnd : Bool) : Except Err (State K) :=
  copyWith s (ofCols n s.re.cols fun c => padTrim (colOf s.re c) n atEnd)

/-- `A[:, idx] = B`, column by column, the entries of `B` being its columns. -/
def writeCols (A : ℕ → List K) (idx : List ℕ) (B : ℕ → List K) : ℕ → List K :=
  (List.range idx.length).foldl (fun A k => Function.update A (idx.getD k 0) (B k)) A

/-- `delay` of a `Signal` (`standard/latency_delay.py`, lines 319-360), for a delay of
`d ≥ 0` samples and non-negative channel numbers. `none` stands for all channels.  Note
that the arguments of `np.setdiff1d` are swapped, so that `channels_not` is empty.  An empty list
(an array of floats in numpy, which is rejected as an index) is not modelled. -/
def delaySignal (s : State K) (d : ℕ) (channels : Option (List ℕ)) (keepLength : Bool) :
    Except Err (State K) :=
  if d = 0 then .ok s
  else if keepLength = true ∧ s.re.rows ≤ d then .error .assertionError
  else
    let chs := channels.getD (List.range s.re.cols)
    if (∀ c ∈ chs, c < s.re.cols) ∧ chs.Nodup then
      let chsNot := chs.filter fun c => ¬ c < s.re.cols
      let n := d + s.re.rows
      let notDelayed := fun k => padTrim (colOf s.re (chsNot.getD k 0)) n true
      let delayed := fun k => padTrim (colOf s.re (chs.getD k 0)) n false
      let td := fun c => padTrim (colOf s.re c) n true
      let td1 := writeCols td chsNot notDelayed
      let td2 := writeCols td1 chs delayed
      copyWith s (ofCols (if keepLength then s.re.rows else n) s.re.cols td2)
    else .error .assertionError

/-- Writing the columns of a block behind the columns written before
(`standard/appending.py`, lines 66-96). -/
def writeBlock (td : ℕ → ℕ → K) (off : ℕ) (n cols : ℕ) (block : ℕ → ℕ → K) : ℕ → ℕ → K :=
  fun r c => if r < n ∧ off ≤ c ∧ c < off + cols then block r (c - off) else td r c

/-- Real part of the loop over the signals (`standard/appending.py`, lines 66-96). -/
def writeAllRe (n : ℕ) (atEnd : Bool) : List (State K) → ℕ → (ℕ → ℕ → K) → ℕ → ℕ → K
  | [], _, td => td
  | s :: rest, off, td =>
    writeAllRe n atEnd rest (off + s.re.cols)
      (writeBlock td off n s.re.cols fun r c => (padTrim (colOf s.re c) n atEnd).getD r 0)

/-- Imaginary part of the same loop, entered if one of the signals is complex: a real
signal writes zeros. -/
def writeAllIm (n : ℕ) (atEnd : Bool) : List (State K) → ℕ → (ℕ → ℕ → K) → ℕ → ℕ → K
  | [], _, td => td
  | s :: rest, off, td =>
    let B : Mat K := s.im.getD ⟨s.re.rows, s.re.cols, fun _ _ => 0⟩
    writeAllIm n atEnd rest (off + s.re.cols)
      (writeBlock td off n s.re.cols fun r c => (padTrim (colOf B c) n atEnd).getD r 0)

/-- `append_signals` for a list of `Signal` given with their sampling rates
(`standard/appending.py`, lines 43-100). The new data is assigned to a copy of the first
signal. -/
def appendSignals (sigs : List (State K × ℕ)) (allow atEnd : Bool) :
    Except Err (State K × ℕ) :=
  match sigs with
  | [] => .error .assertionError
  | [_] => .error .assertionError
  | first :: _ =>
    if ∀ s ∈ sigs, s.2 = first.2 ∧ (allow = false → s.1.re.rows = first.1.re.rows) then
      let n := first.1.re.rows
      let total := (sigs.map fun s => s.1.re.cols).sum
      let re := writeAllRe n atEnd (sigs.map Prod.fst) 0 fun _ _ => 0
      let im := if sigs.any fun s => s.1.im.isSome then
          some (writeAllIm n atEnd (sigs.map Prod.fst) 0 fun _ _ => 0) else none
      match setData first.1 ⟨n, total, re, im⟩ with
      | .ok s => .ok (s, first.2)
      | .error e => .error e
    else .error .assertionError

/-- The bands of the result of `append_signals` for multiband signals given as lists of
bands (`standard/appending.py`, lines 116-127). The checks before the loop
are reduced to the number of bands; line 118 starts every band with a copy of the **first**
band of the first signal. -/
def appendBands (sigs : List (List (State K × ℕ))) (allow atEnd : Bool) :
    Except Err (List (State K × ℕ)) :=
  match sigs with
  | [] => .error .assertionError
  | [_] => .error .assertionError
  | first :: rest =>
    if ∀ s ∈ rest, s.length = first.length then
      (List.range first.length).mapM fun n =>
        rest.foldlM (fun band s => appendSignals [band, s.getD n band] allow atEnd)
          (first.getD 0 (⟨⟨0, 0, fun _ _ => 0⟩, none, false, 1⟩, 0))
    else .error .assertionError

end Verif.SignalData

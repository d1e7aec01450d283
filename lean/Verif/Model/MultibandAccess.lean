import Verif.Model.Collapse
import Verif.Model.FilterBank
import Verif.Model.Bands

/-!
# Reading the bands of a multiband signal and filtering them one by one

`MultiBandSignal.get_all_bands` and `get_all_time_data` (`classes/multibandsignal.py`, lines
463-572), `FilterBank.filter_multiband_signal` (`classes/filterbank.py`, lines 479-530).

A band is the data of a signal together with its sampling rate.  Bands are all real or all
complex (the setter of `bands` sees to it; C40).
-/

namespace Verif.Multiband

open SignalData Bank

variable {K : Type} [Field K] [LinearOrder K]

/-- A band: sampling rate and data. -/
structure Band (K : Type) where
  rate : ℕ
  sig : State K

/-- A `MultiBandSignal`: the flag `same_sampling_rate` and the bands. -/
structure MBS (K : Type) where
  same : Bool
  bands : List (Band K)

/-- What `get_all_bands` returns: a signal with its sampling rate, or the vectors (real and,
for complex bands, imaginary part) and their sampling rates. -/
inductive BandsOut (K : Type) where
  | signal (rate : ℕ) (s : State K)
  | vectors (data : List (List K × Option (List K))) (rates : List ℕ)

/-- The array `new_time_data` (`multibandsignal.py`, lines 485-503): row `r`, column `n` is
sample `r` of column `js[n]` of band `n`. -/
def gathered (b0 : Band K) (bands : List (Band K)) (js : List ℕ) : Input K :=
  ⟨b0.sig.re.rows, bands.length, fun r n => (bands.getD n b0).sig.re.val r (js.getD n 0),
    b0.sig.im.map fun _ r n =>
      (bands.getD n b0).sig.im.elim 0 fun B => B.val r (js.getD n 0)⟩

/-- `get_all_bands` (`multibandsignal.py`, lines 463-520).  Without bands `self.bands[0]`
raises IndexError.  With one sampling rate an array is filled (lines 485-503; a band of
another length does not fit and raises ValueError, except that numpy repeats a band of one
sample, which is not modelled) and a signal is constructed with the default settings, so
without amplitude constraint (lines 504-506). -/
def getAllBands (m : MBS K) (channel : ℤ) : Except Err (BandsOut K) :=
  match m.bands with
  | [] => .error .indexError
  | b0 :: _ =>
    match m.bands.mapM fun b => Collapse.pyIndex b.sig.re.cols channel with
    | none => .error .indexError
    | some js =>
      if m.same then
        if m.bands.all fun b => b.sig.re.rows == b0.sig.re.rows then
          match construct (gathered b0 m.bands js) false with
          | .error e => .error e
          | .ok s => .ok (.signal b0.rate s)
        else .error .valueError
      else
        .ok (.vectors ((m.bands.zip js).map fun p =>
          (colOf p.1.sig.re p.2, p.1.sig.im.map fun B => colOf B p.2))
          (m.bands.map Band.rate))

/-- An array with three dimensions. -/
structure Arr3 (K : Type) where
  times : ℕ
  bands : ℕ
  channels : ℕ
  re : ℕ → ℕ → ℕ → K
  im : Option (ℕ → ℕ → ℕ → K)

/-- What `get_all_time_data` returns. -/
inductive DataOut (K : Type) where
  | array (data : Arr3 K) (rate : ℕ)
  | arrays (data : List ((Mat K × Option (Mat K)) × ℕ))

/-- `get_all_time_data` (`multibandsignal.py`, lines 522-572).  As in `getAllBands` a band of
another shape raises ValueError. -/
def getAllTimeData (m : MBS K) : Except Err (DataOut K) :=
  match m.bands with
  | [] => .error .indexError
  | b0 :: _ =>
    if m.same then
      if m.bands.all fun b => b.sig.re.rows == b0.sig.re.rows && b.sig.re.cols == b0.sig.re.cols
      then
        .ok (.array ⟨b0.sig.re.rows, m.bands.length, b0.sig.re.cols,
          fun r n c => (m.bands.getD n b0).sig.re.val r c,
          b0.sig.im.map fun _ r n c =>
            (m.bands.getD n b0).sig.im.elim 0 fun B => B.val r c⟩ b0.rate)
      else .error .valueError
    else .ok (.arrays (m.bands.map fun b => ((b.sig.re, b.sig.im), b.rate)))

/-- `sampling_rate_hz` of an object holding elements with the given rates; without elements
the attribute does not exist (`multibandsignal.py`, lines 166-171; `filterbank.py`, setter of
`filters`). -/
def reported (same : Bool) : List ℕ → Option Bands.Rates
  | [] => none
  | r :: rs => some (if same then .one r else .many (r :: rs))

/-- A filter with its sampling rate. -/
structure RFilt (K : Type) where
  rate : ℕ
  filt : Filt K

/-- A `FilterBank`: the flag `same_sampling_rate` and the filters. -/
structure FBank (K : Type) where
  same : Bool
  filters : List (RFilt K)

/-- `Filter.filter_signal` with its check of the sampling rates (`filter.py`, lines
648-743). -/
def filterBand (f : RFilt K) (b : Band K) : Except Err (Band K) :=
  if f.rate = b.rate then
    match filterSignal f.filt b.sig with
    | .error e => .error e
    | .ok s => .ok ⟨b.rate, s⟩
  else .error .assertionError

/-- The loop of `filter_multiband_signal` (`filterbank.py`, lines 523-529): band `n` is
filtered by `self.filters[n]`. -/
def filterLoop : List (RFilt K) → List (Band K) → Except Err (List (Band K))
  | _, [] => .ok []
  | [], _ :: _ => .error .indexError
  | f :: fs, b :: bs =>
    match filterBand f b with
    | .error e => .error e
    | .ok t =>
      match filterLoop fs bs with
      | .error e => .error e
      | .ok ts => .ok (t :: ts)

/-- `filter_multiband_signal` (`filterbank.py`, lines 479-530) without initial values and
without zero-phase filtering.  The rates are compared as they are reported (lines 507-509).  The result is a copy whose bands are replaced
one by one. -/
def filterMultiband (B : FBank K) (m : MBS K) : Except Err (MBS K) :=
  match reported m.same (m.bands.map Band.rate), reported B.same (B.filters.map RFilt.rate) with
  | some r, some r' =>
    if r = r' then
      match filterLoop B.filters m.bands with
      | .error e => .error e
      | .ok bands => .ok ⟨m.same, bands⟩
    else .error .assertionError
  | _, _ => .error .attributeError

end Verif.Multiband

import Verif.Model.LFilter
import Verif.Model.PadTrim

/-!
# Model of polyphase representations and of polyphase resampling

`helpers/polyphase.py` and `classes/filter_helpers.py: _filter_and_downsample,
_filter_and_upsample`.  Everything acts channel by channel, one channel is modelled.  A
polyphase representation is the list of its components (columns).
-/

namespace Verif.Polyphase

open Verif.SignalData (padTrim)
open Verif.LFilter (fullConv)

variable {K : Type} [Field K]

/-- `l[a:b]` for integers, negative ones counted from the end. -/
def pySlice {α : Type} (l : List α) (a b : ℤ) : List α :=
  let f := fun i : ℤ => if i < 0 then (i + l.length).toNat else min i.toNat l.length
  (l.drop (f a)).take (f b - f a)

/-- `_polyphase_decomposition` (`helpers/polyphase.py`, lines 36-56): components and the
returned `padding`. -/
def decompose (x : List K) (n : ℕ) (flip : Bool) : Except Err (List (List K) × ℕ) :=
  if n = 0 then .error .zeroDivision
  else
    let remainder := x.length % n
    let padding := n - remainder
    let x' := if remainder ≠ 0 then padTrim x (x.length + padding) false else x
    let poly := (List.range n).map fun ind =>
      (List.range (x'.length / n)).map fun r => x'.getD (ind + r * n) 0
    .ok (if flip then poly.reverse else poly, padding)

/-- `_polyphase_reconstruction` (`helpers/polyphase.py`, lines 78-90), `rows` being the
first dimension of the array. -/
def recompose (poly : List (List K)) (rows : ℕ) : List K :=
  let n := poly.length
  (List.range n).foldl (fun out ind => (List.range (rows * n)).map fun j =>
    if j % n = ind then (poly.getD ind []).getD (j / n) 0 else out.getD j 0)
    (List.replicate (rows * n) 0)

/-- Sum of the convolutions of the components (`filter_helpers.py`, lines 551-556), for
components of positive length. -/
def accumulate (poly bpoly : List (List K)) (len : ℕ) : List K :=
  (List.range poly.length).foldl (fun temp n =>
    (List.range len).map fun k =>
      temp.getD k 0 + (fullConv (bpoly.getD n []) (poly.getD n [])).getD k 0)
    (List.replicate len 0)

/-- `_filter_and_downsample` with `polyphase=True` (`filter_helpers.py`, lines 537-561). -/
def downsample (x b : List K) (D : ℕ) : Except Err (List K) :=
  match decompose x D false, decompose b D true with
  | .ok (poly, _), .ok (bpoly, _) =>
    let half := (b.length - 1) / 2
    let len := (poly.getD 0 []).length + (bpoly.getD 0 []).length - 1
    .ok (pySlice (accumulate poly bpoly len) (half / D : ℕ) ((-(half : ℤ)) / (D : ℤ)))
  | .error e, _ => .error e
  | _, .error e => .error e

/-- `_filter_and_downsample` with `polyphase=False` (`filter_helpers.py`, lines 562-566) for
an already filtered signal: `y[::D]`. -/
def everyNth (y : List K) (D : ℕ) : List K :=
  (List.range ((y.length + D - 1) / D)).map fun k => y.getD (k * D) 0

/-- `_filter_and_upsample` with `polyphase=True` (`filter_helpers.py`, lines 604-636). -/
def upsample (x b : List K) (U : ℕ) : Except Err (List K) :=
  match decompose b U false with
  | .ok (bpoly0, padding) =>
    let half := (b.length - 1) / 2
    let bpoly := bpoly0.map fun c => c.map fun v => v * (U : K)
    let rows := x.length + (bpoly.getD 0 []).length - 1
    let new := recompose ((List.range U).map fun ind => fullConv (bpoly.getD ind []) x) rows
    if padding = U then .ok (pySlice new half (-(half : ℤ)))
    else .ok (pySlice new ((half : ℤ) + padding) (-(half : ℤ) + padding))
  | .error e => .error e

end Verif.Polyphase

import Verif.Model.SignalData
import Mathlib.Data.Rat.Floor

/-!
# Model of `reverb_time` and of the check of its argument `ir_start`

`room_acoustics/room_acoustics.py: reverb_time` (lines 34-137), `_check_ir_start_reverb`
(lines 544-593), `_room_acoustics.py: _reverb` (lines 17-85).

A channel is a value of some type.  What `_reverb` computes from one channel (the decay curve and the fit, see `Model/Reverb`,
`Model/AdaptiveReverb` and `Model/DecayCurve`) is a parameter that may raise.  All the bands of a
`MultiBandSignal` have the same number of channels.
-/

namespace Verif.ReverbStart

/-- A numpy array of numbers: no dimension, a vector, a matrix (rows, columns, values), more
dimensions. -/
inductive Arr
  | zero (x : ℚ)
  | one (l : List ℚ)
  | two (rows cols : ℕ) (f : ℕ → ℕ → ℚ)
  | more

/-- The argument `ir_start`: `None`, an integer (of python or numpy), a list or tuple (`none`: rows
of different lengths), an array, anything else (`float`, `bool`, `str`, ...). -/
inductive Arg
  | none
  | int (k : ℤ)
  | seq (a : Option Arr)
  | array (a : Arr)
  | other

/-- `astype(np.int_)` of one number: truncation. -/
def trunc (x : ℚ) : ℤ := if 0 ≤ x then ⌊x⌋ else ⌈x⌉

/-- Lines 558-563: conversion of sequences and check of the type; the array or integer, `none` for
`None`. -/
def normalise : Arg → Except Err (Option (ℤ ⊕ Arr))
  | .none => .ok none
  | .int k => .ok (some (.inl k))
  | .seq none => .error .valueError
  | .seq (some a) => .ok (some (.inr a))
  | .array a => .ok (some (.inr a))
  | .other => .error .assertionError

/-- `_check_ir_start_reverb` for an `ImpulseResponse` of `C` channels (lines 565-572, 591-593). -/
def checkIr (C : ℕ) (a : Arg) : Except Err (List (Option ℤ)) :=
  match normalise a with
  | .error e => .error e
  | .ok none => .ok (List.replicate C none)
  | .ok (some (.inl k)) => .ok (List.replicate C (some k))
  | .ok (some (.inr (.one l))) =>
    if l.length = C then .ok (l.map fun x => some (trunc x)) else .error .assertionError
  | .ok (some (.inr _)) => .error .assertionError

/-- `_check_ir_start_reverb` for a `MultiBandSignal` of `B` bands with `C` channels (lines
573-593): one row of integers per band.  The length of a vector is not checked. -/
def checkBands (B C : ℕ) (a : Arg) : Except Err (Option (List (List ℤ))) :=
  match normalise a with
  | .error e => .error e
  | .ok none => .ok none
  | .ok (some (.inl k)) => .ok (some (List.replicate B (List.replicate C k)))
  | .ok (some (.inr (.one l))) => .ok (some (List.replicate B (l.map trunc)))
  | .ok (some (.inr (.two rows cols f))) =>
    if rows = B ∧ cols = C then
      .ok (some ((List.range rows).map fun (b : ℕ) => (List.range cols).map fun (c : ℕ) => trunc (f b c)))
    else .error .assertionError
  | .ok (some (.inr _)) => .error .assertionError

variable {T R : Type}

/-- `_reverb` (`_room_acoustics.py`, lines 17-85): the argument `ir_start` is only handed back (on
demand), the time series is used from its first sample on. -/
def reverb (estimate : T → Except Err R) (h : T) (_start : Option ℤ) : Except Err R :=
  estimate h

/-- `reverb_time` of an `ImpulseResponse` (lines 103-115), the channels given one after the other; the
list of starts has as many entries. -/
def reverbIr (estimate : T → Except Err R) (chs : List T) (a : Arg) :
    Except Err (List R) :=
  match checkIr chs.length a with
  | .error e => .error e
  | .ok st => (chs.zip st).mapM fun p => reverb estimate p.1 p.2

/-- What is passed as signal: an `ImpulseResponse`, a `MultiBandSignal` (for each band whether it is
an `ImpulseResponse`, and its channels), anything else. -/
inductive Sig (T : Type)
  | ir (chs : List T)
  | bands (l : List (Bool × List T))
  | other

/-- One value per channel, or per band and channel. -/
inductive Times (R : Type)
  | ir (l : List R)
  | bands (l : List (List R))

/-- The call for one band (lines 124-131): the row of the matrix of integers; a band that is a
plain `Signal` is refused. -/
def reverbBand (estimate : T → Except Err R) (st : Option (List (List ℤ))) (ind : ℕ)
    (b : Bool × List T) : Except Err (List R) :=
  if b.1 then
    reverbIr estimate b.2 (match st with
      | none => .none
      | some m => .array (.one ((m.getD ind []).map fun (k : ℤ) => (k : ℚ))))
  else .error .typeError

/-- `reverb_time` (lines 34-137). -/
def reverbTime (estimate : T → Except Err R) (s : Sig T) (a : Arg) : Except Err (Times R) :=
  match s with
  | .ir chs =>
    match reverbIr estimate chs a with
    | .error e => .error e
    | .ok v => .ok (.ir v)
  | .bands l =>
    match checkBands l.length ((l.getD 0 (true, [])).2.length) a with
    | .error e => .error e
    | .ok st =>
      if l = [] then .error .indexError
      else
        match l.zipIdx.mapM fun p => reverbBand estimate st p.2 p.1 with
        | .error e => .error e
        | .ok v => .ok (.bands v)
  | .other => .error .typeError

end Verif.ReverbStart

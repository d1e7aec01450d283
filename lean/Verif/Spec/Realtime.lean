import Mathlib.Algebra.BigOperators.Group.Finset.Basic
import Mathlib.Algebra.Ring.Defs

/-!
# Vocabulary for sample-by-sample (realtime) filters

The observable behaviour of a `RealtimeFilter` object
(`dsptoolbox/classes/realtime_filter.py`, lines 1-45) is the sequence of values
returned (or exceptions raised) by `process_sample` for an arbitrary history of
calls of `process_sample`, `reset_state` and `set_n_channels`.
-/

namespace Verif

/-- Exceptions that python code raises and that are observable. -/
inductive Err
  | indexError
  | valueError
  | assertionError
  | attributeError
  | typeError
  | zeroDivision
  | notImplemented
  deriving DecidableEq, Repr

/-- The calls a user may make on a realtime filter object. -/
inductive Op (K : Type)
  /-- `process_sample(x, channel)` -/
  | sample (x : K) (ch : ℕ)
  /-- `reset_state()` -/
  | reset
  /-- `set_n_channels(n)` -/
  | setChannels (n : ℕ)

/-- A realtime filter object: its internal state and its methods.
`process` returns the value (or exception) together with the state left behind,
also when an exception is raised. `O` is the type of the returned values (usually `K`). -/
structure RTFilter (K : Type) (O : Type := K) where
  State : Type
  init : State
  setChannels : State → ℕ → State
  reset : State → State
  process : State → K → ℕ → Except Err O × State

namespace RTFilter

variable {K O : Type} (F : RTFilter K O)

/-- State after one more call. -/
def exec (s : F.State) : Op K → F.State
  | .sample x ch => (F.process s x ch).2
  | .reset => F.reset s
  | .setChannels n => F.setChannels s n

/-- State after a history of calls (oldest call first) on a new object. -/
def after (h : List (Op K)) : F.State := h.foldl F.exec F.init

/-- What the call `process_sample(x, ch)` returns after the history `h`. -/
def answer (h : List (Op K)) (x : K) (ch : ℕ) : Except Err O :=
  (F.process (F.after h) x ch).1

/-- Observation of one call for channel `ch`: resets and channel changes clear
the log, an accepted sample on `ch` puts (input, output) in front, samples on
other channels and rejected calls leave it unchanged. -/
def observe (ch : ℕ) (p : F.State × List (K × O)) (op : Op K) : F.State × List (K × O) :=
  (F.exec p.1 op,
    match op with
    | .sample x c =>
        if c = ch then
          match (F.process p.1 x c).1 with
          | .ok y => (x, y) :: p.2
          | .error _ => p.2
        else p.2
    | .reset => []
    | .setChannels _ => [])

/-- The pairs (input, output) of the accepted samples of channel `ch` since the
last reset or channel change, most recent first. -/
def log (ch : ℕ) (h : List (Op K)) : List (K × O) :=
  (h.foldl (F.observe ch) (F.init, [])).2

end RTFilter

/-- Number of channels configured by a history (a new object has one). -/
def nChannels {K : Type} (h : List (Op K)) : ℕ :=
  h.foldl (fun n op => match op with
    | .setChannels m => m
    | _ => n) 1

/-- Inputs sent to channel `ch` since the last reset or channel change, most
recent first; calls on channels that do not exist are ignored.  This is defined
from the calls alone (no filter involved). -/
def pastInputs {K : Type} (ch : ℕ) (h : List (Op K)) : List K :=
  (h.foldl (fun (p : ℕ × List K) op => match op with
    | .sample x c => (p.1, if c = ch ∧ c < p.1 then x :: p.2 else p.2)
    | .reset => (p.1, [])
    | .setChannels m => (m, [])) (1, [])).2

/-- Inner product of the coefficient list `b` with the list `xs` of most recent
values (`xs` is continued with zeros): `∑ i, b[i] * xs[i]`. With `xs` = current
and previous inputs this is the convolution sum `∑ i, b[i] * x[n - i]`. -/
def tapSum {K : Type} [Semiring K] (b xs : List K) : K :=
  ∑ i ∈ Finset.range b.length, b.getD i 0 * xs.getD i 0

end Verif

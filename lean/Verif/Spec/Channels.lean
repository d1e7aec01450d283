import Verif.Spec.Realtime

/-!
# Realtime filters that keep one independent state column per channel

Most realtime filters of the toolbox store a two-dimensional array `state` of shape
(rows, channels) and `process_sample(x, channel)` reads and writes column `channel`
only.  `lift` turns the behaviour on one column into the complete object:
`set_n_channels` allocates fresh zero columns, `reset_state` zeroes all columns and
a channel that does not exist raises IndexError before anything is changed.
-/

namespace Verif

/-- Behaviour on one channel: the fresh column and the effect of one sample
(returned value, new column). -/
structure Column (K : Type) (O : Type := K) where
  Col : Type
  fresh : Col
  step : Col → K → O × Col

namespace Column

variable {K O : Type}

/-- The realtime filter object with one column per channel. -/
def lift (C : Column K O) : RTFilter K O where
  State := ℕ × (ℕ → C.Col)
  init := (1, fun _ => C.fresh)
  setChannels := fun _ n => (n, fun _ => C.fresh)
  reset := fun s => (s.1, fun _ => C.fresh)
  process := fun s x ch =>
    if ch < s.1 then
      (.ok (C.step (s.2 ch) x).1,
        (s.1, fun c => if c = ch then (C.step (s.2 ch) x).2 else s.2 c))
    else (.error .indexError, s)

/-- Column after the inputs `xs` (most recent first). -/
def colAfter (C : Column K O) : List K → C.Col
  | [] => C.fresh
  | x :: xs => (C.step (C.colAfter xs) x).2

/-- Value returned for input `x` after the inputs `xs` (most recent first). -/
def out (C : Column K O) (xs : List K) (x : K) : O := (C.step (C.colAfter xs) x).1

/-- Values returned so far, most recent first. -/
def outs (C : Column K O) : List K → List O
  | [] => []
  | x :: xs => C.out xs x :: C.outs xs

end Column

/-- `set_n_channels` with `assert n_channels > 0`: asking for zero channels raises and
leaves the object as it was. -/
def RTFilter.positiveChannels {K O : Type} (F : RTFilter K O) : RTFilter K O :=
  { F with setChannels := fun s n => if n = 0 then s else F.setChannels s n }

/-- A history without the rejected calls `set_n_channels(0)`. -/
def dropZeroChannels {K : Type} (h : List (Op K)) : List (Op K) :=
  h.filter fun op => match op with
    | .setChannels 0 => false
    | _ => true

end Verif

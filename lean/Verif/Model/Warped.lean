import Verif.Spec.Channels
import Mathlib.Algebra.Field.Defs

/-!
# Model of `WarpedFIR`, `WarpedIIR` (`dsptoolbox/classes/warped_filters.py`)

A column of `buffer` is a function on row indices; rows `0 .. N-1` exist.
-/

namespace Verif.Warped

variable {K : Type} [Field K]

/-- Variables of the loop of `process_sample` (`warped_filters.py`, lines 86-104): the
column, `residue` and `output`. -/
structure Loop (K : Type) where
  col : ℕ → K
  residue : K
  output : K

/-- Body of the loop for index `nn` (`warped_filters.py`, lines 93-103). -/
def body (b : List K) (w : K) (nn : ℕ) (t : Loop K) : Loop K :=
  let newResidue := (t.col (nn + 1) - t.residue) * w + t.col nn
  { col := fun r => if r = nn then t.residue else t.col r
    residue := newResidue
    output := if nn + 1 < b.length then t.output + newResidue * b.getD (nn + 1) 0 else t.output }

/-- The loop `for nn in range(n)`. -/
def loop (b : List K) (w : K) (t : Loop K) : ℕ → Loop K
  | 0 => t
  | n + 1 => body b w n (loop b w t n)

/-- `WarpedFIR.process_sample` on one column (`warped_filters.py`, lines 86-108), with
`N` rows; the last statement writes the last row. -/
def step (b : List K) (w : K) (N : ℕ) (col : ℕ → K) (x : K) : K × (ℕ → K) :=
  let t := loop b w ⟨col, x, x * b.getD 0 0⟩ (N - 1)
  (t.output, fun r => if r = N - 1 then t.residue else t.col r)

/-- `WarpedFIR(b, w, fs)` (`warped_filters.py`, lines 51-57, 78-82): `N = len(b)`;
`set_n_channels` asserts a positive number.  The assertion `|w| < 1` only restricts
`w`; `b` is taken to be non-empty. -/
def firColumn (b : List K) (w : K) : Column K :=
  ⟨ℕ → K, fun _ => 0, step b w b.length⟩

/-- The `WarpedFIR` object. -/
def fir (b : List K) (w : K) : RTFilter K := (firColumn b w).lift.positiveChannels

/-- The loop of `__compute_sigmas` (`warped_filters.py`, lines 224-232) runs from the
last coefficient to the first; on the list `[a_i, ..., a_{N-1}]` (with `i ≥ 1`) it
yields `S` and the entries `sigmas[i+1:]` before the sign change. -/
def sigmaLoop (w : K) : List K → K × List K
  | [] => (0, [])
  | [a] => (a, [w * a])
  | a :: as =>
    let r := sigmaLoop w as
    let S := a - w * r.1
    (S, (w * S + r.1) :: r.2)

/-- `__compute_sigmas` (`warped_filters.py`, lines 217-239) for the normalised
coefficients: `sigmas[0]` and `sigmas[1:]`.  For a single coefficient the loop does not
run and `sigmas[1] = a[0]`. -/
def sigmas (w : K) (a : List K) : K × List K :=
  match a with
  | [] => (0, [])
  | [a0] => (1 / (1 - w * a0), [-a0])
  | _ :: as =>
    let r := sigmaLoop w as
    (1 / (1 - w * r.1), (r.1 :: r.2).map fun s => -s)

/-- `sigmas[1:] @ buffer[:len(sigmas)-1, channel]` (`warped_filters.py`, line 243). -/
def dot (col : ℕ → K) : List K → ℕ → K
  | [], _ => 0
  | s :: ss, i => s * col i + dot col ss (i + 1)

/-- `WarpedIIR.process_sample` on one column (`warped_filters.py`, lines 241-246). -/
def iirStep (b : List K) (w : K) (N : ℕ) (sg : K × List K) (col : ℕ → K) (x : K) :
    K × (ℕ → K) :=
  step b w N col ((x + dot col sg.2 0) * sg.1)

/-- `WarpedIIR(b, a, w, fs)` (`warped_filters.py`, lines 181-197): normalisation by
`a[0]`, `N = max(len(a), len(b))`. -/
def iirColumn (b a : List K) (w : K) : Column K :=
  ⟨ℕ → K, fun _ => 0,
    iirStep (b.map (· / a.getD 0 0)) w (max a.length b.length)
      (sigmas w (a.map (· / a.getD 0 0)))⟩

/-- The `WarpedIIR` object. -/
def iir (b a : List K) (w : K) : RTFilter K := (iirColumn b a w).lift.positiveChannels

/-- `__process_time_data_vector` on one channel (`warped_filters.py`, lines 131-137):
samples (oldest first) sent one by one to `process_sample`. -/
def processVector (F : RTFilter K) (ch : ℕ) : F.State → List K → List (Except Err K) × F.State
  | s, [] => ([], s)
  | s, x :: xs =>
    ((F.process s x ch).1 :: (processVector F ch (F.process s x ch).2 xs).1,
      (processVector F ch (F.process s x ch).2 xs).2)

/-- All channels one after the other (`warped_filters.py`, lines 134-137). -/
def processChannels (F : RTFilter K) : F.State → ℕ → List (List K) →
    List (List (Except Err K)) × F.State
  | s, _, [] => ([], s)
  | s, ch, xs :: rest =>
    ((processVector F ch s xs).1 :: (processChannels F (processVector F ch s xs).2 (ch + 1) rest).1,
      (processChannels F (processVector F ch s xs).2 (ch + 1) rest).2)

/-- `filter_signal` (`warped_filters.py`, lines 110-129) on a signal given by its
channels (equal sampling rates): the buffer is copied, replaced by a fresh one for the
channels of the signal, and put back at the end. -/
def filterSignal (F : RTFilter K) (s : F.State) (channels : List (List K)) :
    List (List (Except Err K)) × F.State :=
  let prior := s
  let r := processChannels F (F.setChannels s channels.length) 0 channels
  (r.1, prior)

end Verif.Warped

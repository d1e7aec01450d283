import Verif.Spec.Realtime

/-!
# Model of `FIRFilter` (`dsptoolbox/classes/fir_filter_realtime.py`, lines 11-70)
-/

namespace Verif.FIRFilter

variable {K : Type} [Semiring K]

/-- Attributes `state` (rows × channels, all rows below `order`),
`current_state_ind` and the number of columns
(`fir_filter_realtime.py`, lines 52-54). -/
structure State (K : Type) where
  nCh : ℕ
  buf : ℕ → ℕ → K
  ind : ℕ → ℕ

/-- `set_n_channels` (`fir_filter_realtime.py`, lines 52-54): new zero buffers and
zero write indices. -/
def setChannels (_ : State K) (n : ℕ) : State K := ⟨n, fun _ _ => 0, fun _ => 0⟩

/-- `reset_state` (`fir_filter_realtime.py`, lines 56-57): the buffer is zeroed, the
write indices keep their values. -/
def reset (s : State K) : State K := { s with buf := fun _ _ => 0 }

/-- The loop of `process_sample` (`fir_filter_realtime.py`, lines 64-66): for
`i = 0, ..., n-1`, `y += state[(w - i) % order, ch] * b[i + 1]`.  The python
modulo of a possibly negative number is the integer `%` (result in `[0, order)`). -/
def accumulate (b : List K) (order : ℕ) (buf : ℕ → ℕ → K) (w ch : ℕ) (y : K) : ℕ → K
  | 0 => y
  | n + 1 => accumulate b order buf w ch y n +
      buf (((w : ℤ) - (n : ℤ)) % (order : ℤ)).toNat ch * b.getD (n + 1) 0

/-- `process_sample` (`fir_filter_realtime.py`, lines 59-70).  IndexError when the
channel does not exist (line 63) and, for `order = 0`, when the empty buffer is
written (line 68; `np.int64 % 0` gives 0 with a warning). Negative channel numbers
(numpy wraps them) are not modelled. -/
def process (b : List K) (s : State K) (x : K) (ch : ℕ) : Except Err K × State K :=
  let order := b.length - 1
  if s.nCh ≤ ch then (.error .indexError, s)
  else
    let y := accumulate b order s.buf (s.ind ch) ch (b.getD 0 0 * x) order
    if order = 0 then (.error .indexError, s)
    else
      let w := (s.ind ch + 1) % order
      (.ok y,
        { s with
          buf := fun r c => if r = w ∧ c = ch then x else s.buf r c
          ind := fun c => if c = ch then w else s.ind c })

/-- The object created by `FIRFilter(b)` (`fir_filter_realtime.py`, lines 30-32, one
channel).  `b` is taken to be non-empty (an empty array makes `np.zeros` raise). -/
def filter (b : List K) : RTFilter K where
  State := State K
  init := ⟨1, fun _ _ => 0, fun _ => 0⟩
  setChannels := setChannels
  reset := reset
  process := process b

end Verif.FIRFilter

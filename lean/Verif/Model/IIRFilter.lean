import Verif.Spec.Realtime
import Mathlib.Algebra.Field.Defs

/-!
# Model of `IIRFilter` (`dsptoolbox/classes/iir_filter_realtime.py`, lines 9-66)
-/

namespace Verif.IIRFilter

variable {K : Type} [Field K]

/-- `b /= a[0]` and `a /= a[0]` (`iir_filter_realtime.py`, lines 27-28).  The division
is done in place, so these are also the new contents of the caller's arrays.
Division by zero (numpy: inf/nan with a warning) is excluded by hypothesis in the
theorems. -/
def normalise (b a : List K) : List K × List K :=
  (b.map (· / a.getD 0 0), a.map (· / a.getD 0 0))

/-- `np.pad(v, (0, n - len(v)))` (`iir_filter_realtime.py`, lines 30-31). -/
def padTo (n : ℕ) (v : List K) : List K := v ++ List.replicate (n - v.length) 0

/-- Attribute `order` (`iir_filter_realtime.py`, line 29). -/
def order (b a : List K) : ℕ := max b.length a.length - 1

/-- Stored coefficients (`iir_filter_realtime.py`, lines 30-31). -/
def coeffs (b a : List K) : List K × List K :=
  (padTo (order b a + 1) (normalise b a).1, padTo (order b a + 1) (normalise b a).2)

/-- Attribute `state` with its number of columns (`iir_filter_realtime.py`, line 54). -/
structure State (K : Type) where
  nCh : ℕ
  buf : ℕ → ℕ → K

/-- `set_n_channels` (`iir_filter_realtime.py`, lines 53-54). -/
def setChannels (_ : State K) (n : ℕ) : State K := ⟨n, fun _ _ => 0⟩

/-- `reset_state` (`iir_filter_realtime.py`, lines 56-57). -/
def reset (s : State K) : State K := { s with buf := fun _ _ => 0 }

/-- One array write `state[r, c] = v`. -/
def write (buf : ℕ → ℕ → K) (r c : ℕ) (v : K) : ℕ → ℕ → K :=
  fun r' c' => if r' = r ∧ c' = c then v else buf r' c'

/-- The loop `for i in range(n)` (`iir_filter_realtime.py`, lines 61-64), writing the
buffer in place, one row after the other. -/
def loop (b a : List K) (x y : K) (ch : ℕ) (buf : ℕ → ℕ → K) : ℕ → ℕ → ℕ → K
  | 0 => buf
  | n + 1 =>
    let buf' := loop b a x y ch buf n
    write buf' n ch (x * b.getD (n + 1) 0 - y * a.getD (n + 1) 0 + buf' (n + 1) ch)

/-- `process_sample` (`iir_filter_realtime.py`, lines 59-66) with stored coefficients
`b`, `a` of length `order + 1`.  IndexError (line 60) when there is no state row or
the channel does not exist.  Negative channel numbers are not modelled. -/
def process (b a : List K) (order : ℕ) (s : State K) (x : K) (ch : ℕ) :
    Except Err K × State K :=
  if order = 0 ∨ s.nCh ≤ ch then (.error .indexError, s)
  else
    let y := b.getD 0 0 * x + s.buf 0 ch
    let buf := loop b a x y ch s.buf (order - 1)
    let last := x * b.getD (b.length - 1) 0 - y * a.getD (a.length - 1) 0
    (.ok y, { s with buf := write buf (order - 1) ch last })

/-- The object created by `IIRFilter(b, a)` (`iir_filter_realtime.py`, lines 27-33). -/
def filter (b a : List K) : RTFilter K where
  State := State K
  init := ⟨1, fun _ _ => 0⟩
  setChannels := setChannels
  reset := reset
  process := process (coeffs b a).1 (coeffs b a).2 (order b a)

end Verif.IIRFilter

import Verif.Model.SignalData

/-!
# Model of the calls that work on the memory of the caller's arrays

A heap maps addresses to the content of numpy arrays.  `np.atleast_2d`, `squeeze`, `[..., None]`,
`.T`, `np.real` and `np.imag` return views: they keep the address.  Augmented assignments
(`/=`, `*=`, `**=`) write to the address.  Everything that is not a numpy array (a list, a tuple)
is copied to a fresh address by `np.atleast_2d`.
-/

namespace Verif.Memory

open Verif.SignalData

variable {K : Type} [Field K] [LinearOrder K]

/-- Two-dimensional (possibly complex) arrays in memory. -/
abbrev Heap (K : Type) := ℕ → Input K

/-- `x /= m` for the whole array, complex parts included. -/
def divide (x : Input K) (m : K) : Input K :=
  ⟨x.rows, x.cols, fun r c => x.re r c / m, x.im.map fun f r c => f r c / m⟩

/-- Construction of a signal, or assignment to `time_data`, from the array at address `a`
(`classes/signal.py`, lines 253-301): outcome and heap.  The stored data is a view of the array.
In place division of an array of integers (`float = false`) raises a TypeError. -/
def signalFromArray (h : Heap K) (a : ℕ) (float constrain : Bool) : Option Err × Heap K :=
  match standardForm (h a) with
  | .error e => (some e, h)
  | .ok y =>
    if constrain then
      if y.rows = 0 ∨ y.cols = 0 then (some .valueError, h)
      else if peak y > 1 then
        if float then (none, Function.update h a (divide (h a) (peak y)))
        else (some .typeError, h)
      else (none, h)
    else (none, h)

/-- The data of a signal built from the array at address `a`: what is in memory now. -/
def signalData (h : Heap K) (a : ℕ) : Except Err (Input K) := standardForm (h a)

/-- Vectors in memory. -/
abbrev VHeap (K : Type) := ℕ → List K

/-- The first two lines of `IIRFilter.__init__` (`classes/iir_filter_realtime.py`, lines 27-28) for
arrays of floats: `b /= a[0]; a /= a[0]`. -/
def iirInit (h : VHeap K) (b a : ℕ) : VHeap K :=
  let h1 := Function.update h b ((h b).map (· / (h a).getD 0 0))
  Function.update h1 a ((h1 a).map (· / (h1 a).getD 0 0))

/-- `IIRFilter.from_filter` (lines 36-53): `get_coefficients` returns copies, i.e. arrays at fresh
addresses `p` and `q`. -/
def iirFromFilter (h : VHeap K) (b a p q : ℕ) : VHeap K :=
  iirInit (Function.update (Function.update h p (h b)) q (h a)) p q

/-- `WarpedIIR.__init__` (`classes/warped_filters.py`, lines 188-189): `self.b = b / a[0]` makes new
arrays at fresh addresses `p` and `q`. -/
def warpedInit (h : VHeap K) (b a p q : ℕ) : VHeap K :=
  Function.update (Function.update h p ((h b).map (· / (h a).getD 0 0))) q
    ((h a).map (· / (h a).getD 0 0))

/-- `_get_window_envelope` (`standard/_standard_backend.py`, lines 408-427): the envelope and the
heap; `w` is the address of the window. -/
def windowEnvelope (h : VHeap K) (w total step frames : ℕ) (squared : Bool) : List K × VHeap K :=
  let h1 := if squared then Function.update h w ((h w).map (· ^ 2)) else h
  ((List.range total).map fun n => ∑ i ∈ Finset.range frames,
    if i * step ≤ n then (h1 w).getD (n - i * step) 0 else 0, h1)

/-- `_reconstruct_framed_signal` (`standard/_framed_signal_representation.py`, lines 104-129) as far
as memory is concerned: one frame at address `f` and the window at address `w`. -/
def reconstructMemory (h : VHeap K) (f w : ℕ) : VHeap K :=
  let h1 := Function.update h f (List.zipWith (· * ·) (h f) (h w))
  Function.update h1 w ((h1 w).map (· ^ 2))

end Verif.Memory

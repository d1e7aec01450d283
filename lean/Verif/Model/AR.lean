import Verif.Spec.Realtime
import Mathlib.Algebra.Order.Field.Basic
import Mathlib.Algebra.BigOperators.Group.Finset.Basic
import Mathlib.Logic.Function.Basic

/-!
# Model of the autoregressive estimators

`helpers/ar_estimation.py`, for one channel (every operation of the code acts on all
channels separately; the recursion of Levinson and Durbin aborts if one of them aborts).
Arrays that are updated in place are functions of the index.
-/

namespace Verif.AR

variable {K : Type} [Field K] [LinearOrder K]

/-- One pass of the symmetric in-place update (`ar_estimation.py`, lines 54-61). -/
def swapStep (p : ℕ) (k : K) (ar : ℕ → K) (lag : ℕ) : ℕ → K :=
  let rev := p - lag - 1
  let save := ar lag
  let ar1 := Function.update ar lag (save + k * ar rev)
  if lag ≠ rev then Function.update ar1 rev (ar1 rev + k * save) else ar1

/-- Update of the coefficients (`ar_estimation.py`, lines 48-61). -/
def newCoeffs (p : ℕ) (k : K) (ar : ℕ → K) : ℕ → K :=
  if p = 0 then Function.update ar p k
  else (List.range ((p + 1) / 2)).foldl (swapStep p k) (Function.update ar p k)

/-- The sum in the numerator of the reflection coefficient (`ar_estimation.py`, lines
36-41). -/
def reflSum (c ar : ℕ → K) (p : ℕ) : K :=
  (List.range p).foldl (fun q lag => q + ar lag * c (p - lag - 1)) (c p)

/-- Body of the loop over the orders (`ar_estimation.py`, lines 34-61); `c` is the
autocorrelation without lag 0.  With a prediction error of zero the code continues with
`nan`; this is represented by an error. -/
def step (c : ℕ → K) (s : (ℕ → K) × K) (p : ℕ) : Except Err ((ℕ → K) × K) :=
  if s.2 = 0 then .error .zeroDivision
  else
    let k := -reflSum c s.1 p / s.2
    let E := s.2 * (1 - k ^ 2)
    if E ≤ 0 then .error .valueError
    else .ok (newCoeffs p k s.1, E)

/-- The loop over the orders. -/
def loop (c : ℕ → K) (r0 : K) (n : ℕ) : Except Err ((ℕ → K) × K) :=
  (List.range n).foldlM (step c) (fun _ => 0, r0)

/-- `_levison_durbin_recursion` (`ar_estimation.py`, lines 6-68): coefficients (leading 1)
and prediction error. -/
def levinson : List K → Except Err (List K × K)
  | [] => .error .indexError
  | r0 :: c =>
    match loop (fun j => c.getD j 0) r0 c.length with
    | .ok (ar, E) => .ok (1 :: (List.range c.length).map ar, E)
    | .error e => .error e

/-- Biased autocorrelation at a lag (`correlate(x, x, "full")[N - 1 + lag] / N`). -/
def autocorr (x : List K) (lag : ℕ) : K :=
  (∑ n ∈ Finset.range x.length, x.getD n 0 * x.getD (n + lag) 0) / x.length

/-- `_yw_ar_estimation` (`ar_estimation.py`, lines 98-126) for a one-dimensional array: the
slice of the correlation has `order + 1` entries or, if this is shorter, as many as the
signal has samples. -/
def yuleWalker (x : List K) (order : ℕ) : Except Err (List K × K) :=
  levinson ((List.range (min (order + 1) x.length)).map (autocorr x))

/-- State of Burg's method: coefficients, forward and backward prediction errors, `den`. -/
structure BurgState (K : Type) where
  ar : ℕ → K
  prev : ℕ → K
  f : List K
  b : List K
  den : K

/-- `a + k * b` for arrays of the same length -/
def axpy (a : List K) (k : K) (b : List K) : List K := List.zipWith (fun u v => u + k * v) a b

/-- Reflection coefficient (`ar_estimation.py`, lines 181-183). -/
def reflection (eps : K) (s : BurgState K) : K :=
  -2 * (List.zipWith (· * ·) s.b s.f).sum / (s.den + eps)

/-- Body of the loop of Burg's method (`ar_estimation.py`, lines 180-203). -/
def burgStep (eps : K) (s : BurgState K) (i : ℕ) : Except Err (BurgState K) :=
  let k := reflection eps s
  let prev := s.ar
  let ar := (List.range (i + 1)).foldl (fun ar j' =>
    Function.update ar (j' + 1) (prev (j' + 1) + k * prev (i + 1 - (j' + 1)))) s.prev
  let f := axpy s.f k s.b
  let b := axpy s.b k s.f
  match b.getLast?, f.head? with
  | some bl, some f0 =>
    .ok ⟨ar, prev, f.drop 1, b.take (b.length - 1), (1 - k ^ 2) * s.den - bl ^ 2 - f0 ^ 2⟩
  | _, _ => .error .indexError

/-- State before the loop (`ar_estimation.py`, lines 159-178). -/
def burgInit (x : List K) : BurgState K :=
  let f := x.drop 1
  let b := x.take (x.length - 1)
  ⟨fun j => if j = 0 then 1 else 0, fun j => if j = 0 then 1 else 0, f, b,
    (List.zipWith (fun u v => u ^ 2 + v ^ 2) f b).sum⟩

/-- The states after each pass. -/
def burgRun (eps : K) (x : List K) (order : ℕ) : Except Err (BurgState K) :=
  (List.range order).foldlM (burgStep eps) (burgInit x)

/-- `_burg_ar_estimation` (`ar_estimation.py`, lines 129-205): for a one-dimensional array
the coefficients have `order + 1` entries, otherwise (`multi`) one more than the array has
samples; writing beyond their end raises IndexError. -/
def burg (eps : K) (x : List K) (order : ℕ) (multi : Bool) : Except Err (List K × K) :=
  let size := if multi then x.length + 1 else order + 1
  if size < order + 1 then .error .indexError
  else match burgRun eps x order with
    | .ok s => .ok ((List.range size).map s.ar, s.den)
    | .error e => .error e

end Verif.AR

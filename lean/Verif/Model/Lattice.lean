import Verif.Spec.Channels
import Mathlib.Algebra.Field.Defs
import Mathlib.Algebra.Order.Field.Basic
import Mathlib.Algebra.BigOperators.Group.Finset.Basic
import Mathlib.Order.Interval.Finset.Nat

/-!
# Model of `LatticeLadderFilter` (`dsptoolbox/classes/lattice_ladder_filter.py`)

Coefficient vectors and state columns are functions on indices together with their
length `N`.
-/

namespace Verif.Lattice

variable {K : Type} [Field K]

/-! ### Coefficients -/

/-- Rows of the array `a_s` (`lattice_ladder_filter.py`, lines 431-438 and 511-518):
`rows top N j` is `a_s[N-1-j]`; the last row is `top`, and with `i = N-2-j`
`a_s[i, m] = (a_s[i+1, m] + k[i+1]*a_s[i+1, i-m]) / (1 - k[i+1]**2)`, where
`k[i+1] = a_s[i+1, i+1]`.  Entries with `m > i` are not used by the code. -/
def rows (top : ℕ → K) (N : ℕ) : ℕ → (ℕ → K)
  | 0 => top
  | j + 1 =>
    let i := N - 2 - j
    let r := rows top N j
    fun m => (r m + r (i + 1) * r (i - m)) / (1 - r (i + 1) ^ 2)

/-- `a_s[i, m]`. -/
def aS (top : ℕ → K) (N : ℕ) (i m : ℕ) : K := rows top N (N - 1 - i) m

/-- `k[i]` (`lattice_ladder_filter.py`, lines 431, 438, 511, 518). -/
def refl (top : ℕ → K) (N : ℕ) (i : ℕ) : K := aS top N i i

/-- The loop computing the ladder coefficients (`lattice_ladder_filter.py`, lines
440-445): after `n` passes the entries `c[L-1], ..., c[L-n]` are set. -/
def ladderLoop (b : List K) (as : ℕ → ℕ → K) : ℕ → (ℕ → K)
  | 0 => fun _ => 0
  | n + 1 =>
    let c := ladderLoop b as n
    let m := b.length - 1 - n
    fun r => if r = m then
        b.getD m 0 + ∑ i ∈ Finset.Ico (m + 1) b.length, c i * as (i - 1) (i - 1 - m)
      else c r

/-! ### Filtering -/

/-- Variables of the FIR loop. -/
structure FIRLoop (K : Type) where
  st : ℕ → K
  xo : K
  s0 : K

/-- Body of the FIR lattice loop (`lattice_ladder_filter.py`, lines 279-282). -/
def firBody (k : ℕ → K) (i : ℕ) (t : FIRLoop K) : FIRLoop K :=
  let s1 := -t.xo * k i + t.st i
  { xo := t.xo - t.st i * k i
    st := fun r => if r = i then t.s0 else t.st r
    s0 := s1 }

/-- `for i_k in range(n)`. -/
def firLoop (k : ℕ → K) (t : FIRLoop K) : ℕ → FIRLoop K
  | 0 => t
  | n + 1 => firBody k n (firLoop k t n)

/-- `__lattice_filtering_fir_sample` on one column (`lattice_ladder_filter.py`, lines
275-283). -/
def firStep (k : ℕ → K) (N : ℕ) (st : ℕ → K) (x : K) : K × (ℕ → K) :=
  let t := firLoop k ⟨st, x, x⟩ N
  (t.xo, t.st)

/-- Variables of the IIR loop. -/
structure IIRLoop (K : Type) where
  st : ℕ → K
  x : K
  low : K

/-- Body of the lattice-ladder loop for index `i` (`lattice_ladder_filter.py`, lines
267-271). -/
def iirBody (k c : ℕ → K) (N i : ℕ) (t : IIRLoop K) : IIRLoop K :=
  let x := t.x + t.st i * k i
  let s := x * -(k i) + t.st i
  { x := x
    st := if i ≠ N - 1 then fun r => if r = i + 1 then s else t.st r else t.st
    low := t.low + s * c (i + 1) }

/-- `for i in range(n - 1, -1, -1)`. -/
def iirLoop (k c : ℕ → K) (N : ℕ) : ℕ → IIRLoop K → IIRLoop K
  | 0, t => t
  | i + 1, t => iirLoop k c N i (iirBody k c N i t)

/-- `__lattice_ladder_filtering_iir_sample` on one column
(`lattice_ladder_filter.py`, lines 259-273). -/
def iirStep (k c : ℕ → K) (N : ℕ) (st : ℕ → K) (x : K) : K × (ℕ → K) :=
  let t := iirLoop k c N N ⟨st, x, 0⟩
  (t.x * c 0 + t.low, fun r => if r = 0 then t.x else t.st r)

/-- One second-order section with its coefficients `k[section, :]`, `c[section, :]`. -/
structure Section (K : Type) where
  k0 : K
  k1 : K
  c0 : K
  c1 : K
  c2 : K

/-- The loop body for one section of `__lattice_ladder_filtering_sos_sample`
(`lattice_ladder_filter.py`, lines 244-256); `s` is `state[section, :, channel]`. -/
def sosBody (S : Section K) (s : K × K) (x : K) : K × (K × K) :=
  let x1 := x + s.2 * S.k1
  let g2 := x1 * -S.k1 + s.2
  let low1 := 0 + g2 * S.c2
  let x0 := x1 + s.1 * S.k0
  let g1 := x0 * -S.k0 + s.1
  let low2 := low1 + g1 * S.c1
  (x0 * S.c0 + low2, (x0, g1))

/-- `__lattice_ladder_filtering_sos_sample` (`lattice_ladder_filter.py`, lines
242-257): the sections in order; the state column is the list of section states. -/
def sosStep : List (Section K) → List (K × K) → K → K × List (K × K)
  | S :: Ss, s :: ss, x =>
    let r := sosBody S s x
    let r' := sosStep Ss ss r.1
    (r'.1, r.2 :: r'.2)
  | _, ss, x => (x, ss)

/-! ### Objects -/

/-- Lattice FIR object (`lattice_ladder_filter.py`, lines 150-160). -/
def firColumn (k : ℕ → K) (N : ℕ) : Column K := ⟨ℕ → K, fun _ => 0, firStep k N⟩

/-- Lattice-ladder IIR object. -/
def iirColumn (k c : ℕ → K) (N : ℕ) : Column K := ⟨ℕ → K, fun _ => 0, iirStep k c N⟩

/-- Object with second-order sections. -/
def sosColumn (Ss : List (Section K)) : Column K :=
  ⟨List (K × K), List.replicate Ss.length (0, 0), sosStep Ss⟩

/-- `from_filter` for an FIR filter with taps `b` (`lattice_ladder_filter.py`, lines
140-148, 485-519): the taps are divided by `b[0]`; fewer than two taps make `k[-1]`
raise IndexError; reflection coefficients outside `]-1, 1[` raise AssertionError.
(`b[0] = 0` gives inf/nan in python, here division by zero; excluded in the theorems.) -/
def fromFIR [LinearOrder K] (b : List K) : Except Err (RTFilter K) :=
  let N := b.length - 1
  if b.length < 2 then .error .indexError
  else
    let bn := b.map (· / b.getD 0 0)
    let k := refl (fun m => - bn.getD (m + 1) 0) N
    if ∀ i < N, |k i| < 1 then .ok (firColumn k N).lift.positiveChannels
    else .error .assertionError

/-- `from_filter` for an IIR filter given by `b`, `a` (`lattice_ladder_filter.py`, lines
136-138, 400-446): a numerator longer than the denominator runs out of `a_s`
(IndexError), a shorter one fails the assertion of the constructor (lines 93-96).
`len(a) ≥ 2`.  No normalisation by `a[0]`. -/
def fromIIR (b a : List K) : Except Err (RTFilter K) :=
  let N := a.length - 1
  let top : ℕ → K := fun m => - a.getD (m + 1) 0
  if a.length < b.length then .error .indexError
  else if b.length < a.length then .error .assertionError
  else .ok (iirColumn (refl top N) (ladderLoop b (aS top N) b.length) N).lift.positiveChannels

/-- One row `[b0, b1, b2, a0, a1, a2]` of an `sos` array. -/
structure Sos (K : Type) where
  b0 : K
  b1 : K
  b2 : K
  a0 : K
  a1 : K
  a2 : K

/-- `_get_lattice_ladder_coefficients_iir_sos` on one row
(`lattice_ladder_filter.py`, lines 471-482) after normalisation. -/
def sectionOf (s : Sos K) : Section K :=
  let k1 := -s.a2
  let a12 := -s.a1
  let k0 := (a12 + k1 * a12) / (1 - k1 ^ 2)
  let c2 := s.b2
  let c1 := s.b1 + c2 * a12
  { k0 := k0, k1 := k1, c2 := c2, c1 := c1, c0 := s.b0 + c1 * k0 + c2 * k1 }

/-- All entries of a row divided by given numbers. -/
def Sos.div (s : Sos K) (d : Fin 6 → K) : Sos K :=
  ⟨s.b0 / d 0, s.b1 / d 1, s.b2 / d 2, s.a0 / d 3, s.a1 / d 4, s.a2 / d 5⟩

/-- `if not np.all(sos[:, 3] == 1.0): sos /= sos[:, 3]`
(`lattice_ladder_filter.py`, lines 468-469).  numpy broadcasts the vector of length
`n_sections` along the LAST axis (length 6): allowed only for 1 or 6 sections. -/
def normaliseSos [DecidableEq K] (sos : List (Sos K)) : Except Err (List (Sos K)) :=
  if ∀ s ∈ sos, s.a0 = 1 then .ok sos
  else if sos.length = 1 then .ok (sos.map fun s => s.div fun _ => s.a0)
  else if sos.length = 6 then
    .ok (sos.map fun s => s.div fun j => (sos.map Sos.a0).getD j 0)
  else .error .valueError

/-- `from_filter` for a filter with second-order sections
(`lattice_ladder_filter.py`, lines 131-134). -/
def fromSos [DecidableEq K] (sos : List (Sos K)) : Except Err (RTFilter K) :=
  match normaliseSos sos with
  | .error e => .error e
  | .ok sos' => .ok (sosColumn (sos'.map sectionOf)).lift.positiveChannels

/-! ### Block processing -/

/-- One channel of `_lattice_filtering_fir`, `_lattice_ladder_filtering_iir` and
`_lattice_ladder_filtering_sos` (`lattice_ladder_filter.py`, lines 286-397): the same
loop bodies as the sample versions, applied to the samples (oldest first) of a block
with the state carried along; returns the filtered block and the state. -/
def block (C : Column K) : C.Col → List K → List K × C.Col
  | s, [] => ([], s)
  | s, x :: xs => ((C.step s x).1 :: (block C (C.step s x).2 xs).1, (block C (C.step s x).2 xs).2)

end Verif.Lattice

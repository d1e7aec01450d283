import Verif.Spec.Channels
import Mathlib.Algebra.Field.Defs
import Mathlib.Algebra.BigOperators.Group.Finset.Basic

/-!
# Model of `StateSpaceFilter` (`dsptoolbox/classes/state_space_filter.py`, lines 10-106)
-/

namespace Verif.StateSpace

variable {K : Type} [Field K]

/-- The matrices after `squeeze` for one input and one output and `n ≥ 2` states. -/
structure Matrices (K : Type) where
  n : ℕ
  A : ℕ → ℕ → K
  B : ℕ → K
  C : ℕ → K
  D : K

/-- `process_sample` on one column of the state (`state_space_filter.py`, lines
103-106). -/
def step (M : Matrices K) (s : ℕ → K) (u : K) : K × (ℕ → K) :=
  (∑ j ∈ Finset.range M.n, M.C j * s j + M.D * u,
    fun i => ∑ j ∈ Finset.range M.n, M.A i j * s j + M.B i * u)

/-- The filter object for given matrices (`state_space_filter.py`, lines 48-55, 96-101);
`set_n_channels` has no assertion. -/
def column (M : Matrices K) : Column K := ⟨ℕ → K, fun _ => 0, step M⟩

/-- Leading zeros of the numerator are removed by `scipy.signal.normalize` (all but the
last coefficient; the tolerance 1e-14 of scipy is 0 here). -/
def stripLeading [DecidableEq K] : List K → List K
  | [] => []
  | [b] => [b]
  | b :: bs => if b = 0 then stripLeading bs else b :: bs

/-- Zeros in front up to length `n` (`scipy.signal.tf2ss` pads the numerator in front). -/
def frontPad (n : ℕ) (b : List K) : List K := List.replicate (n - b.length) 0 ++ b

/-- The controller canonical form returned by `scipy.signal.tf2ss` for numerator `b` and
denominator `a` of the same length, `a[0] = 1`. -/
def canonical (b a : List K) : Matrices K where
  n := a.length - 1
  A := fun i j => if i = 0 then - a.getD (j + 1) 0 else if i = j + 1 then 1 else 0
  B := fun i => if i = 0 then 1 else 0
  C := fun j => b.getD (j + 1) 0 - b.getD 0 0 * a.getD (j + 1) 0
  D := b.getD 0 0

/-- `StateSpaceFilter.from_filter` (`state_space_filter.py`, lines 57-74) on the
coefficients `b`, `a` (`a[0] ≠ 0`): scipy normalises by `a[0]`, raises ValueError when
the numerator is longer than the denominator, pads it in front otherwise; with fewer
than two states the squeezed `A` has no first dimension and the constructor raises
IndexError (lines 50, 99-100). -/
def fromFilter [DecidableEq K] (b a : List K) : Except Err (RTFilter K) :=
  let b' := stripLeading (b.map (· / a.getD 0 0))
  let a' := a.map (· / a.getD 0 0)
  if a'.length < b'.length then .error .valueError
  else if a'.length ≤ 2 then .error .indexError
  else .ok (column (canonical (frontPad a'.length b') a')).lift

/-- `StateSpaceFilter.from_filter_as_sos_list` (`state_space_filter.py`, lines 76-95) on the second-order
sections of the filter (rows of six coefficients): one filter for each section. -/
def fromSections [DecidableEq K] (sos : List (List K)) : Except Err (List (RTFilter K)) :=
  sos.mapM fun row => fromFilter (row.take 3) (row.drop 3)

end Verif.StateSpace

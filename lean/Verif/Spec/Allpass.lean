import Mathlib.Algebra.BigOperators.Group.Finset.Basic
import Mathlib.Algebra.Ring.Defs
import Mathlib.Logic.Function.Iterate

/-!
# First-order allpass chains

Sequences are lists with the most recent value first.
-/

namespace Verif

variable {K : Type} [Ring K]

/-- The first-order allpass started from rest:
`u[n] = v[n-1] + w * (u[n-1] - v[n])`, i.e. the transfer function
`(z⁻¹ - w) / (1 - w z⁻¹)`. -/
def allpass (w : K) : List K → List K
  | [] => []
  | v :: vs => (vs.headD 0 + w * ((allpass w vs).headD 0 - v)) :: allpass w vs

/-- Current output of the `k`-th stage of a chain of identical allpasses fed with the
sequence `xs`. -/
def chainTap (w : K) (k : ℕ) (xs : List K) : K := ((allpass w)^[k] xs).headD 0

/-- `∑ k, b[k] * v_k[n]` with `v_k` the `k`-th stage of the allpass chain: the current
output of the FIR filter `b` in which every delay is replaced by an allpass. -/
def warpedSum (w : K) (b xs : List K) : K :=
  ∑ k ∈ Finset.range b.length, b.getD k 0 * chainTap w k xs

end Verif

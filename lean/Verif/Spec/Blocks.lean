import Verif.Spec.Realtime

/-! Streams of samples cut into blocks of fixed size. -/

namespace Verif

/-- The samples (most recent first) of a list of blocks (most recent first; inside a
block the oldest sample comes first, as in the arrays passed to `process_block`). -/
def samples {K : Type} {B : ℕ} : List (Fin B → K) → List K
  | [] => []
  | b :: bs => (List.ofFn b).reverse ++ samples bs

/-- The block of the convolution of the taps `fir` with the samples of all blocks up to
and including the block `b` that starts at the first sample of `b`. -/
def convBlock {K : Type} [Semiring K] {B : ℕ} (fir : List K) (past : List (Fin B → K))
    (b : Fin B → K) : Fin B → K :=
  fun i => tapSum fir ((samples (b :: past)).drop (B - 1 - i))

end Verif

import Mathlib.Data.Nat.Notation

/-!
# Two-dimensional arrays

A `NDArray` of shape (rows, columns).  Only the entries inside the shape mean anything, so
arrays are compared with `Mat.Same`.
-/

namespace Verif

/-- A two-dimensional array. -/
structure Mat (K : Type) where
  rows : ℕ
  cols : ℕ
  val : ℕ → ℕ → K

namespace Mat

variable {K : Type}

/-- Same shape and same entries. -/
def Same (A B : Mat K) : Prop :=
  A.rows = B.rows ∧ A.cols = B.cols ∧ ∀ r < A.rows, ∀ c < A.cols, A.val r c = B.val r c

theorem Same.refl (A : Mat K) : Same A A := ⟨rfl, rfl, fun _ _ _ _ => rfl⟩

theorem Same.symm {A B : Mat K} (h : Same A B) : Same B A :=
  ⟨h.1.symm, h.2.1.symm, fun r hr c hc => (h.2.2 r (h.1 ▸ hr) c (h.2.1 ▸ hc)).symm⟩

theorem Same.trans {A B C : Mat K} (h : Same A B) (h' : Same B C) : Same A C :=
  ⟨h.1.trans h'.1, h.2.1.trans h'.2.1,
    fun r hr c hc => (h.2.2 r hr c hc).trans (h'.2.2 r (h.1 ▸ hr) c (h.2.1 ▸ hc))⟩

/-- `A.T` -/
def T (A : Mat K) : Mat K := ⟨A.cols, A.rows, fun r c => A.val c r⟩

/-- Same shape. -/
def SameShape (A B : Mat K) : Prop := A.rows = B.rows ∧ A.cols = B.cols

instance (A B : Mat K) : Decidable (SameShape A B) := by
  unfold SameShape; exact inferInstance

/-- Entrywise function. -/
def map (f : K → K) (A : Mat K) : Mat K := ⟨A.rows, A.cols, fun r c => f (A.val r c)⟩

/-- `np.concatenate([A, B], axis=1)` for equal numbers of rows. -/
def hcat (A B : Mat K) : Mat K :=
  ⟨A.rows, A.cols + B.cols, fun r c => if c < A.cols then A.val r c else B.val r (c - A.cols)⟩

/-- `A[:, idx]` for valid indices. -/
def selectCols (A : Mat K) (idx : List ℕ) : Mat K :=
  ⟨A.rows, idx.length, fun r c => A.val r (idx.getD c 0)⟩

/-- `np.delete(A, j, axis=-1)` for a valid non-negative index. -/
def deleteCol (A : Mat K) (j : ℕ) : Mat K :=
  ⟨A.rows, A.cols - 1, fun r c => A.val r (if c < j then c else c + 1)⟩

end Mat

end Verif

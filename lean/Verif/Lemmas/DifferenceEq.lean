import Verif.Spec.DifferenceEq
import Verif.Lemmas.Realtime
import Mathlib.Algebra.BigOperators.Intervals
import Mathlib.Algebra.BigOperators.Ring.Finset
import Mathlib.Data.List.GetD
import Mathlib.Tactic.Ring
import Mathlib.Tactic.LinearCombination

/-! Helper lemmas about difference equations. -/

namespace Verif

variable {K : Type} [Field K]

theorem tapSum_swap' (a b ws : List K) :
    tapSum a ((List.range ws.length).map fun j => tapSum b (ws.drop j))
      = tapSum b ((List.range ws.length).map fun j => tapSum a (ws.drop j)) := by
  have key : ∀ (a b : List K), tapSum a ((List.range ws.length).map fun j => tapSum b (ws.drop j))
      = ∑ i ∈ Finset.range a.length, ∑ k ∈ Finset.range b.length,
          a.getD i 0 * (b.getD k 0 * ws.getD (i + k) 0) := by
    intro a b
    refine Finset.sum_congr rfl fun i _ => ?_
    rw [← Finset.mul_sum]
    congr 1
    by_cases hi : i < ws.length
    · rw [List.getD_eq_getElem _ _ (by simpa using hi)]
      simp only [List.getElem_map, List.getElem_range, tapSum]
      refine Finset.sum_congr rfl fun k _ => ?_
      congr 1
      simp [List.getD_eq_getElem?_getD]
    · rw [List.getD_eq_default _ _ (by simpa using hi)]
      refine (Finset.sum_eq_zero fun k _ => ?_).symm
      rw [List.getD_eq_default ws _ (by omega), mul_zero]
  rw [key, key, Finset.sum_comm]
  refine Finset.sum_congr rfl fun i _ => Finset.sum_congr rfl fun k _ => ?_
  rw [Nat.add_comm]; ring

omit [Field K] in
theorem drop_map_range (ws : List K) (f : List K → K) (j : ℕ) :
    ((List.range ws.length).map fun i => f (ws.drop i)).drop j
      = (List.range (ws.drop j).length).map fun i => f ((ws.drop j).drop i) := by
  apply List.ext_getElem
  · simp
  · intro i h1 h2
    simp [List.getElem_drop, List.drop_drop]

/-- A common inner signal `ws` with `x = A w`, `y = B w` gives a solution of the
difference equation. -/
theorem solvesDE_of_inner (b a ws : List K) :
    SolvesDE b a ((List.range ws.length).map fun j => tapSum a (ws.drop j))
      ((List.range ws.length).map fun j => tapSum b (ws.drop j)) := by
  refine ⟨by simp, fun j => ?_⟩
  rw [drop_map_range ws (tapSum b), drop_map_range ws (tapSum a), tapSum_swap']

/-- The difference equation determines its solution. -/
theorem solvesDE_unique (b a : List K) (ha : a.getD 0 0 ≠ 0) :
    ∀ xs ys ys' : List K, SolvesDE b a xs ys → SolvesDE b a xs ys' → ys = ys' := by
  have hne : a ≠ [] := by rintro rfl; simp at ha
  obtain ⟨a0, as, rfl⟩ := List.exists_cons_of_ne_nil hne
  intro xs
  induction xs with
  | nil =>
    intro ys ys' h h'
    rw [List.length_eq_zero_iff.1 h.1, List.length_eq_zero_iff.1 h'.1]
  | cons x xs ih =>
    intro ys ys' h h'
    cases ys with
    | nil => simp [SolvesDE] at h
    | cons y ys =>
      cases ys' with
      | nil => simp [SolvesDE] at h'
      | cons y' ys' =>
        have htail : ys = ys' := by
          refine ih ys ys' ⟨by simpa using h.1, fun j => ?_⟩ ⟨by simpa using h'.1, fun j => ?_⟩
          · simpa using h.2 (j + 1)
          · simpa using h'.2 (j + 1)
        subst htail
        have e := (h.2 0).trans (h'.2 0).symm
        simp only [List.drop_zero, tapSum_cons] at e
        have : a0 * (y - y') = 0 := by linear_combination e
        rcases mul_eq_zero.1 this with h0 | h0
        · exact absurd h0 (by simpa using ha)
        · rw [sub_eq_zero.1 h0]

end Verif

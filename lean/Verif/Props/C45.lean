import Verif.Model.Helpers
import Mathlib.Data.List.GetD
import Mathlib.Tactic.Linarith
import Mathlib.Algebra.Order.Field.Rat

/-!
# C45: the nearest-point search returns a nearest point
-/

set_option linter.unusedSectionVars false

namespace Verif.Helpers

variable {K : Type} [Field K] [LinearOrder K] [IsStrictOrderedRing K]

/-- `i` is the first index at which `l` has its smallest entry. -/
def FirstMin (l : List K) (i : ℕ) : Prop :=
  i < l.length ∧ (∀ j < l.length, l.getD i 0 ≤ l.getD j 0) ∧ ∀ j < i, l.getD i 0 < l.getD j 0

theorem argminFrom_spec (done l : List K) (best : ℕ × K) (hb : FirstMin done best.1)
    (hv : best.2 = done.getD best.1 0) :
    FirstMin (done ++ l) (argminFrom best done.length l).1 := by
  induction l generalizing done best with
  | nil => simpa [argminFrom] using hb
  | cons a l ih =>
    have hget : ∀ j < done.length, (done ++ [a]).getD j 0 = done.getD j 0 := by
      intro j hj
      rw [List.getD_append _ _ _ _ hj]
    have hlast : (done ++ [a]).getD done.length 0 = a := by
      rw [List.getD_append_right _ _ _ _ le_rfl]
      simp
    have := ih (done ++ [a]) (if a < best.2 then (done.length, a) else best)
    rw [List.append_assoc, List.singleton_append, List.length_append, List.length_singleton] at this
    unfold argminFrom
    refine this ?_ ?_
    · by_cases h : a < best.2
      · rw [if_pos h]
        refine ⟨by simp, ?_, ?_⟩
        · intro j hj
          rw [hlast]
          rcases Nat.lt_or_ge j done.length with hj' | hj'
          · rw [hget j hj']
            rw [hv] at h
            exact le_trans h.le (hb.2.1 j hj')
          · have : j = done.length := by
              simp at hj
              omega
            rw [this, hlast]
        · intro j hj
          rw [hlast, hget j hj]
          rw [hv] at h
          exact lt_of_lt_of_le h (hb.2.1 j hj)
      · rw [if_neg h]
        refine ⟨by have := hb.1; simp; omega, ?_, ?_⟩
        · intro j hj
          rw [hget _ hb.1]
          rcases Nat.lt_or_ge j done.length with hj' | hj'
          · rw [hget j hj']
            exact hb.2.1 j hj'
          · have : j = done.length := by
              simp at hj
              omega
            rw [this, hlast, ← hv]
            exact not_lt.mp h
        · intro j hj
          rw [hget _ hb.1, hget _ (lt_trans hj hb.1)]
          exact hb.2.2 j hj
    · by_cases h : a < best.2
      · rw [if_pos h, hlast]
      · rw [if_neg h, hget _ hb.1, hv]

theorem argmin_spec (l : List K) (h : l ≠ []) : ∃ i, argmin l = .ok i ∧ FirstMin l i := by
  cases l with
  | nil => exact absurd rfl h
  | cons a l =>
    refine ⟨_, rfl, ?_⟩
    have := argminFrom_spec [a] l (0, a) ⟨by simp, by simp, by simp⟩ (by simp)
    simpa using this

/-- Every query gets the first index whose entry has the smallest distance to the query. -/
theorem C45_nearest (points vector : List K) (hv : vector ≠ []) :
    ∃ idx, findNearest points vector = .ok idx ∧ idx.length = points.length ∧
      ∀ q < points.length,
        idx.getD q 0 < vector.length ∧
        (∀ j < vector.length,
          |points.getD q 0 - vector.getD (idx.getD q 0) 0| ≤ |points.getD q 0 - vector.getD j 0|) ∧
        ∀ j < idx.getD q 0,
          |points.getD q 0 - vector.getD (idx.getD q 0) 0| < |points.getD q 0 - vector.getD j 0| := by
  unfold findNearest
  induction points with
  | nil => exact ⟨[], rfl, rfl, fun q hq => absurd hq (by simp)⟩
  | cons p ps ih =>
    obtain ⟨idx, hidx, hlen, hall⟩ := ih
    obtain ⟨i, hi, hmin⟩ := argmin_spec (vector.map fun v => |p - v|) (by simpa using hv)
    refine ⟨i :: idx, ?_, by simp [hlen], ?_⟩
    · rw [List.mapM_cons, hi]
      simp only [bind, Except.bind]
      rw [hidx]
      rfl
    · have hmap : ∀ j < vector.length, (vector.map fun v => |p - v|).getD j 0 =
          |p - vector.getD j 0| := by
        intro j hj
        rw [List.getD_eq_getElem _ _ (by simpa using hj), List.getD_eq_getElem _ _ hj]
        simp
      have hil : i < vector.length := by simpa using hmin.1
      intro q hq
      cases q with
      | zero =>
        simp only [List.getD_cons_zero]
        refine ⟨hil, fun j hj => ?_, fun j hj => ?_⟩
        · have := hmin.2.1 j (by simpa using hj)
          rwa [hmap i hil, hmap j hj] at this
        · have := hmin.2.2 j hj
          rwa [hmap i hil, hmap j (lt_trans hj hil)] at this
      | succ q =>
        simp only [List.getD_cons_succ]
        exact hall q (by simpa using hq)

/-- An empty vector raises as soon as there is a query. -/
theorem C45_empty (p : K) (ps : List K) : findNearest (p :: ps) [] = .error .valueError := by
  unfold findNearest
  rw [List.mapM_cons]
  rfl

/-- Concrete case with a tie: the first of two equally near entries. -/
example : findNearest ([2, 7] : List ℚ) [1, 3, 8] = .ok [0, 2] := by decide +kernel

end Verif.Helpers

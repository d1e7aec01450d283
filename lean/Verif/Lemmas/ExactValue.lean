import Verif.Model.ExactValue
import Verif.Spec.Interpolation
import Verif.Props.C45
import Mathlib.Tactic.FieldSimp
import Mathlib.Tactic.LinearCombination

/-!
# Lemmas on the polygon and on the search in sorted lists
-/

set_option linter.unusedSectionVars false

namespace Verif.ExactValue

variable {K : Type} [Field K] [LinearOrder K] [IsStrictOrderedRing K]

theorem incr_le {f : List K} (hf : Increasing f) {i j : ℕ} (hi : i < f.length)
    (h : f.getD i 0 ≤ f.getD j 0) : i ≤ j := by
  by_contra hn
  exact absurd (hf j i (by omega) hi) (not_lt.mpr h)

theorem onPolygon_of_segment {f y : List K} (hf : Increasing f) {q v : K} {i : ℕ}
    (hi : i + 1 < f.length) (h1 : f.getD i 0 ≤ q) (h2 : q ≤ f.getD (i + 1) 0)
    (hv : v * (f.getD (i + 1) 0 - f.getD i 0) =
      y.getD i 0 * (f.getD (i + 1) 0 - q) + y.getD (i + 1) 0 * (q - f.getD i 0)) :
    OnPolygon f y q v := by
  have hpos : f.getD (i + 1) 0 - f.getD i 0 ≠ 0 :=
    (sub_pos.mpr (hf i (i + 1) (by omega) hi)).ne'
  have node : ∀ j < f.length, f.getD j 0 = q → v = y.getD j 0 := by
    intro j hj hq
    have a := incr_le hf (i := i) (j := j) (by omega) (by rw [hq]; exact h1)
    have b := incr_le hf (i := j) (j := i + 1) hj (by rw [hq]; exact h2)
    apply mul_right_cancel₀ hpos
    rw [hv]
    rcases (by omega : j = i ∨ j = i + 1) with rfl | rfl
    · rw [hq]; ring
    · rw [hq]; ring
  refine ⟨?_, node, Or.inl ⟨i, hi, h1, h2⟩⟩
  intro j hj a b
  have c := incr_le hf (i := i) (j := j + 1) (by omega) (le_trans h1 b)
  have d := incr_le hf (i := j) (j := i + 1) (by omega) (le_trans a h2)
  rcases (by omega : j = i ∨ j + 1 = i ∨ j = i + 1) with rfl | rfl | rfl
  · exact hv
  · have e : f.getD (j + 1) 0 = q := le_antisymm h1 b
    rw [node (j + 1) (by omega) e, e]; ring
  · have e : f.getD (i + 1) 0 = q := le_antisymm a h2
    rw [node (i + 1) (by omega) e, e]; ring

theorem getD_takeWhile_lt (f : List K) (q : K) :
    ∀ i < searchsorted f q, f.getD i 0 < q := by
  unfold searchsorted
  induction f with
  | nil => simp
  | cons a l ih =>
    intro i hi
    by_cases h : a < q
    · rw [List.takeWhile_cons_of_pos (by simpa using h)] at hi
      cases i with
      | zero => simpa using h
      | succ i =>
        rw [List.getD_cons_succ]
        exact ih i (by simpa using hi)
    · rw [List.takeWhile_cons_of_neg (by simpa using h)] at hi
      simp at hi

theorem searchsorted_le (f : List K) (q : K) (h : searchsorted f q < f.length) :
    q ≤ f.getD (searchsorted f q) 0 := by
  unfold searchsorted at *
  induction f with
  | nil => simp at h
  | cons a l ih =>
    by_cases ha : a < q
    · rw [List.takeWhile_cons_of_pos (by simpa using ha)] at h ⊢
      rw [List.length_cons, List.getD_cons_succ]
      exact ih (by simpa using h)
    · rw [List.takeWhile_cons_of_neg (by simpa using ha)]
      simpa using ha

theorem searchsorted_length_le (f : List K) (q : K) : searchsorted f q ≤ f.length :=
  (List.takeWhile_prefix _).length_le

theorem segment_value {a b p s q : K} (h : b - a ≠ 0) :
    ((q - a) * (s - p) / (b - a) + p) * (b - a) = p * (b - q) + s * (q - a) := by
  field_simp
  ring

theorem segment_value' {a b p s q : K} (h : b - a ≠ 0) :
    ((s - p) / (b - a) * (q - a) + p) * (b - a) = p * (b - q) + s * (q - a) := by
  field_simp
  ring

end Verif.ExactValue

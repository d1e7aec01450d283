import Verif.Model.Level
import Verif.Spec.Peak
import Mathlib.Tactic.Linarith
import Mathlib.Tactic.Positivity

/-!
# Lemmas about `Level.maxAbs`
-/

namespace Verif.Level

theorem maxAbs_nil : maxAbs [] = 0 := rfl

theorem maxAbs_cons (a : ℝ) (x : List ℝ) : maxAbs (a :: x) = max |a| (maxAbs x) := rfl

theorem maxAbs_nonneg (x : List ℝ) : 0 ≤ maxAbs x := by
  induction x with
  | nil => exact le_rfl
  | cons a x ih => rw [maxAbs_cons]; exact le_max_of_le_right ih

theorem le_maxAbs (x : List ℝ) (v : ℝ) (hv : v ∈ x) : |v| ≤ maxAbs x := by
  induction x with
  | nil => cases hv
  | cons a x ih =>
    rw [maxAbs_cons]
    rcases List.mem_cons.mp hv with h | h
    · rw [h]; exact le_max_left _ _
    · exact le_max_of_le_right (ih h)

theorem maxAbs_attained (x : List ℝ) (hx : x ≠ []) : ∃ v ∈ x, |v| = maxAbs x := by
  induction x with
  | nil => exact absurd rfl hx
  | cons a x ih =>
    rw [maxAbs_cons]
    by_cases hn : x = []
    · subst hn
      exact ⟨a, by simp, by rw [maxAbs_nil, max_eq_left (abs_nonneg a)]⟩
    · obtain ⟨v, hv, h⟩ := ih hn
      rcases le_total |a| (maxAbs x) with h' | h'
      · exact ⟨v, List.mem_cons_of_mem _ hv, by rw [max_eq_right h', h]⟩
      · exact ⟨a, by simp, by rw [max_eq_left h']⟩

theorem maxAbs_le (x : List ℝ) (P : ℝ) (hP : 0 ≤ P) (h : ∀ v ∈ x, |v| ≤ P) : maxAbs x ≤ P := by
  induction x with
  | nil => exact hP
  | cons a x ih =>
    rw [maxAbs_cons]
    exact max_le (h a (by simp)) (ih fun v hv => h v (List.mem_cons_of_mem _ hv))

theorem isPeak_maxAbs (x : List ℝ) (hx : x ≠ []) : IsPeak x (maxAbs x) :=
  ⟨le_maxAbs x, maxAbs_attained x hx⟩

theorem isPeak_iff (x : List ℝ) (P : ℝ) (h : IsPeak x P) : P = maxAbs x := by
  obtain ⟨h1, v, hv, h2⟩ := h
  exact le_antisymm (h2 ▸ le_maxAbs x v hv) (maxAbs_le x P (h2 ▸ abs_nonneg v) h1)

theorem maxAbs_ne_nil (x : List ℝ) (h : maxAbs x ≠ 0) : x ≠ [] := by
  rintro rfl; exact h rfl

theorem maxAbs_pos (x : List ℝ) (h : maxAbs x ≠ 0) : 0 < maxAbs x :=
  lt_of_le_of_ne (maxAbs_nonneg x) (Ne.symm h)

theorem maxAbs_scale (x : List ℝ) (c : ℝ) : maxAbs (x.map (· * c)) = maxAbs x * |c| := by
  induction x with
  | nil => simp [maxAbs_nil]
  | cons a x ih =>
    rw [List.map_cons, maxAbs_cons, maxAbs_cons, ih, abs_mul, max_mul_of_nonneg _ _ (abs_nonneg c)]

theorem maxAbs_zero_iff (x : List ℝ) : maxAbs x = 0 ↔ ∀ v ∈ x, v = 0 := by
  constructor
  · intro h v hv
    have := le_maxAbs x v hv
    rw [h] at this
    exact abs_nonpos_iff.mp this
  · intro h
    refine le_antisymm (maxAbs_le x 0 le_rfl fun v hv => ?_) (maxAbs_nonneg x)
    rw [h v hv, abs_zero]

end Verif.Level

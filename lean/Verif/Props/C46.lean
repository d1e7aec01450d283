import Verif.Model.Helpers
import Mathlib.Analysis.SpecialFunctions.Trigonometric.Basic
import Mathlib.Tactic.Linarith
import Mathlib.Tactic.FieldSimp
import Mathlib.Tactic.Positivity

/-!
# C46: phase wrapping
-/

namespace Verif.Helpers

/-- The wrapped phase lies in `[-π, π)`. -/
theorem C46_range (p : ℝ) : -Real.pi ≤ wrapPhase p ∧ wrapPhase p < Real.pi := by
  have hpi := Real.pi_pos
  unfold wrapPhase
  have h1 := Int.floor_le ((p + Real.pi) / (2 * Real.pi))
  have h2 := Int.lt_floor_add_one ((p + Real.pi) / (2 * Real.pi))
  rw [le_div_iff₀ (by positivity)] at h1
  rw [div_lt_iff₀ (by positivity)] at h2
  constructor <;> nlinarith

/-- It differs from the phase by whole turns. -/
theorem C46_turns (p : ℝ) : ∃ k : ℤ, wrapPhase p = p + k * (2 * Real.pi) := by
  refine ⟨-⌊(p + Real.pi) / (2 * Real.pi)⌋, ?_⟩
  unfold wrapPhase
  push_cast
  ring

/-- Phases in the range are unchanged. -/
theorem C46_identity (p : ℝ) (h1 : -Real.pi ≤ p) (h2 : p < Real.pi) : wrapPhase p = p := by
  have hpi := Real.pi_pos
  have : ⌊(p + Real.pi) / (2 * Real.pi)⌋ = 0 := by
    rw [Int.floor_eq_zero_iff]
    constructor
    · exact div_nonneg (by linarith) (by positivity)
    · rw [div_lt_one (by positivity)]
      linarith
  unfold wrapPhase
  rw [this]
  simp

/-- These properties determine the wrapped phase. -/
theorem C46_unique (p q : ℝ) (h1 : -Real.pi ≤ q) (h2 : q < Real.pi) (k : ℤ)
    (hk : q = p + k * (2 * Real.pi)) : wrapPhase p = q := by
  have hpi := Real.pi_pos
  obtain ⟨m, hm⟩ := C46_turns p
  obtain ⟨r1, r2⟩ := C46_range p
  have hmk : m = k := by
    have hlt : ((m - k : ℤ) : ℝ) < 1 := by
      push_cast
      by_contra hge
      have := mul_le_mul_of_nonneg_right (not_lt.mp hge) (show 0 ≤ 2 * Real.pi by positivity)
      linarith
    have hgt : (-1 : ℝ) < ((m - k : ℤ) : ℝ) := by
      push_cast
      by_contra hge
      have := mul_le_mul_of_nonneg_right (not_lt.mp hge) (show 0 ≤ 2 * Real.pi by positivity)
      linarith
    have a1 : m - k < 1 := by exact_mod_cast hlt
    have a2 : -1 < m - k := by exact_mod_cast hgt
    omega
  rw [hm, hk, hmk]

/-- In particular wrapping twice changes nothing, and whole turns are ignored. -/
theorem C46_idempotent (p : ℝ) (k : ℤ) :
    wrapPhase (wrapPhase p) = wrapPhase p ∧ wrapPhase (p + k * (2 * Real.pi)) = wrapPhase p := by
  refine ⟨C46_identity _ (C46_range p).1 (C46_range p).2, ?_⟩
  obtain ⟨m, hm⟩ := C46_turns p
  refine C46_unique _ _ (C46_range p).1 (C46_range p).2 (m - k) ?_
  rw [hm]
  push_cast
  ring

/-- Concrete case: a phase of `3 π / 2` is wrapped to `-π / 2`, and `π` to `-π`. -/
example : wrapPhase (3 * Real.pi / 2) = -Real.pi / 2 ∧ wrapPhase Real.pi = -Real.pi := by
  have hpi := Real.pi_pos
  constructor
  · refine C46_unique _ _ (by linarith) (by linarith) (-1) ?_
    push_cast
    ring
  · refine C46_unique _ _ le_rfl (by linarith) (-1) ?_
    push_cast
    ring

end Verif.Helpers

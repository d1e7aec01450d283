import Mathlib.Analysis.Complex.Basic
import Mathlib.Tactic.Linarith

/-!
# The step-up recursion keeps all poles inside the unit circle

The polynomials are written in `w = 1 / z`.
-/

namespace Verif.AR

/-- `∑ j ≤ p, A_j w ^ j` -/
noncomputable def forwardAt (A : ℕ → ℝ) (p : ℕ) (w : ℂ) : ℂ :=
  ∑ j ∈ Finset.range (p + 1), (A j : ℂ) * w ^ j

/-- The polynomial with the coefficients backwards. -/
noncomputable def backwardAt (A : ℕ → ℝ) (p : ℕ) (w : ℂ) : ℂ :=
  ∑ j ∈ Finset.range (p + 1), (A (p - j) : ℂ) * w ^ j

/-- No zero in the closed unit disc, and the reversed polynomial is not larger there. -/
def StepInv (A : ℕ → ℝ) (p : ℕ) : Prop :=
  ∀ w : ℂ, ‖w‖ ≤ 1 → forwardAt A p w ≠ 0 ∧ ‖backwardAt A p w‖ ≤ ‖forwardAt A p w‖

theorem stepInv_zero (A : ℕ → ℝ) (h : A 0 = 1) : StepInv A 0 := by
  intro w _
  simp [forwardAt, backwardAt, h]

theorem forward_step (A A' : ℕ → ℝ) (p : ℕ) (k : ℝ) (hz : A (p + 1) = 0)
    (h : ∀ j ≤ p + 1, A' j = A j + k * A (p + 1 - j)) (w : ℂ) :
    forwardAt A' (p + 1) w = forwardAt A p w + k * (w * backwardAt A p w) := by
  unfold forwardAt backwardAt
  have h1 : ∑ j ∈ Finset.range (p + 1 + 1), (A' j : ℂ) * w ^ j =
      ∑ j ∈ Finset.range (p + 1 + 1), (A j : ℂ) * w ^ j +
        k * ∑ j ∈ Finset.range (p + 1 + 1), (A (p + 1 - j) : ℂ) * w ^ j := by
    rw [Finset.mul_sum, ← Finset.sum_add_distrib]
    refine Finset.sum_congr rfl fun j hj => ?_
    rw [h j (by have := Finset.mem_range.1 hj; omega)]
    push_cast
    ring
  rw [h1]
  congr 1
  · rw [Finset.sum_range_succ, hz]
    simp
  · congr 1
    rw [Finset.sum_range_succ', Nat.sub_zero, hz, Finset.mul_sum]
    simp only [Complex.ofReal_zero, zero_mul, add_zero]
    refine Finset.sum_congr rfl fun j _ => ?_
    rw [show p + 1 - (j + 1) = p - j by omega, pow_succ]
    ring

theorem backward_step (A A' : ℕ → ℝ) (p : ℕ) (k : ℝ) (hz : A (p + 1) = 0)
    (h : ∀ j ≤ p + 1, A' j = A j + k * A (p + 1 - j)) (w : ℂ) :
    backwardAt A' (p + 1) w = w * backwardAt A p w + k * forwardAt A p w := by
  unfold forwardAt backwardAt
  have h1 : ∑ j ∈ Finset.range (p + 1 + 1), (A' (p + 1 - j) : ℂ) * w ^ j =
      ∑ j ∈ Finset.range (p + 1 + 1), (A (p + 1 - j) : ℂ) * w ^ j +
        k * ∑ j ∈ Finset.range (p + 1 + 1), (A j : ℂ) * w ^ j := by
    rw [Finset.mul_sum, ← Finset.sum_add_distrib]
    refine Finset.sum_congr rfl fun j hj => ?_
    have := Finset.mem_range.1 hj
    rw [h (p + 1 - j) (by omega), show p + 1 - (p + 1 - j) = j by omega]
    push_cast
    ring
  rw [h1]
  congr 1
  · rw [Finset.sum_range_succ', Nat.sub_zero, hz, Finset.mul_sum]
    simp only [Complex.ofReal_zero, zero_mul, add_zero]
    refine Finset.sum_congr rfl fun j _ => ?_
    rw [show p + 1 - (j + 1) = p - j by omega, pow_succ]
    ring
  · congr 1
    rw [Finset.sum_range_succ, hz]
    simp

theorem norm_swap (a u : ℂ) (k : ℝ) (hk : |k| < 1) (hu : ‖u‖ ≤ ‖a‖) : ‖u + k * a‖ ≤ ‖a + k * u‖ := by
  have h1 : ‖a + k * u‖ ^ 2 - ‖u + k * a‖ ^ 2 = (1 - k ^ 2) * (‖a‖ ^ 2 - ‖u‖ ^ 2) := by
    simp only [← Complex.normSq_eq_norm_sq, Complex.normSq_apply, Complex.add_re, Complex.add_im,
      Complex.re_ofReal_mul, Complex.im_ofReal_mul]
    ring
  have h2 : 0 ≤ 1 - k ^ 2 := by
    have := sq_abs k
    nlinarith [abs_nonneg k]
  have h3 : 0 ≤ ‖a‖ ^ 2 - ‖u‖ ^ 2 := by nlinarith [norm_nonneg u]
  have := mul_nonneg h2 h3
  exact abs_le_of_sq_le_sq' (by linarith) (norm_nonneg _) |>.2

theorem stepInv_succ (A A' : ℕ → ℝ) (p : ℕ) (k : ℝ) (hk : |k| < 1) (hA : StepInv A p)
    (hz : A (p + 1) = 0) (h : ∀ j ≤ p + 1, A' j = A j + k * A (p + 1 - j)) : StepInv A' (p + 1) := by
  intro w hw
  obtain ⟨hne, hle⟩ := hA w hw
  have hu : ‖w * backwardAt A p w‖ ≤ ‖forwardAt A p w‖ := by
    rw [norm_mul]
    exact le_trans (mul_le_of_le_one_left (norm_nonneg _) hw) hle
  rw [forward_step A A' p k hz h, backward_step A A' p k hz h]
  refine ⟨fun h0 => ?_, norm_swap _ _ k hk hu⟩
  have h1 : forwardAt A p w = -((k : ℂ) * (w * backwardAt A p w)) := eq_neg_of_add_eq_zero_left h0
  have h2 : ‖forwardAt A p w‖ = |k| * ‖w * backwardAt A p w‖ := by
    conv_lhs => rw [h1]
    rw [norm_neg, norm_mul, Complex.norm_real, Real.norm_eq_abs]
  have h3 := norm_pos_iff.2 hne
  nlinarith [abs_nonneg k]

end Verif.AR

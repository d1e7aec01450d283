import Verif.Spec.Response
import Mathlib.Tactic.Ring
import Mathlib.Tactic.FieldSimp
import Mathlib.Tactic.LinearCombination
import Mathlib.Tactic.NormNum
import Mathlib.Tactic.Linarith
import Mathlib.Tactic.Positivity

/-! Lemmas about second order sections. -/

namespace Verif.Biquad

/-- Stability triangle. -/
theorem stable_of_triangle (c : Coeffs) (h0 : 0 < c.a0) (h2 : |c.a2| < c.a0)
    (h1 : |c.a1| < c.a0 + c.a2) : c.Stable := by
  refine ⟨h0.ne', fun z hz => ?_⟩
  have hre := congrArg Complex.re hz
  have him := congrArg Complex.im hz
  simp [pow_two] at hre him
  by_contra hge
  rw [not_lt] at hge
  have hsq : 1 ≤ z.re * z.re + z.im * z.im := by
    have h := Complex.normSq_eq_norm_sq z
    rw [Complex.normSq_apply] at h
    rw [h]
    nlinarith
  obtain ⟨h2a, h2b⟩ := abs_lt.mp h2
  by_cases hy : z.im = 0
  · rw [hy] at hre hsq
    have hx : 1 ≤ |z.re| := by
      by_contra hlt
      rw [not_le] at hlt
      have := abs_mul_abs_self z.re
      nlinarith [abs_nonneg z.re]
    have hxx : |z.re| * |z.re| = z.re * z.re := abs_mul_abs_self z.re
    have hb : -(|c.a1| * |z.re|) ≤ c.a1 * z.re := by
      rw [← abs_mul]
      exact neg_abs_le _
    have h3 : 0 ≤ (|z.re| - 1) * (c.a0 * |z.re| - c.a2) := by
      refine mul_nonneg (by linarith) ?_
      nlinarith
    nlinarith
  · have hx : c.a1 = -2 * c.a0 * z.re := by
      have h : (c.a1 + 2 * c.a0 * z.re) * z.im = 0 := by linear_combination him
      rcases mul_eq_zero.mp h with h | h
      · linarith
      · exact absurd h hy
    rw [hx] at hre
    have : c.a2 = c.a0 * (z.re * z.re + z.im * z.im) := by linear_combination hre
    nlinarith

theorem poly_normSq (c0 c1 c2 w : ℝ) :
    ‖poly c0 c1 c2 w‖ ^ 2 = ((c0 + c2) * Real.cos w + c1) ^ 2 + ((c0 - c2) * Real.sin w) ^ 2 := by
  have he : Complex.exp (-(w * Complex.I)) = (Real.cos w : ℂ) - Real.sin w * Complex.I := by
    rw [show -((w : ℂ) * Complex.I) = ((-w : ℝ) : ℂ) * Complex.I by push_cast; ring, Complex.exp_mul_I,
      ← Complex.ofReal_cos, ← Complex.ofReal_sin, Real.cos_neg, Real.sin_neg]
    push_cast
    ring
  rw [← Complex.normSq_eq_norm_sq, Complex.normSq_apply, poly, he]
  have hs := Real.sin_sq_add_cos_sq w
  clear he
  generalize Real.sin w = s at *
  generalize Real.cos w = c at *
  simp [pow_two]
  linear_combination (-c0 ^ 2 + c1 ^ 2 + c2 ^ 2 * (s ^ 2 + c ^ 2) + 2 * c1 * c2 * c) * hs

/-- The denominator of a stable section does not vanish at any frequency. -/
theorem den_ne_zero (c : Coeffs) (h : c.Stable) (w : ℝ) : poly c.a0 c.a1 c.a2 w ≠ 0 := by
  intro h0
  set u := Complex.exp (-(w * Complex.I)) with hu
  have hne : u ≠ 0 := Complex.exp_ne_zero _
  have hnorm : ‖u‖ = 1 := by
    rw [hu, show -((w : ℂ) * Complex.I) = ((-w : ℝ) : ℂ) * Complex.I by push_cast; ring,
      Complex.norm_exp_ofReal_mul_I]
  have h1 : (c.a0 : ℂ) * u⁻¹ ^ 2 + c.a1 * u⁻¹ + c.a2 = 0 := by
    have h2 : ((c.a0 : ℂ) * u⁻¹ ^ 2 + c.a1 * u⁻¹ + c.a2) * u ^ 2 = 0 := by
      have h3 : ((c.a0 : ℂ) * u⁻¹ ^ 2 + c.a1 * u⁻¹ + c.a2) * u ^ 2 =
          c.a0 + c.a1 * u + c.a2 * u ^ 2 := by field_simp
      rw [h3]
      exact h0
    rcases mul_eq_zero.mp h2 with h | h
    · exact h
    · exact absurd h (pow_ne_zero 2 hne)
  have := h.2 _ h1
  rw [norm_inv, hnorm] at this
  norm_num at this

/-- Criterion for the magnitude at a frequency. -/
theorem gain_eq (c : Coeffs) (h : c.Stable) (w g : ℝ) (hg : 0 ≤ g)
    (he : ((c.b0 + c.b2) * Real.cos w + c.b1) ^ 2 + ((c.b0 - c.b2) * Real.sin w) ^ 2 =
      g ^ 2 * (((c.a0 + c.a2) * Real.cos w + c.a1) ^ 2 + ((c.a0 - c.a2) * Real.sin w) ^ 2)) :
    c.gain w = g := by
  rw [← poly_normSq, ← poly_normSq, ← mul_pow] at he
  have h1 := (sq_eq_sq₀ (norm_nonneg _) (mul_nonneg hg (norm_nonneg _))).mp he
  have hden : ‖poly c.a0 c.a1 c.a2 w‖ ≠ 0 := norm_ne_zero_iff.mpr (den_ne_zero c h w)
  unfold Coeffs.gain Coeffs.response
  rw [norm_div, h1, mul_div_assoc, div_self hden, mul_one]

/-- A frequency strictly between 0 and half the sampling rate. -/
structure Inside (fs f : ℝ) : Prop where
  pos : 0 < f
  below : f < fs / 2

section
variable {fs f : ℝ} (h : Inside fs f)
include h

theorem omega_pos : 0 < omega fs f := by
  have h1 := h.pos
  have h2 := h.below
  have hfs : 0 < fs := by linarith
  unfold omega
  have := Real.pi_pos
  positivity

theorem omega_lt : omega fs f < Real.pi := by
  have h1 := h.pos
  have h2 := h.below
  have hfs : 0 < fs := by linarith
  unfold omega
  have : f / fs < 1 / 2 := by
    rw [div_lt_iff₀ hfs]
    linarith
  have hpi := Real.pi_pos
  nlinarith

theorem sn_pos : 0 < Real.sin (omega fs f) := Real.sin_pos_of_pos_of_lt_pi (omega_pos h) (omega_lt h)

theorem cs_bounds : -1 < Real.cos (omega fs f) ∧ Real.cos (omega fs f) < 1 := by
  have hs := sn_pos h
  have h1 := Real.sin_sq_add_cos_sq (omega fs f)
  constructor <;> nlinarith [Real.neg_one_le_cos (omega fs f), Real.cos_le_one (omega fs f)]

theorem K_eq : 1 / Real.tan (omega fs f / 2) =
    (1 + Real.cos (omega fs f)) / Real.sin (omega fs f) := by
  have hs := sn_pos h
  have h0 := omega_pos h
  have h1 := omega_lt h
  have hhs : 0 < Real.sin (omega fs f / 2) :=
    Real.sin_pos_of_pos_of_lt_pi (by linarith) (by linarith)
  have hhc : 0 < Real.cos (omega fs f / 2) :=
    Real.cos_pos_of_mem_Ioo ⟨by linarith, by linarith⟩
  have e1 : Real.sin (omega fs f) = 2 * Real.sin (omega fs f / 2) * Real.cos (omega fs f / 2) := by
    rw [← Real.sin_two_mul]
    congr 1
    ring
  have e2 : Real.cos (omega fs f) = 2 * Real.cos (omega fs f / 2) ^ 2 - 1 := by
    rw [← Real.cos_two_mul]
    congr 1
    ring
  rw [Real.tan_eq_sin_div_cos, e1, e2]
  field_simp
  ring

theorem K_pos : 0 < 1 / Real.tan (omega fs f / 2) := by
  rw [K_eq h]
  have := (cs_bounds h).1
  exact div_pos (by linarith) (sn_pos h)

end

theorem gainFactor_pos (t : EqType) (g : ℝ) : 0 < gainFactor t g := by
  unfold gainFactor
  split_ifs <;> positivity

/-- Every branch gives a stable section. -/
theorem branch_stable (t : EqType) (A sn cs α K : ℝ) (hA : 0 < A) (hα : 0 < α) (hK : 0 < K)
    (h1 : -1 < cs) (h2 : cs < 1) : (branch t A sn cs α K).Stable := by
  have hsA : 0 < Real.sqrt A := Real.sqrt_pos.mpr hA
  have hαA : 0 < α / A := div_pos hα hA
  have hsα : 0 < Real.sqrt A * α := mul_pos hsA hα
  have hp : 0 < A * (1 + cs) := mul_pos hA (by linarith)
  have hm : 0 < A * (1 - cs) := mul_pos hA (by linarith)
  apply stable_of_triangle <;> cases t <;> simp only [branch, abs_lt] <;>
    first
      | (constructor <;> nlinarith)
      | nlinarith

end Verif.Biquad

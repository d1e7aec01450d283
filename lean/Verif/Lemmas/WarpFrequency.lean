import Verif.Model.WarpFrequency
import Mathlib.Analysis.SpecialFunctions.Trigonometric.ArctanDeriv
import Mathlib.Analysis.Calculus.Deriv.MeanValue
import Mathlib.Tactic.FieldSimp
import Mathlib.Tactic.LinearCombination

/-!
# The map of angles behind the warping of frequencies
-/

namespace Verif.WarpFrequency

open Real

/-- The map for angles. -/
noncomputable def warpAngle (lam w : ℝ) : ℝ :=
  w + 2 * arctan (-lam * sin w / (1 + lam * cos w))

theorem den_pos (lam : ℝ) (hl : |lam| < 1) (w : ℝ) : 0 < 1 + lam * cos w := by
  have h1 : |lam * cos w| < 1 := by
    rw [abs_mul]
    calc |lam| * |cos w| ≤ |lam| * 1 :=
          mul_le_mul_of_nonneg_left (abs_cos_le_one w) (abs_nonneg _)
      _ < 1 := by rwa [mul_one]
  linarith [(abs_lt.1 h1).1]

theorem warpOne_eq (fs : ℕ) (hfs : 0 < fs) (lam f : ℝ) :
    2 * π * warpOne fs lam f / fs = warpAngle lam (2 * π * f / fs) := by
  have h1 : (fs : ℝ) ≠ 0 := by positivity
  have h2 := pi_ne_zero
  unfold warpOne warpAngle
  dsimp only
  generalize arctan _ = t
  field_simp

theorem exp_arctan (x : ℝ) :
    Complex.exp (2 * arctan x * Complex.I) * (1 - x * Complex.I) = 1 + x * Complex.I := by
  have hc : cos (arctan x) ≠ 0 := (cos_arctan_pos x).ne'
  have hs : sin (arctan x) = x * cos (arctan x) := by
    have := tan_arctan x
    rw [tan_eq_sin_div_cos, div_eq_iff hc] at this
    exact this
  have hcc : (cos (arctan x) : ℂ) ≠ 0 := by exact_mod_cast hc
  have e1 : Complex.exp (arctan x * Complex.I) = cos (arctan x) * (1 + x * Complex.I) := by
    rw [Complex.exp_mul_I, ← Complex.ofReal_cos, ← Complex.ofReal_sin, hs]
    push_cast
    ring
  have hsq : cos (arctan x) ^ 2 * (1 + x ^ 2) = 1 := by
    have := sin_sq_add_cos_sq (arctan x)
    rw [hs] at this
    linear_combination this
  have hsq' : (cos (arctan x) : ℂ) ^ 2 * (1 + (x : ℂ) ^ 2) = 1 := by exact_mod_cast hsq
  have e2 : Complex.exp (2 * arctan x * Complex.I) = Complex.exp (arctan x * Complex.I) ^ 2 := by
    rw [← Complex.exp_nat_mul]
    congr 1
    push_cast
    ring
  rw [e2, e1]
  linear_combination (1 + x * Complex.I) * hsq' -
    (cos (arctan x) : ℂ) ^ 2 * (1 + x * Complex.I) * (x : ℂ) ^ 2 * Complex.I_sq

theorem one_add_ne (lam : ℝ) (hl : |lam| < 1) (w : ℝ) :
    1 + (lam : ℂ) * Complex.exp (w * Complex.I) ≠ 0 := by
  intro h
  have h1 := congrArg Complex.re h
  rw [Complex.exp_mul_I, ← Complex.ofReal_cos, ← Complex.ofReal_sin] at h1
  simp [Complex.cos_ofReal_re] at h1
  linarith [den_pos lam hl w]

/-- The map is the phase of a first-order allpass. -/
theorem exp_warpAngle (lam : ℝ) (hl : |lam| < 1) (w : ℝ) :
    Complex.exp (warpAngle lam w * Complex.I) =
      (Complex.exp (w * Complex.I) + lam) / (1 + lam * Complex.exp (w * Complex.I)) := by
  rw [eq_div_iff (one_add_ne lam hl w)]
  have hr := (den_pos lam hl w).ne'
  unfold warpAngle
  set x := -lam * sin w / (1 + lam * cos w) with hx
  have h1 := exp_arctan x
  have hx' : x * (1 + lam * cos w) = -lam * sin w := by rw [hx, div_mul_cancel₀ _ hr]
  have hxc : (x : ℂ) * (1 + lam * cos w) = -lam * sin w := by exact_mod_cast hx'
  have hcs : (sin w : ℂ) ^ 2 + (cos w : ℂ) ^ 2 = 1 := by exact_mod_cast sin_sq_add_cos_sq w
  have e : Complex.exp (((w + 2 * arctan x : ℝ) : ℂ) * Complex.I) =
      Complex.exp (w * Complex.I) * Complex.exp (2 * arctan x * Complex.I) := by
    rw [← Complex.exp_add]
    congr 1
    push_cast
    ring
  rw [e]
  have hE : Complex.exp (w * Complex.I) = cos w + sin w * Complex.I := by
    rw [Complex.exp_mul_I, ← Complex.ofReal_cos, ← Complex.ofReal_sin]
  have hD : 1 + (lam : ℂ) * Complex.exp (w * Complex.I) =
      (1 + lam * cos w) * (1 - x * Complex.I) := by
    rw [hE]
    linear_combination Complex.I * hxc
  rw [hD]
  have h2 : Complex.exp (w * Complex.I) * Complex.exp (2 * arctan x * Complex.I) *
      ((1 + lam * cos w) * (1 - x * Complex.I)) =
      Complex.exp (w * Complex.I) * ((1 + lam * cos w) * (1 + x * Complex.I)) := by
    rw [← h1]
    ring
  rw [h2, hE]
  linear_combination (cos w + sin w * Complex.I) * Complex.I * hxc + lam * hcs -
    lam * (sin w : ℂ) ^ 2 * Complex.I_sq

theorem hasDerivAt_warpAngle (lam : ℝ) (hl : |lam| < 1) (w : ℝ) :
    HasDerivAt (warpAngle lam) ((1 - lam ^ 2) / (1 + 2 * lam * cos w + lam ^ 2)) w := by
  have hr := (den_pos lam hl w).ne'
  have h1 : HasDerivAt (fun w => -lam * sin w / (1 + lam * cos w))
      ((-lam * cos w * (1 + lam * cos w) - -lam * sin w * (lam * -sin w)) /
        (1 + lam * cos w) ^ 2) w :=
    ((hasDerivAt_sin w).const_mul (-lam)).div
      (((hasDerivAt_cos w).const_mul lam).const_add 1) hr
  have h2 := (hasDerivAt_id w).add (h1.arctan.const_mul 2)
  refine (h2.congr_deriv ?_ : HasDerivAt (warpAngle lam) _ w)
  have hcs := sin_sq_add_cos_sq w
  have hd : 0 < 1 + 2 * lam * cos w + lam ^ 2 := by
    have : 1 + 2 * lam * cos w + lam ^ 2 = (1 + lam * cos w) ^ 2 + (lam * sin w) ^ 2 := by
      linear_combination (-lam ^ 2) * hcs
    rw [this]
    have := den_pos lam hl w
    positivity
  have hx : 1 + (-lam * sin w / (1 + lam * cos w)) ^ 2 =
      (1 + 2 * lam * cos w + lam ^ 2) / (1 + lam * cos w) ^ 2 := by
    rw [div_pow, eq_div_iff (pow_ne_zero 2 hr), add_mul, div_mul_cancel₀ _ (pow_ne_zero 2 hr)]
    linear_combination lam ^ 2 * hcs
  rw [hx]
  have hn : -lam * cos w * (1 + lam * cos w) - -lam * sin w * (lam * -sin w) =
      -(lam * cos w + lam ^ 2) := by
    linear_combination (-lam ^ 2) * hcs
  rw [hn]
  have hd' := hd.ne'
  field_simp
  ring

theorem strictMono_warpAngle (lam : ℝ) (hl : |lam| < 1) : StrictMono (warpAngle lam) := by
  refine strictMono_of_deriv_pos fun w => ?_
  rw [(hasDerivAt_warpAngle lam hl w).deriv]
  have hcs := sin_sq_add_cos_sq w
  have := abs_lt.1 hl
  refine div_pos (by nlinarith) ?_
  have e : 1 + 2 * lam * cos w + lam ^ 2 = (1 + lam * cos w) ^ 2 + (lam * sin w) ^ 2 := by
    linear_combination (-lam ^ 2) * hcs
  rw [e]
  have := den_pos lam hl w
  positivity

theorem warpAngle_near (lam w : ℝ) : |warpAngle lam w - w| < π := by
  unfold warpAngle
  have h := arctan_mem_Ioo (-lam * sin w / (1 + lam * cos w))
  rw [abs_lt]
  constructor <;> linarith [h.1, h.2]

theorem warpAngle_inverse (lam : ℝ) (hl : |lam| < 1) (w : ℝ) :
    warpAngle (-lam) (warpAngle lam w) = w := by
  have hl' : |(-lam)| < 1 := by rwa [abs_neg]
  have h1 := exp_warpAngle (-lam) hl' (warpAngle lam w)
  rw [exp_warpAngle lam hl w] at h1
  have hd := one_add_ne lam hl w
  have hl2 : (1 : ℂ) - lam ^ 2 ≠ 0 := by
    have : (1 : ℝ) - lam ^ 2 ≠ 0 := by nlinarith [abs_lt.1 hl]
    exact_mod_cast this
  have h2 : Complex.exp (warpAngle (-lam) (warpAngle lam w) * Complex.I) =
      Complex.exp (w * Complex.I) := by
    rw [h1]
    generalize Complex.exp (w * Complex.I) = z at hd ⊢
    have e : 1 + ((-lam : ℝ) : ℂ) * ((z + lam) / (1 + lam * z)) =
        (1 - lam ^ 2) / (1 + lam * z) := by
      push_cast
      field_simp
      ring
    rw [e, div_eq_iff (div_ne_zero hl2 hd)]
    push_cast
    rw [mul_div_assoc', eq_div_iff hd, add_mul, div_mul_cancel₀ _ hd]
    ring
  rw [Complex.exp_eq_exp_iff_exists_int] at h2
  obtain ⟨n, hn⟩ := h2
  have hn' : warpAngle (-lam) (warpAngle lam w) = w + n * (2 * π) := by
    have := congrArg Complex.im hn
    simpa using this
  have a := warpAngle_near lam w
  have b := warpAngle_near (-lam) (warpAngle lam w)
  rw [hn'] at b
  rw [abs_lt] at a b
  have hp := pi_pos
  have n1 : (n : ℝ) < 1 := by
    by_contra hc
    push Not at hc
    nlinarith [a.1, a.2, b.1, b.2]
  have n2 : (-1 : ℝ) < n := by
    by_contra hc
    push Not at hc
    nlinarith [a.1, a.2, b.1, b.2]
  have n0 : n = 0 := by
    have h1 : n < 1 := by exact_mod_cast n1
    have h2 : -1 < n := by exact_mod_cast n2
    omega
  rw [hn', n0]
  simp

end Verif.WarpFrequency

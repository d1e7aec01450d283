import Verif.Props.C34
import Mathlib.Analysis.SpecialFunctions.Log.Base

/-!
# C35: allpass biquads have constant magnitude
-/

namespace Verif.Biquad

/-- The allpass designs have the same magnitude at every frequency: the linear gain. -/
theorem C35_constant_magnitude (t : EqType) (ht : t = .allpass ∨ t = .allpassFirstOrder)
    (fs f gain q : ℝ) (h : Inside fs f) (hq : 0 < q) (w : ℝ) :
    (biquad t fs f gain q).gain w = linearGain gain := by
  have hst := C34_stable t fs f gain q h hq
  have hG : 0 ≤ linearGain gain := by unfold linearGain; positivity
  have hA : gainFactor t gain = linearGain gain :=
    gainFactor_plain _ _ (by rcases ht with rfl | rfl <;> simp)
  have hsc := Real.sin_sq_add_cos_sq w
  refine gain_eq _ hst w _ hG ?_
  rcases ht with rfl | rfl
  · simp only [biquad, branch, hA]
    ring
  · simp only [biquad, branch, hA]
    generalize 1 / Real.tan (omega fs f / 2) = K
    linear_combination (linearGain gain ^ 2 * ((1 - K) ^ 2 - (1 + K) ^ 2)) * hsc

/-- The allpass designs do turn the phase: from 0 at DC over half a period at the design
frequency to a full period for the second order, from 0 over a quarter to half a period for the
first order. -/
theorem C35_phase (fs f gain q : ℝ) (h : Inside fs f) (hq : 0 < q) :
    ((biquad .allpass fs f gain q).response 0 = linearGain gain ∧
      (biquad .allpass fs f gain q).response (omega fs f) = -linearGain gain ∧
      (biquad .allpass fs f gain q).response Real.pi = linearGain gain) ∧
    ((biquad .allpassFirstOrder fs f gain q).response 0 = linearGain gain ∧
      (biquad .allpassFirstOrder fs f gain q).response (omega fs f) =
        -(linearGain gain * Complex.I) ∧
      (biquad .allpassFirstOrder fs f gain q).response Real.pi = -linearGain gain) := by
  have h2 := C34_phase .allpass fs f gain q h hq
  have h1 := C34_phase .allpassFirstOrder fs f gain q h hq
  simp only [phaseTarget, Prod.mk.injEq] at h1 h2
  exact ⟨h2, h1⟩

/-- No other magnitude response is constant in general: a peaking filter with a gain is
not an allpass. -/
theorem C35_peaking_is_not_allpass (fs f gain q : ℝ) (h : Inside fs f) (hq : 0 < q)
    (hg : gain ≠ 0) :
    (biquad .peaking fs f gain q).gain 0 ≠ (biquad .peaking fs f gain q).gain (omega fs f) := by
  have hgains := C34_gains_partial .peaking fs f gain q h hq
  simp only [target, Prod.mk.injEq] at hgains
  rw [hgains.1, hgains.2.1]
  unfold linearGain
  intro h1
  have h2 := congrArg (Real.logb 10) h1.symm
  rw [Real.logb_rpow (by norm_num) (by norm_num), Real.logb_one] at h2
  exact hg (by linarith)

/-- Concrete case. -/
example : (biquad .allpass 48000 1000 0 1).gain 1 = 1 := by
  rw [C35_constant_magnitude .allpass (Or.inl rfl) 48000 1000 0 1 ⟨by norm_num, by norm_num⟩ one_pos]
  simp [linearGain]

end Verif.Biquad

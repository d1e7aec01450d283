import Verif.Props.C109
import Mathlib.Analysis.SpecialFunctions.Integrals.Basic

/-! # C109: the phase from Simpson's rule -/

namespace Verif.FirDesigner

open Complex

private theorem simpson_quadratic (M : ℕ) (hM : 3 ≤ M) (y : ℕ → ℝ) (a b c : ℝ)
    (hy : ∀ k < M, y k = a + b * k + c * (k : ℝ) ^ 2) (k : ℕ) (hk : k < M) :
    simpson M y k = a * k + b * (k : ℝ) ^ 2 / 2 + c * (k : ℝ) ^ 3 / 3 := by
  induction k with
  | zero => simp [simpson]
  | succ k ih =>
    have h1 : simpson M y (k + 1) = simpson M y k + simpsonStep M y k := by
      unfold simpson
      rw [Finset.sum_range_succ]
    rw [h1, ih (by omega)]
    unfold simpsonStep
    rw [if_neg (by omega)]
    by_cases h : k % 2 = 0 ∧ k + 2 < M
    · rw [if_pos h, hy k (by omega), hy (k + 1) (by omega), hy (k + 2) h.2]
      push_cast
      ring
    · rw [if_neg h]
      have hk0 : k ≠ 0 := by
        rintro rfl
        exact h ⟨rfl, by omega⟩
      obtain ⟨j, rfl⟩ : ∃ j, k = j + 1 := ⟨k - 1, by omega⟩
      rw [show j + 1 - 1 = j by omega, hy j (by omega), hy (j + 1) (by omega), hy (j + 1 + 1) (by omega)]
      push_cast
      ring

/-- With Simpson's rule, every group delay that is a polynomial of at most second order in the frequency gives a
filter whose phase at each bin is exactly the integral of the group delay (with the increase) over the angular
frequency, and whose magnitudes are the desired ones.  At the Nyquist frequency only the real part remains. -/
theorem C109_simpson (N fs : ℕ) (hN : 4 ≤ N) (hf : 0 < fs) (mag gd : List ℝ) (inc a b c : ℝ)
    (hg : gd.length = N / 2 + 1) (hm : mag.length = N / 2 + 1) (hl : LongEnough N fs gd inc)
    (hq : ∀ k ≤ N / 2, gd.getD k 0 = a + b * ((k : ℝ) * fs / N) + c * ((k : ℝ) * fs / N) ^ 2) :
    ∃ (h : List ℝ) (phi : ℕ → ℝ), firDesigner N fs mag gd ⟨inc, none, false, false⟩ = .ok h ∧ h.length = N ∧
      (∀ k ≤ N / 2, phi k = -(2 * Real.pi * ∫ f in (0 : ℝ)..(k * fs / N), (a + b * f + c * f ^ 2 + inc / 1000))) ∧
      (∀ k, 2 * k < N → DeconvSpec.bin N (sig h) k = (mag.getD k 0 : ℂ) * exp (I * phi k)) ∧
      ∀ k, 2 * k = N →
        DeconvSpec.bin N (sig h) k = ((mag.getD k 0 * Real.cos (phi k) : ℝ) : ℂ) := by
  have hN0 : 0 < N := by omega
  have h1 : (N : ℝ) ≠ 0 := by exact_mod_cast hN0.ne'
  have h2 : (fs : ℝ) ≠ 0 := by exact_mod_cast hf.ne'
  have hpi := Real.pi_ne_zero
  have hd := design_long N fs hN0 hf mag gd ⟨inc, none, false, false⟩ hg hm hl
  refine ⟨_, phaseOf (N / 2 + 1) false (unscaled N fs inc fun k => gd.getD k 0), hd, by simp [trimmed],
    fun k hk => ?_, fun k hk => ?_, fun k hk => ?_⟩
  · have hint : ∀ t : ℝ, ∫ f in (0 : ℝ)..t, (a + b * f + c * f ^ 2 + inc / 1000) =
        (a + inc / 1000) * t + b * t ^ 2 / 2 + c * t ^ 3 / 3 := by
      intro t
      have hder : ∀ x ∈ Set.uIcc (0 : ℝ) t, HasDerivAt
          (fun x : ℝ => (a + inc / 1000) * x + b * x ^ 2 / 2 + c * x ^ 3 / 3)
          (a + b * x + c * x ^ 2 + inc / 1000) x := by
        intro x _
        have e1 := (hasDerivAt_id x).const_mul (a + inc / 1000)
        have e2 := ((hasDerivAt_pow 2 x).const_mul b).div_const 2
        have e3 := ((hasDerivAt_pow 3 x).const_mul c).div_const 3
        refine ((e1.add e2).add e3).congr_deriv ?_
        simp
        ring
      rw [intervalIntegral.integral_eq_sub_of_hasDerivAt hder
        (Continuous.intervalIntegrable (by fun_prop) _ _)]
      simp
    rw [hint]
    unfold phaseOf
    rw [if_neg (by simp)]
    rw [simpson_quadratic (N / 2 + 1) (by omega) _ ((a + inc / 1000) * (2 * Real.pi * fs / N))
      (b * (fs / N) * (2 * Real.pi * fs / N)) (c * (fs / N) ^ 2 * (2 * Real.pi * fs / N)) (fun k hk => ?_) k (by omega)]
    · field_simp
    · rw [unscaled_eq N fs hN0 hf, hq k (by omega)]
      field_simp
      ring
  · unfold trimmed
    dsimp only
    rw [bin_sig]
    unfold response
    dsimp only
    rw [if_neg (by simp), bin_irfft N hN0 _ _ (phaseOf_zero _ _ _) k (by omega), if_pos hk]
  · unfold trimmed
    dsimp only
    rw [bin_sig]
    unfold response
    dsimp only
    rw [if_neg (by simp), bin_irfft N hN0 _ _ (phaseOf_zero _ _ _) k (by omega), if_neg (by omega)]

/-- A group delay of 1 ms rising to 2 ms at 500 Hz. -/
example : LongEnough 100 1000 ((List.range 51).map fun (k : ℕ) => (0.001 : ℝ) + 0.000002 * (k * 1000 / 100)) 0 ∧
    ∀ k ≤ 100 / 2, ((List.range 51).map fun (k : ℕ) => (0.001 : ℝ) + 0.000002 * (k * 1000 / 100)).getD k 0 =
      0.001 + 0.000002 * ((k : ℝ) * (1000 : ℕ) / (100 : ℕ)) + 0 * ((k : ℝ) * (1000 : ℕ) / (100 : ℕ)) ^ 2 := by
  have e : ∀ k ≤ 50, ((List.range 51).map fun (k : ℕ) => (0.001 : ℝ) + 0.000002 * (k * 1000 / 100)).getD k 0 =
      0.001 + 0.000002 * ((k : ℝ) * 1000 / 100) := by
    intro k hk
    rw [LFilter.getD_map_range, if_pos (by omega)]
  refine ⟨fun k hk => ?_, fun k hk => ?_⟩
  · rw [e k hk]
    have : (k : ℝ) ≤ 50 := by exact_mod_cast hk
    push_cast
    linarith
  · rw [e k hk]
    push_cast
    ring

end Verif.FirDesigner

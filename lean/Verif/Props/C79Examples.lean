import Verif.Props.C79

/-!
# C79 (continued): concrete crossovers
-/

namespace Verif.LinkwitzRiley

open Verif.SignalData Verif.LFilter Verif.Bank Complex Finset

/-- The poles of the Butterworth filters are inside the unit circle. -/
theorem den_stable (n : ℕ) (T : ℝ) (hT : 0 < T) (w : ℂ) (hw : ‖w‖ ≤ 1) : den n T w ≠ 0 := by
  unfold den
  refine prod_ne_zero_iff.2 fun k hk => ?_
  rw [mem_range] at hk
  have hn : (0 : ℝ) < n := by exact_mod_cast (by omega : 0 < n)
  have hre : (pole n k).re < 0 := by
    unfold pole
    rw [mul_assoc, mul_comm, ← ofReal_mul, exp_ofReal_mul_I_re]
    have hk' : (k : ℝ) + 1 ≤ n := by exact_mod_cast hk
    have hk0 : (0 : ℝ) ≤ k := k.cast_nonneg
    have hpi := Real.pi_pos
    refine Real.cos_neg_of_pi_div_two_lt_of_lt ?_ ?_
    · rw [← mul_div_assoc, div_lt_div_iff₀ two_pos (by positivity)]
      nlinarith
    · rw [← mul_div_assoc, div_lt_iff₀ (by positivity)]
      nlinarith
  intro h
  have h1 : w * (1 + pole n k * T) = 1 - pole n k * T := by linear_combination -h
  have h2 := congrArg (fun z => ‖z‖ ^ 2) h1
  simp only [norm_mul, mul_pow] at h2
  have h3 : ‖1 + pole n k * T‖ ^ 2 < ‖1 - pole n k * T‖ ^ 2 := by
    rw [Complex.sq_norm, Complex.sq_norm, normSq_apply, normSq_apply]
    simp
    nlinarith
  have h4 : ‖w‖ ^ 2 ≤ 1 := pow_le_one₀ (norm_nonneg _) hw
  nlinarith [sq_nonneg ‖1 + pole n k * T‖]

/-- The filters of first order. -/
noncomputable def butter1 (T : ℝ) : Sos ℝ × Sos ℝ :=
  ([([T / (1 + T), T / (1 + T), 0], [1, (T - 1) / (1 + T), 0])],
    [([1 / (1 + T), -1 / (1 + T), 0], [1, (T - 1) / (1 + T), 0])])

theorem isButter1 (T : ℝ) (hT : 0 < T) : IsButter 1 T (butter1 T) := by
  have h1 : (1 + (T : ℂ)) ≠ 0 := by
    have : (0 : ℝ) < 1 + T := by linarith
    exact_mod_cast this.ne'
  have hd : ∀ w : ℂ, 1 + ((T : ℂ) - 1) / (1 + T) * w = den 1 T w / (1 + T) := fun w => by
    rw [den_one]; field_simp; ring
  have hst : StableDen [1, (T - 1) / (1 + T), 0] := by
    intro w hw
    have : ∑ m ∈ range ([1, (T - 1) / (1 + T), 0] : List ℝ).length,
        (([1, (T - 1) / (1 + T), 0] : List ℝ).getD m 0 : ℂ) * w ^ m = 1 + ((T : ℂ) - 1) / (1 + T) * w := by
      simp [sum_range_succ]
    rw [this, hd]
    exact div_ne_zero (den_stable 1 T hT w hw) h1
  refine ⟨⟨rfl, rfl⟩, by simp [butter1, Filt.Proper], by simp [butter1, Filt.Proper],
    by simpa [butter1, Filt.Stable] using hst, by simpa [butter1, Filt.Stable] using hst, fun w hw => ?_,
    fun w hw => ?_⟩
  · have h2 := den_ne_zero 1 one_ne_zero T hT w hw
    simp only [butter1, Filt.tf, List.map_cons, List.map_nil, List.prod_cons, List.prod_nil, mul_one, evalPoly,
      List.length_cons, List.length_nil]
    simp [sum_range_succ]
    rw [hd]
    field_simp
  · have h2 := den_ne_zero 1 one_ne_zero T hT w hw
    simp only [butter1, Filt.tf, List.map_cons, List.map_nil, List.prod_cons, List.prod_nil, mul_one, evalPoly,
      List.length_cons, List.length_nil]
    simp [sum_range_succ]
    rw [hd]
    field_simp
    ring

theorem den_two (T : ℝ) (w : ℂ) :
    den 2 T w = (1 - w) ^ 2 + √2 * T * (1 - w) * (1 + w) + (T * (1 + w)) ^ 2 := by
  have hs : ((√2 : ℝ) : ℂ) ^ 2 = 2 := by rw [← ofReal_pow, Real.sq_sqrt (by norm_num)]; norm_num
  have h0 : pole 2 0 = (-√2 / 2 : ℝ) + (√2 / 2 : ℝ) * I := by
    unfold pole
    rw [mul_assoc, mul_comm, ← ofReal_mul, exp_mul_I, ← ofReal_cos, ← ofReal_sin]
    have : Real.pi * ((2 * ((0 : ℕ) : ℝ) + ((2 : ℕ) : ℝ) + 1) / (2 * ((2 : ℕ) : ℝ))) = Real.pi - Real.pi / 4 := by
      push_cast; ring
    rw [this, Real.cos_pi_sub, Real.sin_pi_sub, Real.cos_pi_div_four, Real.sin_pi_div_four]
    push_cast; ring
  have h1 : pole 2 1 = (-√2 / 2 : ℝ) - (√2 / 2 : ℝ) * I := by
    unfold pole
    rw [mul_assoc, mul_comm, ← ofReal_mul, exp_mul_I, ← ofReal_cos, ← ofReal_sin]
    have : Real.pi * ((2 * ((1 : ℕ) : ℝ) + ((2 : ℕ) : ℝ) + 1) / (2 * ((2 : ℕ) : ℝ))) = Real.pi / 4 + Real.pi := by
      push_cast; ring
    rw [this, Real.cos_add_pi, Real.sin_add_pi, Real.cos_pi_div_four, Real.sin_pi_div_four]
    push_cast; ring
  unfold den
  rw [prod_range_succ, prod_range_succ, prod_range_zero, h0, h1]
  push_cast
  linear_combination (T * (1 + w)) ^ 2 / 2 * hs - (T * (1 + w)) ^ 2 * (√2 : ℝ) ^ 2 / 4 * I_sq - 0 * hs

/-- The filters of second order. -/
noncomputable def butter2 (T : ℝ) : Sos ℝ × Sos ℝ :=
  let d := 1 + √2 * T + T ^ 2
  let a : List ℝ := [1, 2 * (T ^ 2 - 1) / d, (1 - √2 * T + T ^ 2) / d]
  ([([T ^ 2 / d, 2 * T ^ 2 / d, T ^ 2 / d], a)], [([1 / d, -2 / d, 1 / d], a)])

theorem isButter2 (T : ℝ) (hT : 0 < T) : IsButter 2 T (butter2 T) := by
  have hd0 : (0 : ℝ) < 1 + √2 * T + T ^ 2 := by positivity
  have h1 : (1 + (√2 : ℝ) * (T : ℂ) + T ^ 2) ≠ 0 := by exact_mod_cast hd0.ne'
  have hd : ∀ w : ℂ, 1 + 2 * ((T : ℂ) ^ 2 - 1) / (1 + (√2 : ℝ) * T + T ^ 2) * w +
      (1 - (√2 : ℝ) * T + T ^ 2) / (1 + (√2 : ℝ) * T + T ^ 2) * w ^ 2 =
      den 2 T w / (1 + (√2 : ℝ) * T + T ^ 2) := fun w => by
    rw [den_two]
    generalize hdd : 1 + ((√2 : ℝ) : ℂ) * (T : ℂ) + (T : ℂ) ^ 2 = d at *
    field_simp
    linear_combination -hdd
  have hst : StableDen [1, 2 * (T ^ 2 - 1) / (1 + √2 * T + T ^ 2), (1 - √2 * T + T ^ 2) / (1 + √2 * T + T ^ 2)] := by
    intro w hw
    have := hd w
    simp [sum_range_succ]
    rw [this]
    exact div_ne_zero (den_stable 2 T hT w hw) h1
  refine ⟨⟨rfl, rfl⟩, by simp [butter2, Filt.Proper], by simp [butter2, Filt.Proper],
    by simpa [butter2, Filt.Stable] using hst, by simpa [butter2, Filt.Stable] using hst, fun w hw => ?_,
    fun w hw => ?_⟩
  · have h2 := den_ne_zero 2 two_ne_zero T hT w hw
    simp only [butter2, Filt.tf, List.map_cons, List.map_nil, List.prod_cons, List.prod_nil, mul_one, evalPoly,
      List.length_cons, List.length_nil]
    simp [sum_range_succ]
    rw [hd]
    generalize 1 + ((√2 : ℝ) : ℂ) * (T : ℂ) + (T : ℂ) ^ 2 = d at *
    field_simp
    ring
  · have h2 := den_ne_zero 2 two_ne_zero T hT w hw
    simp only [butter2, Filt.tf, List.map_cons, List.map_nil, List.prod_cons, List.prod_nil, mul_one, evalPoly,
      List.length_cons, List.length_nil]
    simp [sum_range_succ]
    rw [hd]
    generalize 1 + ((√2 : ℝ) : ℂ) * (T : ℂ) + (T : ℂ) ^ 2 = d at *
    field_simp
    ring

/-- Concrete case: crossovers of the orders 1, 2 and 4. -/
example (f fs : ℝ) (hf : 0 < f) (h : f < fs / 2) :
    let T := Real.tan (Real.pi * f / fs)
    let butter : ℕ → ℝ → Sos ℝ × Sos ℝ := fun n T => if n = 1 then butter1 T else butter2 T
    Designed butter 1 f fs ⟨(butter1 T).1, (butter1 T).2⟩ ∧ Designed butter 2 f fs (second T) ∧
    Designed butter 4 f fs ⟨(butter2 T).1 ++ (butter2 T).1, (butter2 T).2 ++ (butter2 T).2⟩ := by
  have hT := tan_pos f fs hf h
  refine ⟨⟨one_ne_zero, hf, h, fun _ => ?_, rfl⟩, ⟨two_ne_zero, hf, h, fun h => absurd rfl h, rfl⟩,
    ⟨by norm_num, hf, h, fun _ => ?_, rfl⟩⟩
  · simpa [butterOrder] using isButter1 _ hT
  · simpa [butterOrder] using isButter2 _ hT

end Verif.LinkwitzRiley

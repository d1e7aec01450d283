import Verif.Props.C72

/-!
# C71: warping back, in the limit of long zero padding
-/

namespace Verif.Props.C71

open Warp Bank StableFilter PowerSeries C72 Filter Topology

theorem allpass_basis (lam : ℝ) (j : ℕ) :
    C (√(1 - lam ^ 2)) * allpassSeries lam ^ j = (1 - C lam * X) * basis (-lam) j := by
  have h : (1 + C (-lam) * X) * (1 + C (-lam) * X : PowerSeries ℝ)⁻¹ = 1 := unit_cancel (-lam)
  have e1 : (1 : PowerSeries ℝ) - C lam * X = 1 + C (-lam) * X := by rw [map_neg]; ring
  have e2 : (X : PowerSeries ℝ) - C lam = C (-lam) + X := by rw [map_neg]; ring
  unfold allpassSeries basis
  rw [e1, e2, neg_sq]
  linear_combination -(C √(1 - lam ^ 2) * ((C (-lam) + X) * (1 + C (-lam) * X)⁻¹) ^ j) * h

theorem power_zero (lam : ℝ) (j : ℕ) :
    √(1 - lam ^ 2) * coeff 0 (allpassSeries lam ^ j) = coeff 0 (basis (-lam) j) := by
  have h := congrArg (coeff 0) (allpass_basis lam j)
  rw [sub_mul, one_mul, mul_assoc, map_sub, PowerSeries.coeff_C_mul, PowerSeries.coeff_C_mul,
    PowerSeries.coeff_zero_X_mul] at h
  linarith

theorem power_succ (lam : ℝ) (j m : ℕ) :
    √(1 - lam ^ 2) * coeff (m + 1) (allpassSeries lam ^ j) =
      coeff (m + 1) (basis (-lam) j) - lam * coeff m (basis (-lam) j) := by
  have h := congrArg (coeff (m + 1)) (allpass_basis lam j)
  rwa [sub_mul, one_mul, mul_assoc, map_sub, PowerSeries.coeff_C_mul, PowerSeries.coeff_C_mul,
    PowerSeries.coeff_succ_X_mul] at h

/-- The matrices of a factor and of the opposite one are inverse. -/
theorem inverse_matrices (lam : ℝ) (hl : |lam| < 1) (j n : ℕ) :
    Tendsto (fun N => ∑ m ∈ Finset.range N,
      coeff m (allpassSeries lam ^ j) * coeff n (allpassSeries (-lam) ^ m)) atTop
      (𝓝 (if j = n then 1 else 0)) := by
  have hk : 0 < 1 - lam ^ 2 := by nlinarith [abs_lt.1 hl]
  have hl' : |-lam| < 1 := by rwa [abs_neg]
  have hs := Real.mul_self_sqrt hk.le
  rw [← tendsto_add_atTop_iff_nat 1]
  have hq0 : ∀ m, √(1 - lam ^ 2) * coeff 0 (allpassSeries (-lam) ^ m) =
      coeff m (basis (-lam) 0) := by
    intro m
    have := power_zero (-lam) m
    rw [neg_sq, neg_neg] at this
    rw [this, transposed]
  have hqs : ∀ m n, √(1 - lam ^ 2) * coeff (n + 1) (allpassSeries (-lam) ^ m) =
      coeff m (basis (-lam) (n + 1)) + lam * coeff m (basis (-lam) n) := by
    intro m n
    have := power_succ (-lam) m n
    rw [neg_sq, neg_neg] at this
    rw [this, transposed, transposed lam m n]
    ring
  cases n with
  | zero =>
    have e : ∀ N, ∑ m ∈ Finset.range (N + 1),
        coeff m (allpassSeries lam ^ j) * coeff 0 (allpassSeries (-lam) ^ m) =
        (∑ m ∈ Finset.range (N + 1), coeff m (basis (-lam) j) * coeff m (basis (-lam) 0) -
          lam ^ 2 * ∑ m ∈ Finset.range N, coeff m (basis (-lam) j) * coeff m (basis (-lam) 0)) /
          (1 - lam ^ 2) := by
      intro N
      rw [eq_div_iff hk.ne', Finset.sum_range_succ', Finset.sum_range_succ', Finset.mul_sum,
        add_mul, Finset.sum_mul, add_sub_right_comm, ← Finset.sum_sub_distrib]
      congr 1
      · refine Finset.sum_congr rfl fun m _ => ?_
        have h1 := power_succ lam j m
        have h2 := hq0 (m + 1)
        have h3 := rec_zero_succ (-lam) m
        rw [neg_neg] at h3
        rw [← hs]
        linear_combination (√(1 - lam ^ 2) * coeff 0 (allpassSeries (-lam) ^ (m + 1))) * h1 +
          (coeff (m + 1) (basis (-lam) j) - lam * coeff m (basis (-lam) j)) * h2 -
          lam * coeff m (basis (-lam) j) * h3
      · have h1 := power_zero lam j
        have h2 := hq0 0
        rw [← hs]
        linear_combination (√(1 - lam ^ 2) * coeff 0 (allpassSeries (-lam) ^ 0)) * h1 +
          coeff 0 (basis (-lam) j) * h2
    simp only [e]
    have t := orthonormal (-lam) hl' j 0
    have t1 := t
    rw [← tendsto_add_atTop_iff_nat 1] at t1
    have := (t1.sub (t.const_mul (lam ^ 2))).div_const (1 - lam ^ 2)
    convert this using 2
    split_ifs
    · field_simp
    · simp
  | succ n =>
    have e : ∀ N, ∑ m ∈ Finset.range (N + 1),
        coeff m (allpassSeries lam ^ j) * coeff (n + 1) (allpassSeries (-lam) ^ m) =
        ((∑ m ∈ Finset.range (N + 1), coeff m (basis (-lam) j) * coeff m (basis (-lam) (n + 1)) +
          lam * ∑ m ∈ Finset.range (N + 1), coeff m (basis (-lam) j) * coeff m (basis (-lam) n)) -
          (lam * ∑ m ∈ Finset.range N, coeff m (basis (-lam) j) * coeff m (basis (-lam) n) +
          lam ^ 2 * ∑ m ∈ Finset.range N,
            coeff m (basis (-lam) j) * coeff m (basis (-lam) (n + 1)))) / (1 - lam ^ 2) := by
      intro N
      rw [eq_div_iff hk.ne', Finset.mul_sum, ← Finset.sum_add_distrib, Finset.mul_sum,
        Finset.mul_sum, ← Finset.sum_add_distrib, Finset.sum_range_succ',
        Finset.sum_range_succ' _ N, add_mul, Finset.sum_mul, add_sub_right_comm,
        ← Finset.sum_sub_distrib]
      congr 1
      · refine Finset.sum_congr rfl fun m _ => ?_
        have h1 := power_succ lam j m
        have h2 := hqs (m + 1) n
        have h3 := rec_succ_succ (-lam) n m
        rw [← hs]
        linear_combination (√(1 - lam ^ 2) * coeff (n + 1) (allpassSeries (-lam) ^ (m + 1))) * h1 +
          (coeff (m + 1) (basis (-lam) j) - lam * coeff m (basis (-lam) j)) * h2 -
          lam * coeff m (basis (-lam) j) * h3
      · have h1 := power_zero lam j
        have h2 := hqs 0 n
        rw [← hs]
        linear_combination (√(1 - lam ^ 2) * coeff (n + 1) (allpassSeries (-lam) ^ 0)) * h1 +
          coeff 0 (basis (-lam) j) * h2
    simp only [e]
    have t := orthonormal (-lam) hl' j (n + 1)
    have u := orthonormal (-lam) hl' j n
    have t1 := t
    rw [← tendsto_add_atTop_iff_nat 1] at t1
    have u1 := u
    rw [← tendsto_add_atTop_iff_nat 1] at u1
    have := ((t1.add (u1.const_mul lam)).sub ((u.const_mul lam).add
      (t.const_mul (lam ^ 2)))).div_const (1 - lam ^ 2)
    convert this using 2
    by_cases h : j = n + 1
    · rw [if_pos h]
      field_simp
      ring
    · rw [if_neg h]
      simp

/-- Warping with the factor and then with the opposite one returns the signal in the limit of long
zero padding. -/
theorem C71_reversible_limit_partial (lam : ℝ) (hl : |lam| < 1) (x : List ℝ) (n : ℕ)
    (hn : n < x.length) (eps : ℝ) (heps : 0 < eps) :
    ∃ m₀, ∀ m ≥ m₀,
      |(warpSeries (-lam) (warpSeries lam (x ++ List.replicate m 0))).getD n 0 - x.getD n 0| <
        eps := by
  have key : Tendsto (fun N => ∑ m ∈ Finset.range N,
      coeff m (warped lam x) * coeff n (allpassSeries (-lam) ^ m)) atTop (𝓝 (x.getD n 0)) := by
    have e : ∀ N, ∑ m ∈ Finset.range N,
        coeff m (warped lam x) * coeff n (allpassSeries (-lam) ^ m) =
        ∑ j ∈ Finset.range x.length, x.getD j 0 * ∑ m ∈ Finset.range N,
          coeff m (allpassSeries lam ^ j) * coeff n (allpassSeries (-lam) ^ m) := by
      intro N
      unfold warped
      simp only [map_sum, PowerSeries.coeff_C_mul, Finset.sum_mul, Finset.mul_sum]
      rw [Finset.sum_comm]
      refine Finset.sum_congr rfl fun j _ => Finset.sum_congr rfl fun m _ => by ring
    simp only [e]
    have t := tendsto_finsetSum (Finset.range x.length) fun j _ =>
      (inverse_matrices lam hl j n).const_mul (x.getD j 0)
    convert t using 2
    rw [Finset.sum_eq_single n]
    · simp
    · intro m _ hm
      rw [if_neg hm, mul_zero]
    · intro h
      exact absurd (Finset.mem_range.2 hn) h
  obtain ⟨N, hN⟩ := (Metric.tendsto_atTop.1 key) eps heps
  refine ⟨N, fun m hm => ?_⟩
  have hlen := (C71_warped lam (x ++ List.replicate m 0)).1
  rw [(C71_warped (-lam) _).2 n (by rw [hlen]; simp; omega)]
  have e : coeff n (warped (-lam) (warpSeries lam (x ++ List.replicate m 0))) =
      ∑ k ∈ Finset.range (x ++ List.replicate m 0).length,
        coeff k (warped lam x) * coeff n (allpassSeries (-lam) ^ k) := by
    conv_lhs => unfold warped
    rw [map_sum, hlen]
    refine Finset.sum_congr rfl fun k hk => ?_
    rw [PowerSeries.coeff_C_mul, (C71_warped lam _).2 k (Finset.mem_range.1 hk), warped_padding]
  rw [e]
  have := hN (x ++ List.replicate m 0).length (by simp; omega)
  rwa [Real.dist_eq] at this

example : |(-7 / 10 : ℝ)| < 1 ∧ 1 < ([1, 2, 3] : List ℝ).length := by
  refine ⟨?_, by simp⟩
  rw [abs_lt]
  constructor <;> norm_num

end Verif.Props.C71

import Verif.Props.C71

/-!
# C72: the Laguerre transform
-/

namespace Verif.Props.C72

open Warp Bank StableFilter PowerSeries C71 Filter Topology

/-- The Laguerre sequence of order `i`:
`√(1 - λ²) / (1 + λ z⁻¹) · ((λ + z⁻¹) / (1 + λ z⁻¹))ⁱ` as a power series in `z⁻¹`. -/
noncomputable def basis (lam : ℝ) (i : ℕ) : PowerSeries ℝ :=
  C (√(1 - lam ^ 2)) * (1 + C lam * X)⁻¹ * ((C lam + X) * (1 + C lam * X)⁻¹) ^ i

theorem basis_succ (lam : ℝ) (i : ℕ) :
    basis lam (i + 1) = ratio [lam, 1] [1, lam] * basis lam i := by
  unfold basis ratio
  rw [zseries_pair, zseries_pair, map_one, one_mul, pow_succ]
  ring

theorem zseries_one (p : ℝ) : zseries [p] = C p := by
  ext n
  rw [zseries_coeff]
  cases n with
  | zero => simp
  | succ n => simp

theorem basis_zero (lam : ℝ) : basis lam 0 = ratio [√(1 - lam ^ 2)] [1, lam] := by
  unfold basis ratio
  rw [zseries_one, zseries_pair, map_one, pow_zero, mul_one]

theorem getLastD_eq (y : List ℝ) : y.getLastD 0 = y.getD (y.length - 1) 0 := by
  rw [List.getLastD_eq_getLast?, List.getLast?_eq_getElem?, List.getD_eq_getElem?_getD]

theorem laguerreLoop_spec (lam : ℝ) (m i : ℕ) (x y : List ℝ) (hx : x ≠ [])
    (hy : y.length = x.length) (h : AgreeUpTo x.length (zseries y) (basis lam i * zseries x)) :
    (laguerreLoop [lam, 1] [1, lam] m y).length = m ∧
      ∀ k < m, (laguerreLoop [lam, 1] [1, lam] m y).getD k 0 =
        coeff (x.length - 1) (basis lam (i + 1 + k) * zseries x) := by
  induction m generalizing i y with
  | zero => simp [laguerreLoop]
  | succ m ih =>
    have hf := lfilter_agree [lam, 1] [1, lam] y (by simp)
    rw [hy] at hf
    have hf' : AgreeUpTo x.length (zseries (lfilter [lam, 1] [1, lam] y))
        (basis lam (i + 1) * zseries x) := by
      rw [basis_succ, mul_assoc]
      exact hf.trans (h.mul_left _)
    have hl : (lfilter [lam, 1] [1, lam] y).length = x.length := by rw [lfilter_length, hy]
    obtain ⟨r1, r2⟩ := ih (i + 1) _ hl hf'
    unfold laguerreLoop
    dsimp only
    refine ⟨by rw [List.length_cons, r1], fun k hk => ?_⟩
    cases k with
    | zero =>
      have hp := List.length_pos_of_ne_nil hx
      rw [List.getD_cons_zero, getLastD_eq, hl,
        ← zseries_coeff, hf' _ (by omega)]
    | succ k =>
      rw [List.getD_cons_succ, r2 k (by omega)]
      congr 3
      omega

/-- For a factor inside the unit interval, sample `i` of the transform is the inner product of the
signal with the Laguerre sequence of order `i`; other factors are refused. -/
theorem C72_inner_products (lam : ℝ) (x : List ℝ) (hx : x ≠ []) :
    (|lam| < 1 → ∃ y, laguerre lam x = .ok y ∧ y.length = x.length ∧
      ∀ i < x.length, y.getD i 0 =
        ∑ n ∈ Finset.range x.length, x.getD n 0 * coeff n (basis lam i)) ∧
      (¬ |lam| < 1 → laguerre lam x = .error .assertionError) := by
  refine ⟨fun hl => ?_, fun hl => by unfold laguerre; rw [if_pos hl]⟩
  unfold laguerre
  rw [if_neg (not_not.2 hl)]
  refine ⟨_, rfl, ?_⟩
  have hp := List.length_pos_of_ne_nil hx
  have hrl : x.reverse.length = x.length := by simp
  have hf := lfilter_agree [√(1 - lam ^ 2)] [1, lam] x.reverse (by simp)
  rw [← basis_zero] at hf
  have hfl : (lfilter [√(1 - lam ^ 2)] [1, lam] x.reverse).length = x.reverse.length := by
    rw [lfilter_length]
  obtain ⟨r1, r2⟩ := laguerreLoop_spec lam (x.length - 1) 0 x.reverse _ (by simpa using hx) hfl hf
  refine ⟨by rw [List.length_cons, r1]; omega, fun i hi => ?_⟩
  have key : ((lfilter [√(1 - lam ^ 2)] [1, lam] x.reverse).getLastD 0 ::
      laguerreLoop [lam, 1] [1, lam] (x.length - 1)
        (lfilter [√(1 - lam ^ 2)] [1, lam] x.reverse)).getD i 0 =
      coeff (x.length - 1) (basis lam i * zseries x.reverse) := by
    cases i with
    | zero =>
      rw [List.getD_cons_zero, getLastD_eq, hfl, ← zseries_coeff, hf _ (by omega), hrl]
    | succ i =>
      rw [List.getD_cons_succ, r2 i (by omega), hrl]
      congr 3
      omega
  refine key.trans ?_
  rw [PowerSeries.coeff_mul, Finset.Nat.sum_antidiagonal_eq_sum_range_succ_mk,
    show (x.length - 1).succ = x.length by omega]
  refine Finset.sum_congr rfl fun n hn => ?_
  have hn' := Finset.mem_range.1 hn
  dsimp only
  rw [zseries_coeff, mul_comm]
  congr 1
  rw [List.getD_eq_getElem _ _ (by rw [hrl]; omega), List.getD_eq_getElem _ _ hn',
    List.getElem_reverse]
  congr 1
  omega

example : |(3 / 5 : ℝ)| < 1 ∧ ([1, 2, 3] : List ℝ) ≠ [] := by
  refine ⟨?_, by simp⟩
  rw [abs_of_pos] <;> norm_num

/-! ### The matrix of the transform -/

theorem unit_cancel (lam : ℝ) : (1 + C lam * X) * (1 + C lam * X : PowerSeries ℝ)⁻¹ = 1 :=
  PowerSeries.mul_inv_cancel _ (by simp)

theorem rec_zero_zero (lam : ℝ) : coeff 0 (basis lam 0) = √(1 - lam ^ 2) := by
  have h : (1 + C lam * X) * basis lam 0 = C (√(1 - lam ^ 2)) := by
    unfold basis
    linear_combination C (√(1 - lam ^ 2)) * unit_cancel lam
  have h0 := congrArg (coeff 0) h
  rw [add_mul, one_mul, mul_assoc, map_add, PowerSeries.coeff_C_mul,
    PowerSeries.coeff_zero_X_mul, mul_zero, add_zero] at h0
  simpa using h0

theorem rec_zero_succ (lam : ℝ) (n : ℕ) :
    coeff (n + 1) (basis lam 0) = -lam * coeff n (basis lam 0) := by
  have h : (1 + C lam * X) * basis lam 0 = C (√(1 - lam ^ 2)) := by
    unfold basis
    linear_combination C (√(1 - lam ^ 2)) * unit_cancel lam
  have h0 := congrArg (coeff (n + 1)) h
  rw [add_mul, one_mul, mul_assoc, map_add, PowerSeries.coeff_C_mul,
    PowerSeries.coeff_succ_X_mul, PowerSeries.coeff_C, if_neg (Nat.succ_ne_zero n)] at h0
  linarith

theorem rec_step (lam : ℝ) (i : ℕ) :
    (1 + C lam * X) * basis lam (i + 1) = (C lam + X) * basis lam i := by
  unfold basis
  rw [pow_succ _ i]
  linear_combination ((C lam + X) * (C (√(1 - lam ^ 2)) * (1 + C lam * X)⁻¹ *
    ((C lam + X) * (1 + C lam * X)⁻¹) ^ i)) * unit_cancel lam

theorem rec_succ_zero (lam : ℝ) (i : ℕ) :
    coeff 0 (basis lam (i + 1)) = lam * coeff 0 (basis lam i) := by
  have h0 := congrArg (coeff 0) (rec_step lam i)
  rw [add_mul, add_mul, one_mul, mul_assoc, map_add, map_add, PowerSeries.coeff_C_mul,
    PowerSeries.coeff_C_mul, PowerSeries.coeff_zero_X_mul, PowerSeries.coeff_zero_X_mul] at h0
  linarith

theorem rec_succ_succ (lam : ℝ) (i n : ℕ) :
    coeff (n + 1) (basis lam (i + 1)) = lam * coeff (n + 1) (basis lam i) + coeff n (basis lam i) -
      lam * coeff n (basis lam (i + 1)) := by
  have h0 := congrArg (coeff (n + 1)) (rec_step lam i)
  rw [add_mul, add_mul, one_mul, mul_assoc, map_add, map_add, PowerSeries.coeff_C_mul,
    PowerSeries.coeff_C_mul, PowerSeries.coeff_succ_X_mul, PowerSeries.coeff_succ_X_mul] at h0
  linarith

/-- The matrix of the opposite factor is the transposed one. -/
theorem transposed (lam : ℝ) (i n : ℕ) : coeff n (basis lam i) = coeff i (basis (-lam) n) := by
  induction i generalizing n with
  | zero =>
    induction n with
    | zero => rw [rec_zero_zero, rec_zero_zero, neg_sq]
    | succ n ih => rw [rec_zero_succ, rec_succ_zero, ih]
  | succ i ih =>
    induction n with
    | zero => rw [rec_zero_succ, rec_succ_zero, ih, neg_neg]
    | succ n ih2 =>
      rw [rec_succ_succ, rec_succ_succ, ih2, ih, ih]
      ring

theorem basis_value (lam : ℝ) (hl : |lam| < 1) (i : ℕ) :
    AbsSum (cplx (basis lam i)) ∧ ∀ w : ℂ, ‖w‖ ≤ 1 → valueAt (cplx (basis lam i)) w =
      √(1 - lam ^ 2) / (1 + lam * w) * ((lam + w) / (1 + lam * w)) ^ i := by
  have hs : StableDen [1, lam] := by
    intro w hw
    have := den_ne_zero (-lam) (by rwa [abs_neg]) w hw
    simpa [Finset.sum_range_succ] using this
  induction i with
  | zero =>
    rw [basis_zero]
    obtain ⟨h1, h2⟩ := ratio_value [√(1 - lam ^ 2)] [1, lam] (by simp) hs
    refine ⟨h1, fun w hw => ?_⟩
    rw [h2 w hw]
    simp [evalPoly, Finset.sum_range_succ]
  | succ i ih =>
    obtain ⟨h1, h2⟩ := mul_value (ratio_value [lam, 1] [1, lam] (by simp) hs) ih
    rw [basis_succ]
    refine ⟨h1, fun w hw => ?_⟩
    rw [h2 w hw]
    simp [evalPoly, Finset.sum_range_succ]
    ring

theorem basis_tendsto (lam : ℝ) (hl : |lam| < 1) (i : ℕ) :
    Tendsto (fun n => coeff n (basis lam i)) atTop (𝓝 0) := by
  have h := (basis_value lam hl i).1.tendsto_atTop_zero
  simp only [cplx_coeff, Complex.norm_real] at h
  exact tendsto_zero_iff_norm_tendsto_zero.2 h

/-- Lossless step: the inner product up to `N` of two sequences filtered with the allpass. -/
theorem lossless (lam : ℝ) (i j N : ℕ) :
    (1 - lam ^ 2) * (∑ n ∈ Finset.range (N + 1),
        (coeff n (basis lam (i + 1)) * coeff n (basis lam (j + 1)) -
          coeff n (basis lam i) * coeff n (basis lam j))) =
      -((coeff N (basis lam i) - lam * coeff N (basis lam (i + 1))) *
        (coeff N (basis lam j) - lam * coeff N (basis lam (j + 1)))) := by
  induction N with
  | zero =>
    rw [Finset.sum_range_one, rec_succ_zero, rec_succ_zero]
    ring
  | succ N ih =>
    rw [Finset.sum_range_succ, mul_add, ih, rec_succ_succ, rec_succ_succ]
    ring

/-- The Laguerre sequences are orthonormal. -/
theorem orthonormal (lam : ℝ) (hl : |lam| < 1) (i j : ℕ) :
    Tendsto (fun N => ∑ n ∈ Finset.range N, coeff n (basis lam i) * coeff n (basis lam j)) atTop
      (𝓝 (if i = j then 1 else 0)) := by
  have hk : 0 < 1 - lam ^ 2 := by nlinarith [abs_lt.1 hl]
  have step : ∀ i j, ∀ v : ℝ,
      Tendsto (fun N => ∑ n ∈ Finset.range N, coeff n (basis lam i) * coeff n (basis lam j)) atTop
        (𝓝 v) →
      Tendsto (fun N => ∑ n ∈ Finset.range N,
        coeff n (basis lam (i + 1)) * coeff n (basis lam (j + 1))) atTop (𝓝 v) := by
    intro i j v h
    rw [← tendsto_add_atTop_iff_nat 1] at h ⊢
    have e : ∀ N, ∑ n ∈ Finset.range (N + 1),
        coeff n (basis lam (i + 1)) * coeff n (basis lam (j + 1)) =
        ∑ n ∈ Finset.range (N + 1), coeff n (basis lam i) * coeff n (basis lam j) -
          (coeff N (basis lam i) - lam * coeff N (basis lam (i + 1))) *
          (coeff N (basis lam j) - lam * coeff N (basis lam (j + 1))) / (1 - lam ^ 2) := by
      intro N
      have := lossless lam i j N
      rw [Finset.sum_sub_distrib] at this
      field_simp
      linarith
    simp only [e]
    have t := ((((basis_tendsto lam hl i).sub ((basis_tendsto lam hl (i + 1)).const_mul lam)).mul
      ((basis_tendsto lam hl j).sub ((basis_tendsto lam hl (j + 1)).const_mul lam))).div_const
      (1 - lam ^ 2))
    have := h.sub t
    simpa using this
  have base : ∀ j, Tendsto (fun N => ∑ n ∈ Finset.range N,
      coeff n (basis lam 0) * coeff n (basis lam j)) atTop (𝓝 (if 0 = j then 1 else 0)) := by
    intro j
    have hc : ∀ n, coeff n (basis lam 0) = √(1 - lam ^ 2) * (-lam) ^ n := by
      intro n
      induction n with
      | zero => rw [rec_zero_zero, pow_zero, mul_one]
      | succ n ih => rw [rec_zero_succ, ih]; ring
    obtain ⟨h1, h2⟩ := basis_value lam hl j
    have hw : ‖((-lam : ℝ) : ℂ)‖ ≤ 1 := by
      rw [Complex.norm_real, Real.norm_eq_abs, abs_neg]
      exact hl.le
    have h3 := (h1.hasSum _ hw).mul_left (√(1 - lam ^ 2) : ℂ)
    rw [h2 _ hw] at h3
    have h4 : (√(1 - lam ^ 2) : ℂ) * (√(1 - lam ^ 2) / (1 + lam * ((-lam : ℝ) : ℂ)) *
        ((lam + ((-lam : ℝ) : ℂ)) / (1 + lam * ((-lam : ℝ) : ℂ))) ^ j) =
        ((if 0 = j then 1 else 0 : ℝ) : ℂ) := by
      have hs : (√(1 - lam ^ 2) : ℂ) * √(1 - lam ^ 2) = 1 - lam ^ 2 := by
        rw [← Complex.ofReal_mul, Real.mul_self_sqrt hk.le]
        push_cast
        rfl
      have hk' : (1 : ℂ) - lam ^ 2 ≠ 0 := by exact_mod_cast hk.ne'
      have e1 : (1 : ℂ) + lam * ((-lam : ℝ) : ℂ) = 1 - lam ^ 2 := by push_cast; ring
      rw [e1, ← mul_assoc, mul_div_assoc', hs, div_self hk', one_mul]
      cases j with
      | zero => simp
      | succ j => simp
    rw [h4] at h3
    have h5 : HasSum (fun n => coeff n (basis lam 0) * coeff n (basis lam j))
        (if 0 = j then 1 else 0 : ℝ) := by
      rw [← Complex.hasSum_ofReal]
      refine h3.congr_fun fun n => ?_
      rw [hc, cplx_coeff]
      push_cast
      ring
    exact h5.tendsto_sum_nat
  induction i generalizing j with
  | zero => exact base j
  | succ i ih =>
    cases j with
    | zero =>
      have := base (i + 1)
      rw [if_neg (by omega)] at this
      rw [if_neg (by omega)]
      simpa only [mul_comm] using this
    | succ j =>
      have := step i j _ (ih j)
      simpa using this

/-- Completeness. -/
theorem complete (lam : ℝ) (hl : |lam| < 1) (m n : ℕ) :
    Tendsto (fun N => ∑ i ∈ Finset.range N, coeff m (basis lam i) * coeff n (basis lam i)) atTop
      (𝓝 (if m = n then 1 else 0)) := by
  simp only [transposed lam]
  exact orthonormal (-lam) (by rwa [abs_neg]) m n

/-- Inner product of the signal with the sequence of order `i`. -/
noncomputable def inner (lam : ℝ) (x : List ℝ) (i : ℕ) : ℝ :=
  ∑ n ∈ Finset.range x.length, x.getD n 0 * coeff n (basis lam i)

theorem reconstruct (lam : ℝ) (hl : |lam| < 1) (x : List ℝ) (n : ℕ) :
    Tendsto (fun N => ∑ i ∈ Finset.range N, inner lam x i * coeff n (basis lam i)) atTop
      (𝓝 (x.getD n 0)) := by
  have e : ∀ N, ∑ i ∈ Finset.range N, inner lam x i * coeff n (basis lam i) =
      ∑ m ∈ Finset.range x.length, x.getD m 0 *
        ∑ i ∈ Finset.range N, coeff m (basis lam i) * coeff n (basis lam i) := by
    intro N
    unfold inner
    simp only [Finset.sum_mul, Finset.mul_sum]
    rw [Finset.sum_comm]
    refine Finset.sum_congr rfl fun m _ => Finset.sum_congr rfl fun i _ => by ring
  simp only [e]
  have t : Tendsto (fun N => ∑ m ∈ Finset.range x.length, x.getD m 0 *
        ∑ i ∈ Finset.range N, coeff m (basis lam i) * coeff n (basis lam i)) atTop
      (𝓝 (∑ m ∈ Finset.range x.length, x.getD m 0 * if m = n then 1 else 0)) :=
    tendsto_finsetSum _ fun m _ => (complete lam hl m n).const_mul _
  convert t using 2
  rcases Nat.lt_or_ge n x.length with hn | hn
  · rw [Finset.sum_eq_single n]
    · simp
    · intro m _ hm
      rw [if_neg hm, mul_zero]
    · intro h
      exact absurd (Finset.mem_range.2 hn) h
  · rw [List.getD_eq_default _ _ hn]
    symm
    refine Finset.sum_eq_zero fun m hm => ?_
    have := Finset.mem_range.1 hm
    rw [if_neg (by omega), mul_zero]

theorem energy_limit (lam : ℝ) (hl : |lam| < 1) (x : List ℝ) :
    Tendsto (fun N => ∑ i ∈ Finset.range N, inner lam x i ^ 2) atTop
      (𝓝 (∑ n ∈ Finset.range x.length, x.getD n 0 ^ 2)) := by
  have e : ∀ N, ∑ i ∈ Finset.range N, inner lam x i ^ 2 =
      ∑ n ∈ Finset.range x.length, x.getD n 0 *
        ∑ i ∈ Finset.range N, inner lam x i * coeff n (basis lam i) := by
    intro N
    simp only [Finset.mul_sum]
    rw [Finset.sum_comm]
    refine Finset.sum_congr rfl fun i _ => ?_
    rw [sq]
    nth_rewrite 2 [inner]
    rw [Finset.mul_sum]
    refine Finset.sum_congr rfl fun n _ => by ring
  simp only [e]
  have t := tendsto_finsetSum (Finset.range x.length) fun n _ =>
    (reconstruct lam hl x n).const_mul (x.getD n 0)
  simpa only [sq] using t

/-- The transform never has more energy than the signal. -/
theorem C72_energy (lam : ℝ) (x y : List ℝ) (hx : x ≠ []) (h : laguerre lam x = .ok y) :
    ∑ i ∈ Finset.range y.length, y.getD i 0 ^ 2 ≤
      ∑ n ∈ Finset.range x.length, x.getD n 0 ^ 2 := by
  have hl : |lam| < 1 := by
    by_contra hl
    rw [(C72_inner_products lam x hx).2 hl] at h
    exact nomatch h
  obtain ⟨y', h1, h2, h3⟩ := (C72_inner_products lam x hx).1 hl
  rw [h] at h1
  obtain rfl : y = y' := by simpa using h1
  have e : ∑ i ∈ Finset.range y.length, y.getD i 0 ^ 2 =
      ∑ i ∈ Finset.range x.length, inner lam x i ^ 2 := by
    rw [h2]
    refine Finset.sum_congr rfl fun i hi => ?_
    rw [h3 i (Finset.mem_range.1 hi)]
    rfl
  rw [e]
  refine Monotone.ge_of_tendsto (f := fun N => ∑ i ∈ Finset.range N, inner lam x i ^ 2)
    (fun a b hab => ?_) (energy_limit lam hl x) x.length
  exact Finset.sum_le_sum_of_subset_of_nonneg (Finset.range_mono hab) fun i _ _ => sq_nonneg _

/-- Padding with zeros only appends samples to the inner products. -/
theorem inner_padding (lam : ℝ) (x : List ℝ) (m i : ℕ) :
    inner lam (x ++ List.replicate m 0) i = inner lam x i := by
  unfold inner
  rw [List.length_append, List.length_replicate]
  symm
  have hsub : Finset.range x.length ⊆ Finset.range (x.length + m) :=
    Finset.range_mono (Nat.le_add_right _ _)
  rw [← Finset.sum_subset hsub]
  · refine Finset.sum_congr rfl fun n hn => ?_
    rw [List.getD_append _ _ _ _ (Finset.mem_range.1 hn)]
  · intro n hn hn'
    have h1 : x.length ≤ n := by simpa using hn'
    have h2 : n < x.length + m := by simpa using hn
    rw [List.getD_append_right _ _ _ _ h1, List.getD_eq_getElem _ _ (by simp; omega)]
    simp

/-- The transform of `x` with the factor, and then with the opposite one. -/
noncomputable def backAndForth (lam : ℝ) (x : List ℝ) : Except Err (List ℝ) :=
  laguerre lam x >>= laguerre (-lam)

theorem backAndForth_eq (lam : ℝ) (hl : |lam| < 1) (x : List ℝ) (hx : x ≠ []) :
    ∃ z, backAndForth lam x = .ok z ∧ z.length = x.length ∧ ∀ n < x.length, z.getD n 0 =
      ∑ i ∈ Finset.range x.length, inner lam x i * coeff n (basis lam i) := by
  obtain ⟨y, h1, h2, h3⟩ := (C72_inner_products lam x hx).1 hl
  have hy : y ≠ [] := List.ne_nil_of_length_pos (h2 ▸ List.length_pos_of_ne_nil hx)
  obtain ⟨z, g1, g2, g3⟩ := (C72_inner_products (-lam) y hy).1 (by rwa [abs_neg])
  refine ⟨z, by unfold backAndForth; rw [h1]; exact g1, g2.trans h2, fun n hn => ?_⟩
  rw [g3 n (h2 ▸ hn), h2]
  refine Finset.sum_congr rfl fun i hi => ?_
  rw [h3 i (Finset.mem_range.1 hi), ← transposed]
  rfl

/-- Applying the transform with the factor and with the opposite one returns the signal in the
limit of long zero padding. -/
theorem C72_reversible_limit_partial (lam : ℝ) (hl : |lam| < 1) (x : List ℝ) (n : ℕ)
    (hn : n < x.length) (eps : ℝ) (heps : 0 < eps) :
    ∃ m₀, ∀ m ≥ m₀, ∃ z, backAndForth lam (x ++ List.replicate m 0) = .ok z ∧
      |z.getD n 0 - x.getD n 0| < eps := by
  have hx : x ≠ [] := List.ne_nil_of_length_pos (by omega)
  obtain ⟨N, hN⟩ := (Metric.tendsto_atTop.1 (reconstruct lam hl x n)) eps heps
  refine ⟨N, fun m hm => ?_⟩
  obtain ⟨z, h1, _, h3⟩ := backAndForth_eq lam hl (x ++ List.replicate m 0) (by simp [hx])
  refine ⟨z, h1, ?_⟩
  rw [h3 n (by simp; omega)]
  simp only [inner_padding]
  have := hN (x ++ List.replicate m 0).length (by simp; omega)
  rwa [Real.dist_eq] at this

/-- The response of the complete transform is the weighted response at the warped frequency: the
mapping is the one of warping with the same factor. -/
theorem C72_frequencies (lam : ℝ) (hl : |lam| < 1) (x : List ℝ) (hx : x ≠ []) :
    ∃ Y : ℕ → ℝ, (∀ m y, laguerre lam (x ++ List.replicate m 0) = .ok y →
      ∀ i < x.length + m, y.getD i 0 = Y i) ∧
      TransformIs Y (fun w => √(1 - lam ^ 2) / (1 - lam * w) *
        ∑ n ∈ Finset.range x.length, (x.getD n 0 : ℂ) * allpassAt lam w ^ n) := by
  refine ⟨inner lam x, fun m y h i hi => ?_, ?_⟩
  · obtain ⟨y', h1, _, h3⟩ := (C72_inner_products lam (x ++ List.replicate m 0) (by simp [hx])).1 hl
    rw [h] at h1
    obtain rfl : y = y' := by simpa using h1
    rw [h3 i (by simpa using hi), ← inner_padding lam x m]
    rfl
  · have hv : ∀ m, AbsSum (cplx (∑ n ∈ Finset.range m, C (x.getD n 0) * basis (-lam) n)) ∧
        ∀ w : ℂ, ‖w‖ ≤ 1 →
          valueAt (cplx (∑ n ∈ Finset.range m, C (x.getD n 0) * basis (-lam) n)) w =
          √(1 - lam ^ 2) / (1 - lam * w) *
            ∑ n ∈ Finset.range m, (x.getD n 0 : ℂ) * allpassAt lam w ^ n := by
      intro m
      induction m with
      | zero =>
        have h : cplx (0 : PowerSeries ℝ) = ((0 : Polynomial ℂ) : PowerSeries ℂ) := by simp [cplx]
        simp only [Finset.range_zero, Finset.sum_empty]
        rw [h]
        exact ⟨absSum_poly _, fun w _ => by rw [valueAt_poly, Polynomial.eval_zero, mul_zero]⟩
      | succ m ih =>
        simp only [Finset.sum_range_succ]
        obtain ⟨h1, h2⟩ := add_value ih (mul_value
          ⟨(const_value (x.getD m 0)).1, fun w _ => (const_value (x.getD m 0)).2 w⟩
          (basis_value (-lam) (by rwa [abs_neg]) m))
        refine ⟨h1, fun w hw => ?_⟩
        rw [h2 w hw, mul_add]
        congr 1
        unfold allpassAt
        rw [neg_sq]
        push_cast
        rw [neg_mul, ← sub_eq_add_neg, show -(lam : ℂ) + w = w - lam by ring]
        ring
    have h := transformIs_of_value (hv x.length)
    have e : (fun n => coeff n (∑ m ∈ Finset.range x.length, C (x.getD m 0) * basis (-lam) m)) =
        inner lam x := by
      funext i
      rw [map_sum]
      unfold inner
      refine Finset.sum_congr rfl fun n _ => ?_
      rw [PowerSeries.coeff_C_mul, transposed lam]
    rwa [e] at h

theorem rec_column (lam : ℝ) (i : ℕ) : coeff 0 (basis lam i) = lam ^ i * √(1 - lam ^ 2) := by
  induction i with
  | zero => rw [rec_zero_zero, pow_zero, one_mul]
  | succ i ih => rw [rec_succ_zero, ih, pow_succ]; ring

/-- The documented way back is not exact: for every length and every factor except 0, the unit
sample at the start comes back as `1 - λ^(2N)`. -/
theorem C72_not_reversible (lam : ℝ) (hl : |lam| < 1) (h0 : lam ≠ 0) (m : ℕ) :
    ∃ z, backAndForth lam (1 :: List.replicate m 0) = .ok z ∧
      z.getD 0 0 = 1 - lam ^ (2 * (m + 1)) ∧ z ≠ 1 :: List.replicate m 0 := by
  obtain ⟨z, h1, h2, h3⟩ := backAndForth_eq lam hl (1 :: List.replicate m 0) (by simp)
  have hk : 0 ≤ 1 - lam ^ 2 := by nlinarith [abs_lt.1 hl]
  have h4 := h3 0 (by simp)
  have hi : ∀ i, inner lam (1 :: List.replicate m 0) i = lam ^ i * √(1 - lam ^ 2) := by
    intro i
    have e := inner_padding lam [1] m i
    rw [List.singleton_append] at e
    rw [e]
    unfold inner
    rw [List.length_singleton, Finset.sum_range_one, rec_column, List.getD_cons_zero, one_mul]
  have h5 : z.getD 0 0 = 1 - lam ^ (2 * (m + 1)) := by
    rw [h4]
    have e : ∀ i, inner lam (1 :: List.replicate m 0) i * coeff 0 (basis lam i) =
        (lam ^ 2) ^ i * (1 - lam ^ 2) := by
      intro i
      rw [hi, rec_column, ← pow_mul]
      linear_combination (lam ^ (2 * i)) * Real.mul_self_sqrt hk
    simp only [e]
    rw [← Finset.sum_mul, List.length_cons, List.length_replicate, pow_mul]
    have := geom_sum_mul (lam ^ 2) (m + 1)
    linear_combination -this
  refine ⟨z, h1, h5, fun h => ?_⟩
  rw [h, List.getD_cons_zero] at h5
  have : lam ^ (2 * (m + 1)) = 0 := by linarith
  exact h0 (by simpa using this)

end Verif.Props.C72

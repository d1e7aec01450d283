import Verif.Lemmas.Kautz
import Verif.Props.C36Stable

/-! Energy balance and orthonormality of the taps of Kautz filters. -/

namespace Verif.Kautz

open PowerSeries Bank StableFilter Filter Topology

/-- Poles inside the unit circle. -/
def Section.Stable : Section → Prop
  | .real p => |p| < 1
  | .pair q r => ∃ p : ℂ, ‖p‖ < 1 ∧ q = -2 * p.re ∧ r = ‖p‖ ^ 2

theorem pair_pos {q r : ℝ} (h : (Section.pair q r).Stable) :
    0 ≤ r ∧ r < 1 ∧ 0 ≤ (1 - r) * (1 + r - q) / 2 ∧ 0 ≤ (1 - r) * (1 + r + q) / 2 := by
  obtain ⟨p, hp, rfl, rfl⟩ := h
  have h0 : ‖p‖ ^ 2 = p.re ^ 2 + p.im ^ 2 := by
    rw [← Complex.normSq_eq_norm_sq, Complex.normSq_apply]
    ring
  have h1 : ‖p‖ ^ 2 < 1 := by
    have := norm_nonneg p
    nlinarith
  refine ⟨by positivity, h1, ?_, ?_⟩
  · have : 0 ≤ 1 + ‖p‖ ^ 2 - -2 * p.re := by rw [h0]; nlinarith [sq_nonneg (1 + p.re), sq_nonneg p.im]
    have : 0 ≤ 1 - ‖p‖ ^ 2 := by linarith
    positivity
  · have : 0 ≤ 1 + ‖p‖ ^ 2 + -2 * p.re := by rw [h0]; nlinarith [sq_nonneg (1 - p.re), sq_nonneg p.im]
    have : 0 ≤ 1 - ‖p‖ ^ 2 := by linarith
    positivity

/-! ### Absolutely summable sequences -/

/-- Absolutely summable coefficients. -/
def Abs (H : PowerSeries ℝ) : Prop := AbsSum (cplx H)

theorem Abs.mul {H G : PowerSeries ℝ} (h : Abs H) (g : Abs G) : Abs (H * G) := by
  unfold Abs cplx
  rw [map_mul]
  exact AbsSum.mul h g

theorem Abs.tendsto {H : PowerSeries ℝ} (h : Abs H) : Tendsto (fun n => coeff n H) atTop (𝓝 0) := by
  have h1 := Summable.tendsto_atTop_zero h
  rw [tendsto_zero_iff_norm_tendsto_zero]
  refine h1.congr fun n => ?_
  rw [cplx_coeff, Complex.norm_real]

theorem stable_one (p : ℝ) (h : |p| < 1) : StableDen [1, -p] := by
  intro w hw
  simp only [List.length_cons, List.length_nil, Finset.sum_range_succ, Finset.sum_range_zero]
  simp
  intro h0
  have h1 : (p : ℂ) * w = 1 := by linear_combination -h0
  have h2 := congrArg norm h1
  rw [norm_mul, Complex.norm_real, norm_one, Real.norm_eq_abs] at h2
  have := abs_nonneg p
  have := norm_nonneg w
  nlinarith

theorem stable_two (q r : ℝ) (h : (Section.pair q r).Stable) : StableDen [1, q, r] := by
  obtain ⟨p, hp, rfl, rfl⟩ := h
  intro w hw
  simp only [List.length_cons, List.length_nil, Finset.sum_range_succ, Finset.sum_range_zero]
  simp
  intro h0
  have e1 : ((‖p‖ : ℂ)) ^ 2 = p * (starRingEnd ℂ) p := (Complex.mul_conj' p).symm
  have e2 : (2 : ℂ) * p.re = p + (starRingEnd ℂ) p := by
    rw [Complex.add_conj]; push_cast; ring
  have hf : (1 - p * w) * (1 - (starRingEnd ℂ) p * w) = 0 := by
    rw [e1] at h0
    linear_combination h0 + w * e2
  rcases mul_eq_zero.1 hf with h1 | h1
  · have h2 := congrArg norm (show p * w = 1 by linear_combination -h1)
    rw [norm_mul, norm_one] at h2
    have := norm_nonneg p
    have := norm_nonneg w
    nlinarith
  · have h2 := congrArg norm (show (starRingEnd ℂ) p * w = 1 by linear_combination -h1)
    rw [norm_mul, norm_one, RCLike.norm_conj] at h2
    have := norm_nonneg p
    have := norm_nonneg w
    nlinarith

theorem section_abs (s : Section) (hs : s.Stable) : Abs s.adv ∧ ∀ g ∈ s.gains, Abs g := by
  cases s with
  | real p =>
    have h := stable_one p hs
    refine ⟨(ratio_value _ _ (by simp) h).1, fun g hg => ?_⟩
    simp only [Section.gains, List.mem_singleton] at hg
    subst hg
    exact (ratio_value _ _ (by simp) h).1
  | pair q r =>
    have h := stable_two q r hs
    refine ⟨(ratio_value _ _ (by simp) h).1, fun g hg => ?_⟩
    simp only [Section.gains, List.mem_cons, List.not_mem_nil, or_false] at hg
    rcases hg with rfl | rfl
    · exact (ratio_value _ _ (by simp) h).1
    · exact (ratio_value _ _ (by simp) h).1

/-! ### Energy balance -/

/-- Energy of the first `N` samples. -/
noncomputable def energy (N : ℕ) (x : PowerSeries ℝ) : ℝ := ∑ n ∈ Finset.range N, coeff n x ^ 2

theorem zseries_two (p : ℝ) : zseries [1, -p] = 1 - C p * X := by
  ext n
  rw [zseries_coeff, map_sub, coeff_C_mul]
  match n with
  | 0 => simp
  | 1 => simp [coeff_one, coeff_X]
  | n + 2 => simp [coeff_one, coeff_X]

theorem zseries_three (c d e : ℝ) : zseries [c, d, e] = C c + C d * X + C e * X ^ 2 := by
  ext n
  rw [zseries_coeff, map_add, map_add, coeff_C_mul, coeff_C_mul]
  match n with
  | 0 => simp
  | 1 => simp [coeff_X, coeff_X_pow]
  | 2 => simp [coeff_X, coeff_X_pow]
  | n + 3 => simp [coeff_X, coeff_X_pow]

theorem zseries_pair' (c d : ℝ) : zseries [c, d] = C c + C d * X := by
  ext n
  rw [zseries_coeff, map_add, coeff_C_mul]
  match n with
  | 0 => simp
  | 1 => simp [coeff_X]
  | n + 2 => simp [coeff_X]

theorem zseries_single (c : ℝ) : zseries [c] = C c := by
  ext n
  rw [zseries_coeff]
  cases n <;> simp [coeff_C]

theorem coeff_lin (c d : ℝ) (w : PowerSeries ℝ) (n : ℕ) :
    coeff n ((C c + C d * X) * w) = c * coeff n w + d * (if n = 0 then 0 else coeff (n - 1) w) := by
  rw [add_mul, map_add, coeff_C_mul, mul_assoc, coeff_C_mul]
  cases n with
  | zero => simp
  | succ n => rw [coeff_succ_X_mul]; simp

theorem coeff_quad (c d e : ℝ) (w : PowerSeries ℝ) (n : ℕ) :
    coeff n ((C c + C d * X + C e * X ^ 2) * w) = c * coeff n w +
      d * (if n = 0 then 0 else coeff (n - 1) w) + e * (if n < 2 then 0 else coeff (n - 2) w) := by
  rw [add_mul, map_add, coeff_lin, mul_assoc, coeff_C_mul, pow_two, mul_assoc]
  match n with
  | 0 => simp
  | 1 => rw [coeff_succ_X_mul]; simp
  | n + 2 => rw [coeff_succ_X_mul, coeff_succ_X_mul]; simp

theorem balance_real (p : ℝ) (w : PowerSeries ℝ) (N : ℕ) :
    energy (N + 1) ((C 1 + C (-p) * X) * w) =
      energy (N + 1) ((C (-p) + C 1 * X) * w) + (1 - p ^ 2) * coeff N w ^ 2 := by
  unfold energy
  induction N with
  | zero =>
    simp only [zero_add, Finset.sum_range_one, coeff_lin]
    simp
    ring
  | succ N ih =>
    rw [Finset.sum_range_succ, ih, Finset.sum_range_succ _ (N + 1), coeff_lin, coeff_lin]
    simp
    ring

theorem balance_pair (q r : ℝ) (w : PowerSeries ℝ) (N : ℕ) :
    energy (N + 1) ((C 1 + C q * X + C r * X ^ 2) * w) =
      energy (N + 1) ((C r + C q * X + C 1 * X ^ 2) * w) +
        (1 - r) * (1 + r - q) / 2 * (coeff N w - if N = 0 then 0 else coeff (N - 1) w) ^ 2 +
        (1 - r) * (1 + r + q) / 2 * (coeff N w + if N = 0 then 0 else coeff (N - 1) w) ^ 2 := by
  unfold energy
  induction N with
  | zero =>
    simp only [zero_add, Finset.sum_range_one, coeff_quad]
    simp
    ring
  | succ N ih =>
    rw [Finset.sum_range_succ, ih, Finset.sum_range_succ _ (N + 1), coeff_quad, coeff_quad]
    cases N with
    | zero => simp; ring
    | succ N => simp; ring

theorem ratio_mul (b a : List ℝ) (x : PowerSeries ℝ) :
    ratio b a * x = zseries b * ((zseries a)⁻¹ * x) := by
  unfold ratio; ring

theorem den_mul (a : List ℝ) (ha : a.getD 0 0 ≠ 0) (x : PowerSeries ℝ) :
    zseries a * ((zseries a)⁻¹ * x) = x := by
  have hne : PowerSeries.constantCoeff (zseries a) ≠ 0 := by
    rw [← PowerSeries.coeff_zero_eq_constantCoeff_apply, zseries_coeff]
    exact ha
  rw [← mul_assoc, PowerSeries.mul_inv_cancel _ hne, one_mul]

/-- Sum of the squares of the taps at time `N`. -/
noncomputable def tapEnergy (gs : List (PowerSeries ℝ)) (x : PowerSeries ℝ) (N : ℕ) : ℝ :=
  (gs.map fun g => coeff N (g * x) ^ 2).sum

theorem section_balance (s : Section) (hs : s.Stable) (x : PowerSeries ℝ) (N : ℕ) :
    energy (N + 1) x = energy (N + 1) (s.adv * x) + tapEnergy s.gains x N := by
  cases s with
  | real p =>
    have hk : √(1 - p ^ 2) ^ 2 = 1 - p ^ 2 := by
      refine Real.sq_sqrt ?_
      have h1 : |p| < 1 := hs
      have h2 := sq_abs p
      have := abs_nonneg p
      nlinarith
    have hb := balance_real p ((zseries [1, -p])⁻¹ * x) N
    rw [← zseries_pair', ← zseries_pair', den_mul _ (by simp)] at hb
    simp only [Section.adv, Section.gains, tapEnergy, List.map_cons, List.map_nil, List.sum_cons,
      List.sum_nil, add_zero]
    rw [ratio_mul, ratio_mul, zseries_single, coeff_C_mul, mul_pow, hk]
    exact hb
  | pair q r =>
    obtain ⟨-, -, h1, h2⟩ := pair_pos hs
    have hb := balance_pair q r ((zseries [1, q, r])⁻¹ * x) N
    rw [← zseries_three, ← zseries_three, den_mul _ (by simp)] at hb
    simp only [Section.adv, Section.gains, tapEnergy, List.map_cons, List.map_nil, List.sum_cons,
      List.sum_nil, add_zero]
    rw [ratio_mul, ratio_mul, ratio_mul, zseries_pair', zseries_pair', coeff_lin, coeff_lin, hb,
      add_assoc]
    congr 1
    set k1 := √((1 - r) * (1 + r - q) / 2)
    set k2 := √((1 - r) * (1 + r + q) / 2)
    have e1 : k1 ^ 2 = (1 - r) * (1 + r - q) / 2 := Real.sq_sqrt h1
    have e2 : k2 ^ 2 = (1 - r) * (1 + r + q) / 2 := Real.sq_sqrt h2
    rw [← e1, ← e2]
    ring

/-- The signal behind all allpasses. -/
noncomputable def advAll : List Section → PowerSeries ℝ
  | [] => 1
  | s :: ss => advAll ss * s.adv

theorem balance (ss : List Section) (hs : ∀ s ∈ ss, s.Stable) (x : PowerSeries ℝ) (N : ℕ) :
    energy (N + 1) x = energy (N + 1) (advAll ss * x) + tapEnergy (gains ss) x N := by
  induction ss generalizing x with
  | nil => simp [advAll, gains, tapEnergy]
  | cons s ss ih =>
    rw [section_balance s (hs s (by simp)) x N,
      ih (fun t ht => hs t (by simp [ht])) (s.adv * x)]
    have e : tapEnergy (gains (s :: ss)) x N = tapEnergy s.gains x N + tapEnergy (gains ss) (s.adv * x) N := by
      unfold tapEnergy
      simp only [gains, List.map_append, List.sum_append, List.map_map]
      congr 2
      refine List.map_congr_left fun g _ => ?_
      simp only [Function.comp_apply, mul_assoc]
    rw [e, advAll, mul_assoc]
    ring

/-! ### Norms -/

theorem energy_adv (s : Section) (hs : s.Stable) (x : PowerSeries ℝ) (hx : Abs x) (e : ℝ)
    (h : Tendsto (fun N => energy N x) atTop (𝓝 e)) :
    Tendsto (fun N => energy N (x * s.adv)) atTop (𝓝 e) := by
  rw [← tendsto_add_atTop_iff_nat 1] at h ⊢
  have ht : Tendsto (fun N => tapEnergy s.gains x N) atTop (𝓝 0) := by
    have habs := (section_abs s hs).2
    unfold tapEnergy
    generalize s.gains = l at habs
    induction l with
    | nil => simp
    | cons g gs ih =>
      simp only [List.map_cons, List.sum_cons]
      have h1 := ((habs g (by simp)).mul hx).tendsto.pow 2
      have h2 := ih fun g hg => habs g (by simp [hg])
      have h3 := h1.add h2
      simpa using h3
  have h2 := h.sub ht
  rw [sub_zero] at h2
  refine h2.congr fun N => ?_
  have := section_balance s hs x N
  rw [mul_comm x]
  linarith

theorem inv_coeffs_one (p : ℝ) : coeff 0 (zseries [1, -p])⁻¹ = 1 ∧
    ∀ n, coeff (n + 1) (zseries [1, -p])⁻¹ = p * coeff n (zseries [1, -p])⁻¹ := by
  have h := den_mul [1, -p] (by simp) 1
  rw [mul_one] at h
  have hc : ∀ n, coeff n ((C 1 + C (-p) * X : PowerSeries ℝ) * (zseries [1, -p])⁻¹) =
      coeff n (1 : PowerSeries ℝ) := fun n => by rw [← zseries_pair', h]
  generalize (zseries [1, -p])⁻¹ = w at hc
  constructor
  · have := hc 0
    rw [coeff_lin] at this
    simpa using this
  · intro n
    have := hc (n + 1)
    rw [coeff_lin] at this
    simp [coeff_one] at this
    linarith

theorem inv_coeffs_two (q r : ℝ) : coeff 0 (zseries [1, q, r])⁻¹ = 1 ∧
    coeff 1 (zseries [1, q, r])⁻¹ = -q ∧
    ∀ n, coeff (n + 2) (zseries [1, q, r])⁻¹ =
      -q * coeff (n + 1) (zseries [1, q, r])⁻¹ - r * coeff n (zseries [1, q, r])⁻¹ := by
  have h := den_mul [1, q, r] (by simp) 1
  rw [mul_one] at h
  have hc : ∀ n, coeff n ((C 1 + C q * X + C r * X ^ 2 : PowerSeries ℝ) * (zseries [1, q, r])⁻¹) =
      coeff n (1 : PowerSeries ℝ) := fun n => by rw [← zseries_three, h]
  have h0 : coeff 0 (zseries [1, q, r])⁻¹ = 1 := by
    have := hc 0
    rw [coeff_quad] at this
    simpa using this
  refine ⟨h0, ?_, ?_⟩
  · have := hc 1
    rw [coeff_quad] at this
    simp only [Nat.sub_self, h0] at this
    simp [coeff_one] at this
    linarith
  · intro n
    have := hc (n + 2)
    rw [coeff_quad] at this
    simp [coeff_one] at this
    linarith

theorem norm_real (p : ℝ) (h : |p| < 1) :
    Tendsto (fun N => energy N (ratio [√(1 - p ^ 2)] [1, -p])) atTop (𝓝 1) := by
  have hk : √(1 - p ^ 2) ^ 2 = 1 - p ^ 2 := by
    refine Real.sq_sqrt ?_
    have h2 := sq_abs p
    have := abs_nonneg p
    nlinarith
  obtain ⟨h0, hr⟩ := inv_coeffs_one p
  have key : ∀ N, energy N (ratio [√(1 - p ^ 2)] [1, -p]) = 1 - coeff N (zseries [1, -p])⁻¹ ^ 2 := by
    intro N
    unfold energy ratio
    induction N with
    | zero => rw [h0]; simp
    | succ N ih =>
      rw [Finset.sum_range_succ, ih, zseries_single, coeff_C_mul, mul_pow, hk, hr]
      ring
  have habs : Abs (zseries [1, -p])⁻¹ := by
    have := (ratio_value [1] [1, -p] (by simp) (stable_one p h)).1
    unfold ratio at this
    rwa [zseries_single, map_one, one_mul] at this
  have h1 := (tendsto_const_nhds (x := (1 : ℝ))).sub (habs.tendsto.pow 2)
  simp only [ne_eq, OfNat.ofNat_ne_zero, not_false_eq_true, zero_pow, sub_zero] at h1
  exact h1.congr fun N => (key N).symm

theorem norm_pair (q r k2 k e : ℝ) (he : e ^ 2 = 1) (hst : (Section.pair q r).Stable)
    (hk : k ^ 2 = k2) (hk2 : k2 = (1 - r) * (1 + r + e * q) / 2) :
    Tendsto (fun N => energy N (ratio [k, e * k] [1, q, r])) atTop (𝓝 1) := by
  obtain ⟨hr0, hr1, -, -⟩ := pair_pos hst
  obtain ⟨h0, h1, hrec⟩ := inv_coeffs_two q r
  set a : ℕ → ℝ := fun n => coeff n (zseries [1, q, r])⁻¹ with ha
  set b : ℝ := (q * r + e * k2) / (1 + r) with hb
  have hbm : b * (1 + r) = q * r + e * k2 := by
    rw [hb, div_mul_cancel₀ _ (by linarith)]
  have hcoef : ∀ n, coeff n (ratio [k, e * k] [1, q, r]) =
      k * a n + e * k * (if n = 0 then 0 else a (n - 1)) := by
    intro n
    unfold ratio
    rw [zseries_pair', coeff_lin]
  have hq : 1 - q ^ 2 + 2 * b * q - (k2 + r ^ 2) = k2 := by
    have hne : (1 + r : ℝ) ≠ 0 := by linarith
    have : (1 - q ^ 2 + 2 * b * q - (k2 + r ^ 2) - k2) * (1 + r) = 0 := by
      have e1 : (1 - q ^ 2 + 2 * b * q - (k2 + r ^ 2) - k2) * (1 + r) =
          (1 - q ^ 2 - r ^ 2 - 2 * k2) * (1 + r) + 2 * q * (b * (1 + r)) := by ring
      rw [e1, hbm, hk2]
      linear_combination (-(1 - r) * q ^ 2 + 2 * q ^ 2 * (1 - r)) * he
    rcases mul_eq_zero.1 this with h | h
    · linarith
    · exact absurd h hne
  have key : ∀ N, energy (N + 1) (ratio [k, e * k] [1, q, r]) =
      1 - (a (N + 1) ^ 2 + 2 * b * a (N + 1) * a N + (k2 + r ^ 2) * a N ^ 2) := by
    intro N
    unfold energy
    induction N with
    | zero =>
      rw [zero_add, Finset.sum_range_one, hcoef]
      have e1 : a 1 = -q := h1
      have e0 : a 0 = 1 := h0
      simp only [if_true, e0, e1]
      linear_combination hk - hq
    | succ N ih =>
      rw [Finset.sum_range_succ, ih, hcoef]
      have hr' : a (N + 1 + 1) = -q * a (N + 1) - r * a N := hrec N
      rw [hr']
      simp only [Nat.add_eq_zero_iff, one_ne_zero, and_false, if_false, Nat.add_sub_cancel]
      generalize a (N + 1) = u
      generalize a N = v
      linear_combination (u + e * v) ^ 2 * hk + k2 * v ^ 2 * he - u ^ 2 * hq - 2 * u * v * hbm
  have habs : Abs (zseries [1, q, r])⁻¹ := by
    have := (ratio_value [1] [1, q, r] (by simp) (stable_two q r hst)).1
    unfold ratio at this
    rwa [zseries_single, map_one, one_mul] at this
  have t0 : Tendsto a atTop (𝓝 0) := habs.tendsto
  have t1 : Tendsto (fun N => a (N + 1)) atTop (𝓝 0) := (tendsto_add_atTop_iff_nat 1).2 t0
  rw [← tendsto_add_atTop_iff_nat 1]
  have h2 := (tendsto_const_nhds (x := (1 : ℝ))).sub
    (((t1.pow 2).add ((t1.const_mul (2 * b)).mul t0)).add ((t0.pow 2).const_mul (k2 + r ^ 2)))
  simp only [ne_eq, OfNat.ofNat_ne_zero, not_false_eq_true, zero_pow, mul_zero, add_zero, sub_zero] at h2
  exact h2.congr fun N => (key N).symm

theorem section_norm (s : Section) (hs : s.Stable) (g : PowerSeries ℝ) (hg : g ∈ s.gains) :
    Tendsto (fun N => energy N g) atTop (𝓝 1) := by
  cases s with
  | real p =>
    simp only [Section.gains, List.mem_singleton] at hg
    subst hg
    exact norm_real p hs
  | pair q r =>
    obtain ⟨-, -, h1, h2⟩ := pair_pos hs
    simp only [Section.gains, List.mem_cons, List.not_mem_nil, or_false] at hg
    rcases hg with rfl | rfl
    · have := norm_pair q r _ _ (-1) (by norm_num) hs (Real.sq_sqrt h1) (by ring)
      simpa using this
    · have := norm_pair q r _ _ 1 (by norm_num) hs (Real.sq_sqrt h2) (by ring)
      simpa using this

/-- Every tap has the energy 1. -/
theorem gains_norm (ss : List Section) (hs : ∀ s ∈ ss, s.Stable) (g : PowerSeries ℝ)
    (hg : g ∈ gains ss) : Abs g ∧ Tendsto (fun N => energy N g) atTop (𝓝 1) := by
  induction ss generalizing g with
  | nil => simp [gains] at hg
  | cons s ss ih =>
    have hst := hs s (by simp)
    simp only [gains, List.mem_append, List.mem_map] at hg
    rcases hg with hg | ⟨f, hf, rfl⟩
    · exact ⟨(section_abs s hst).2 g hg, section_norm s hst g hg⟩
    · obtain ⟨h1, h2⟩ := ih (fun t ht => hs t (by simp [ht])) f hf
      exact ⟨h1.mul (section_abs s hst).1, energy_adv s hst f h1 1 h2⟩

/-! ### Orthogonality -/

/-- The inner product of the first `N` samples. -/
noncomputable def inner (N : ℕ) (f g : PowerSeries ℝ) : ℝ :=
  ∑ n ∈ Finset.range N, coeff n f * coeff n g

theorem inner_self (N : ℕ) (f : PowerSeries ℝ) : inner N f f = energy N f :=
  Finset.sum_congr rfl fun _ _ => by ring

/-- The first `N + 1` samples in reversed order. -/
noncomputable def rev (N : ℕ) (f : PowerSeries ℝ) : PowerSeries ℝ :=
  PowerSeries.mk fun n => if n ≤ N then coeff (N - n) f else 0

theorem coeff_rev (N : ℕ) (f g : PowerSeries ℝ) : coeff N (g * rev N f) = inner (N + 1) g f := by
  rw [PowerSeries.coeff_mul, Finset.Nat.sum_antidiagonal_eq_sum_range_succ
    (fun i j => coeff i g * coeff j (rev N f))]
  refine Finset.sum_congr rfl fun n hn => ?_
  have := Finset.mem_range.1 hn
  simp only [rev, coeff_mk]
  rw [if_pos (by omega), show N - (N - n) = n by omega]

theorem energy_rev (N : ℕ) (f : PowerSeries ℝ) : energy (N + 1) (rev N f) = energy (N + 1) f := by
  unfold energy
  rw [← Finset.sum_range_reflect]
  refine Finset.sum_congr rfl fun n hn => ?_
  have := Finset.mem_range.1 hn
  simp only [rev, coeff_mk]
  rw [if_pos (by omega), show N - (N + 1 - 1 - n) = n by omega]

theorem list_sum_eq {α : Type} (l : List α) (d : α) (f : α → ℝ) :
    (l.map f).sum = ∑ i ∈ Finset.range l.length, f (l.getD i d) := by
  induction l with
  | nil => simp
  | cons a l ih =>
    rw [List.map_cons, List.sum_cons, List.length_cons, Finset.sum_range_succ', ih]
    simp [add_comm]

/-- Bessel's inequality for the first samples. -/
theorem bessel (ss : List Section) (hs : ∀ s ∈ ss, s.Stable) (f : PowerSeries ℝ) (N : ℕ) :
    ∑ i ∈ Finset.range (gains ss).length, inner (N + 1) ((gains ss).getD i 0) f ^ 2 ≤ energy (N + 1) f := by
  have h := balance ss hs (rev N f) N
  rw [energy_rev] at h
  have h2 : 0 ≤ energy (N + 1) (advAll ss * rev N f) := Finset.sum_nonneg fun _ _ => sq_nonneg _
  have h3 : tapEnergy (gains ss) (rev N f) N =
      ∑ i ∈ Finset.range (gains ss).length, inner (N + 1) ((gains ss).getD i 0) f ^ 2 := by
    unfold tapEnergy
    rw [list_sum_eq _ 0]
    exact Finset.sum_congr rfl fun i _ => by rw [coeff_rev]
  rw [← h3]
  linarith

/-- The taps are orthonormal. -/
theorem orthonormal (ss : List Section) (hs : ∀ s ∈ ss, s.Stable) (i j : ℕ)
    (hi : i < (gains ss).length) (hj : j < (gains ss).length) :
    Tendsto (fun N => inner N ((gains ss).getD i 0) ((gains ss).getD j 0)) atTop
      (𝓝 (if i = j then 1 else 0)) := by
  have hmem : ∀ k < (gains ss).length, (gains ss).getD k 0 ∈ gains ss := by
    intro k hk
    rw [List.getD_eq_getElem _ _ hk]
    exact List.getElem_mem hk
  have hnorm := (gains_norm ss hs _ (hmem j hj)).2
  by_cases hij : i = j
  · subst hij
    rw [if_pos rfl]
    exact hnorm.congr fun N => (inner_self N _).symm
  · rw [if_neg hij]
    rw [← tendsto_add_atTop_iff_nat 1] at hnorm ⊢
    have h1 : Tendsto (fun N => energy (N + 1) ((gains ss).getD j 0) -
        energy (N + 1) ((gains ss).getD j 0) ^ 2) atTop (𝓝 0) := by
      have := hnorm.sub (hnorm.pow 2)
      simpa using this
    have h2 : Tendsto (fun N => inner (N + 1) ((gains ss).getD i 0) ((gains ss).getD j 0) ^ 2)
        atTop (𝓝 0) := by
      refine squeeze_zero (fun N => sq_nonneg _) (fun N => ?_) h1
      have hb := bessel ss hs ((gains ss).getD j 0) N
      have hsub : ∑ k ∈ ({i, j} : Finset ℕ), inner (N + 1) ((gains ss).getD k 0) ((gains ss).getD j 0) ^ 2 ≤
          ∑ k ∈ Finset.range (gains ss).length,
            inner (N + 1) ((gains ss).getD k 0) ((gains ss).getD j 0) ^ 2 := by
        refine Finset.sum_le_sum_of_subset_of_nonneg ?_ fun _ _ _ => sq_nonneg _
        intro k hk
        simp only [Finset.mem_insert, Finset.mem_singleton] at hk
        rcases hk with rfl | rfl <;> simpa
      rw [Finset.sum_pair hij, inner_self] at hsub
      linarith
    have h3 := h2.sqrt
    rw [Real.sqrt_zero] at h3
    rw [tendsto_zero_iff_abs_tendsto_zero]
    refine h3.congr fun N => ?_
    rw [Real.sqrt_sq_eq_abs]
    rfl

end Verif.Kautz

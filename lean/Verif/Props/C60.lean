import Verif.Model.Distances
import Mathlib.Algebra.Order.Chebyshev
import Mathlib.Algebra.Order.BigOperators.Ring.Finset
import Mathlib.Algebra.BigOperators.Ring.Finset
import Mathlib.Algebra.BigOperators.Field
import Mathlib.Analysis.Complex.ExponentialBounds
import Mathlib.Tactic.FieldSimp
import Mathlib.Tactic.Ring
import Mathlib.Tactic.NormNum
import Mathlib.Tactic.Linarith

/-!
# C60: distance measures

"The log spectral distance is a metric on spectra: zero exactly for equal spectra, symmetric, with
the triangle inequality, and with energy normalization it does not depend on the levels.  The
Itakura-Saito measure is never negative and zero exactly for equal spectra.  The SI-SDR does not
depend on the levels of either signal.  The segmental SNR stays in the requested range."
-/

namespace Verif.Distances

open Finset

/-! ## Lemmas about the weights -/

theorem baseWeight_nonneg (M i : ℕ) : 0 ≤ baseWeight M i := by
  unfold baseWeight
  split_ifs <;> norm_num

theorem baseWeight_pos (M i : ℕ) (hM : 2 ≤ M) (hi : i < M) : 1 / 3 ≤ baseWeight M i := by
  unfold baseWeight
  rw [if_neg (by omega)]
  split_ifs <;> norm_num

theorem weight_pos (N i : ℕ) (hN : 2 ≤ N) (hi : i < N) : 0 < weight N i := by
  unfold weight
  split_ifs with h1 h2 h3 h4 h5
  · have := baseWeight_pos N i hN hi
    linarith
  · norm_num
  · have := baseWeight_nonneg (N - 1) i
    linarith
  · have := baseWeight_nonneg (N - 1) i
    linarith
  · have := baseWeight_pos (N - 1) i (by omega) (by omega)
    linarith
  · have := baseWeight_pos (N - 1) i (by omega) (by omega)
    linarith

theorem weight_nonneg (N i : ℕ) (hi : i < N) : 0 ≤ weight N i := by
  by_cases hN : 2 ≤ N
  · exact (weight_pos N i hN hi).le
  · have : N = 1 := by omega
    subst this
    simp [weight, baseWeight]

theorem simpson_nonneg (N : ℕ) (df : ℝ) (hd : 0 < df) (y : ℕ → ℝ) (hy : ∀ i < N, 0 ≤ y i) :
    0 ≤ simpson N df y :=
  mul_nonneg hd.le (sum_nonneg fun i hi =>
    mul_nonneg (weight_nonneg N i (mem_range.mp hi)) (hy i (mem_range.mp hi)))

theorem simpson_eq_zero (N : ℕ) (hN : 2 ≤ N) (df : ℝ) (hd : 0 < df) (y : ℕ → ℝ)
    (hy : ∀ i < N, 0 ≤ y i) : simpson N df y = 0 ↔ ∀ i < N, y i = 0 := by
  unfold simpson
  rw [mul_eq_zero, or_iff_right hd.ne', sum_eq_zero_iff_of_nonneg fun i hi =>
    mul_nonneg (weight_nonneg N i (mem_range.mp hi)) (hy i (mem_range.mp hi))]
  constructor
  · intro h i hi
    exact (mul_eq_zero.mp (h i (mem_range.mpr hi))).resolve_left (weight_pos N i hN hi).ne'
  · intro h i hi
    rw [h i (mem_range.mp hi), mul_zero]

theorem simpson_congr (N : ℕ) (df : ℝ) (y y' : ℕ → ℝ) (h : ∀ i < N, y i = y' i) :
    simpson N df y = simpson N df y' := by
  unfold simpson
  rw [sum_congr rfl fun i hi => by rw [h i (mem_range.mp hi)]]

/-- The triangle inequality of the weighted norm. -/
theorem weighted_minkowski (N : ℕ) (w a b : ℕ → ℝ) (hw : ∀ i < N, 0 ≤ w i) :
    √(∑ i ∈ range N, w i * (a i + b i) ^ 2) ≤
      √(∑ i ∈ range N, w i * a i ^ 2) + √(∑ i ∈ range N, w i * b i ^ 2) := by
  set A := ∑ i ∈ range N, w i * a i ^ 2 with hA
  set B := ∑ i ∈ range N, w i * b i ^ 2 with hB
  have hA0 : 0 ≤ A := sum_nonneg fun i hi => mul_nonneg (hw i (mem_range.mp hi)) (sq_nonneg _)
  have hB0 : 0 ≤ B := sum_nonneg fun i hi => mul_nonneg (hw i (mem_range.mp hi)) (sq_nonneg _)
  set C := ∑ i ∈ range N, w i * (a i * b i) with hC
  have hcs : C ^ 2 ≤ A * B := by
    have h := sum_mul_sq_le_sq_mul_sq (range N) (fun i => √(w i) * a i) (fun i => √(w i) * b i)
    have e1 : ∑ i ∈ range N, √(w i) * a i * (√(w i) * b i) = C :=
      sum_congr rfl fun i hi => by
        have := Real.mul_self_sqrt (hw i (mem_range.mp hi))
        calc _ = (√(w i) * √(w i)) * (a i * b i) := by ring
          _ = _ := by rw [this]
    have e2 : ∀ c : ℕ → ℝ, ∑ i ∈ range N, (√(w i) * c i) ^ 2 = ∑ i ∈ range N, w i * c i ^ 2 :=
      fun c => sum_congr rfl fun i hi => by
        rw [mul_pow, Real.sq_sqrt (hw i (mem_range.mp hi))]
    rw [e1, e2, e2] at h
    exact h
  have hC' : C ≤ √A * √B := by
    rw [← Real.sqrt_mul hA0]
    exact (le_abs_self C).trans (Real.abs_le_sqrt hcs)
  have hsum : ∑ i ∈ range N, w i * (a i + b i) ^ 2 = A + 2 * C + B := by
    rw [hA, hB, hC, mul_sum, ← sum_add_distrib, ← sum_add_distrib]
    exact sum_congr rfl fun i _ => by ring
  rw [hsum]
  refine Real.sqrt_le_iff.mpr ⟨by positivity, ?_⟩
  have h1 := Real.sq_sqrt hA0
  have h2 := Real.sq_sqrt hB0
  nlinarith

theorem simpson_minkowski (N : ℕ) (df : ℝ) (hd : 0 < df) (a b : ℕ → ℝ) :
    √(simpson N df fun i => (a i + b i) ^ 2) ≤
      √(simpson N df fun i => a i ^ 2) + √(simpson N df fun i => b i ^ 2) := by
  have h := weighted_minkowski N (fun i => df * weight N i) a b
    (fun i hi => mul_nonneg hd.le (weight_nonneg N i hi))
  simp only [mul_assoc, ← mul_sum] at h
  exact h

/-! ## The log spectral distance -/

/-- A power spectrum without empty bins among the first `N`. -/
def Positive (N : ℕ) (x : ℕ → ℝ) : Prop := ∀ i < N, 0 < x i

/-- Symmetric, for all spectra. -/
theorem C60_lsd_symmetric (N : ℕ) (df : ℝ) (x y : ℕ → ℝ) :
    logSpectral N df x y = logSpectral N df y x := by
  unfold logSpectral
  congr 1
  refine simpson_congr N df _ _ fun i _ => ?_
  rw [← inv_div, Real.logb_inv]
  ring

/-- Never negative, and zero exactly for equal spectra (of two bins or more). -/
theorem C60_lsd_zero_iff (N : ℕ) (hN : 2 ≤ N) (df : ℝ) (hd : 0 < df) (x y : ℕ → ℝ)
    (hx : Positive N x) (hy : Positive N y) :
    0 ≤ logSpectral N df x y ∧ (logSpectral N df x y = 0 ↔ ∀ i < N, x i = y i) := by
  refine ⟨Real.sqrt_nonneg _, ?_⟩
  unfold logSpectral
  rw [Real.sqrt_eq_zero (simpson_nonneg N df hd _ fun i _ => sq_nonneg _),
    simpson_eq_zero N hN df hd _ fun i _ => sq_nonneg _]
  refine forall_congr' fun i => forall_congr' fun hi => ?_
  have hx' := hx i hi
  have hy' := hy i hi
  constructor
  · intro h
    have h1 : Real.logb 10 (x i / y i) = 0 := by
      have := pow_eq_zero_iff (two_ne_zero) |>.mp h
      linarith
    have h2 := Real.logb_eq_zero.mp h1
    have hq := div_pos hx' hy'
    rcases h2 with h | h | h | h | h | h
    · norm_num at h
    · norm_num at h
    · norm_num at h
    · exact absurd h hq.ne'
    · rwa [div_eq_one_iff_eq hy'.ne'] at h
    · linarith
  · intro h
    rw [h, div_self hy'.ne']
    simp

/-- The triangle inequality. -/
theorem C60_lsd_triangle (N : ℕ) (df : ℝ) (hd : 0 < df) (x y z : ℕ → ℝ)
    (hx : Positive N x) (hy : Positive N y) (hz : Positive N z) :
    logSpectral N df x z ≤ logSpectral N df x y + logSpectral N df y z := by
  unfold logSpectral
  refine le_trans (le_of_eq ?_) (simpson_minkowski N df hd
    (fun i => 10 * Real.logb 10 (x i / y i)) (fun i => 10 * Real.logb 10 (y i / z i)))
  congr 1
  refine simpson_congr N df _ _ fun i hi => ?_
  have h1 := (hx i hi).ne'
  have h2 := (hy i hi).ne'
  have h3 := (hz i hi).ne'
  congr 1
  rw [Real.logb_div h1 h2, Real.logb_div h2 h3, Real.logb_div h1 h3]
  ring

theorem observed_scale (i0 i1 : ℕ) (p : ℕ → ℝ) (c : ℝ) (hc : c ≠ 0) :
    observed true i0 i1 (fun i => c * p i) = observed true i0 i1 p := by
  funext i
  simp only [observed, if_true, ← mul_sum]
  exact mul_div_mul_left _ _ hc

/-- With energy normalization the levels of the signals do not matter, for both measures. -/
theorem C60_normalized_level_invariant (i0 i1 : ℕ) (df : ℝ) (p q : ℕ → ℝ) (c d : ℝ) (hc : c ≠ 0)
    (hd : d ≠ 0) :
    logSpectralBand true i0 i1 df (fun i => c * p i) (fun i => d * q i) =
      logSpectralBand true i0 i1 df p q ∧
    itakuraSaitoBand true i0 i1 df (fun i => c * p i) (fun i => d * q i) =
      itakuraSaitoBand true i0 i1 df p q := by
  unfold logSpectralBand itakuraSaitoBand
  rw [observed_scale _ _ _ _ hc, observed_scale _ _ _ _ hd]
  exact ⟨rfl, rfl⟩

/-- The bin nearest to the upper limit of the range is not part of it: what the spectra contain
there, and above, does not matter, with or without normalization.  (In particular the bin of the
Nyquist frequency never counts.) -/
theorem C60_upper_bin_ignored (norm : Bool) (i0 i1 : ℕ) (df : ℝ) (p q p' q' : ℕ → ℝ)
    (hp : ∀ i < i1, p i = p' i) (hq : ∀ i < i1, q i = q' i) :
    logSpectralBand norm i0 i1 df p q = logSpectralBand norm i0 i1 df p' q' := by
  have key : ∀ f g : ℕ → ℝ, (∀ i < i1, f i = g i) → ∀ i < i1 - i0,
      observed norm i0 i1 f i = observed norm i0 i1 g i := by
    intro f g h i hi
    unfold observed
    rw [h (i0 + i) (by omega), sum_congr rfl fun j hj => h (i0 + j) (by
      have := mem_range.mp hj; omega)]
  unfold logSpectralBand logSpectral
  congr 1
  refine simpson_congr _ _ _ _ fun i hi => ?_
  rw [key p p' hp i hi, key q q' hq i hi]

/-! ## The Itakura-Saito measure -/

/-- Where the first spectrum is not below the second one, the measure is not negative; equal
spectra have measure zero (missing: spectra below the second one, see the next theorem). -/
theorem C60_is_partial (N : ℕ) (df : ℝ) (hd : 0 < df) (x y : ℕ → ℝ)
    (hy : Positive N y) :
    ((∀ i < N, y i ≤ x i) → 0 ≤ itakuraSaito N df x y) ∧
    ((∀ i < N, x i = y i) → itakuraSaito N df x y = 0) := by
  have hlog : (1 : ℝ) ≤ Real.log 10 := by
    have : Real.log (Real.exp 1) ≤ Real.log 10 := by
      refine Real.log_le_log (Real.exp_pos 1) ?_
      have := Real.exp_one_lt_d9
      linarith
    rwa [Real.log_exp] at this
  constructor
  · intro h
    refine simpson_nonneg N df hd _ fun i hi => ?_
    have hr : 1 ≤ x i / y i := (one_le_div (hy i hi)).mpr (h i hi)
    have h1 := Real.log_le_sub_one_of_pos (lt_of_lt_of_le one_pos hr)
    have h2 := Real.log_nonneg hr
    have h3 : Real.logb 10 (x i / y i) ≤ Real.log (x i / y i) := by
      unfold Real.logb
      exact div_le_self h2 hlog
    linarith
  · intro h
    unfold itakuraSaito
    rw [simpson_congr N df _ (fun _ => 0) fun i hi => by
      rw [h i hi, div_self (hy i hi).ne']; simp]
    simp [simpson]

/-- The measure uses the decadic logarithm and can be negative: it is, for every spectrum and its
copy attenuated by the factor 1/2 (in power). -/
theorem C60_is_negative (N : ℕ) (hN : 2 ≤ N) (df : ℝ) (hd : 0 < df) (y : ℕ → ℝ)
    (hy : Positive N y) : itakuraSaito N df (fun i => y i / 2) y < 0 := by
  have hlog : Real.logb 10 (1 / 2) > -1 / 2 := by
    rw [gt_iff_lt, Real.lt_logb_iff_rpow_lt (by norm_num) (by norm_num)]
    have : (10 : ℝ) ^ (-1 / 2 : ℝ) = 1 / √10 := by
      rw [Real.sqrt_eq_rpow, show (-1 / 2 : ℝ) = -(1 / 2) by ring, Real.rpow_neg (by norm_num)]
      simp
    rw [this, div_lt_div_iff₀ (by positivity) (by norm_num)]
    have h2 : (2 : ℝ) = √4 := by
      rw [show (4 : ℝ) = 2 ^ 2 by norm_num, Real.sqrt_sq (by norm_num)]
    rw [one_mul, one_mul, h2]
    exact Real.sqrt_lt_sqrt (by norm_num) (by norm_num)
  have hv : ∀ i < N, y i / 2 / y i = 1 / 2 := by
    intro i hi
    have := (hy i hi).ne'
    field_simp
  have hneg : 0 < simpson N df fun _ => -(1 / 2 - Real.logb 10 (1 / 2) - 1) := by
    have hp : (0 : ℝ) ≤ -(1 / 2 - Real.logb 10 (1 / 2) - 1) := by linarith
    refine lt_of_le_of_ne (simpson_nonneg N df hd _ fun i _ => hp) fun h => ?_
    have := (simpson_eq_zero N hN df hd _ fun i _ => hp).mp h.symm 0 (by omega)
    linarith
  unfold itakuraSaito
  rw [simpson_congr N df _ (fun _ => 1 / 2 - Real.logb 10 (1 / 2) - 1) fun i hi => by rw [hv i hi]]
  unfold simpson at hneg ⊢
  simp only [mul_neg, sum_neg_distrib] at hneg
  linarith

/-! ## Scale-invariant signal to distortion ratio -/

/-- The ratio in terms of energies: target energy is `(s·t)²/(s·s)`, the rest is distortion. -/
theorem C60_sisdr_energy (n : ℕ) (s t : ℕ → ℝ) (v : ℝ) (h : sisdr n s t = some v) :
    ∃ S D, 0 < S ∧ 0 < D ∧ S + D = dot n t t ∧ S * dot n s s = dot n s t ^ 2 ∧
      v = 10 * Real.logb 10 (S / D) := by
  unfold sisdr at h
  by_cases h0 : dot n s s = 0
  · rw [if_pos h0] at h; cases h
  rw [if_neg h0] at h
  dsimp only at h
  set α := dot n s t / dot n s s with hα
  have hnum : ∑ i ∈ range n, (α * s i) ^ 2 = α ^ 2 * dot n s s := by
    unfold dot
    rw [mul_sum]
    exact sum_congr rfl fun i _ => by ring
  have hden : ∑ i ∈ range n, (α * s i - t i) ^ 2 = α ^ 2 * dot n s s - 2 * α * dot n s t
      + dot n t t := by
    unfold dot
    rw [mul_sum, mul_sum, ← sum_sub_distrib, ← sum_add_distrib]
    exact sum_congr rfl fun i _ => by ring
  by_cases hz : ∑ i ∈ range n, (α * s i) ^ 2 = 0 ∨ ∑ i ∈ range n, (α * s i - t i) ^ 2 = 0
  · rw [if_pos hz] at h; cases h
  rw [if_neg hz] at h
  cases h
  push Not at hz
  have hmul : α * dot n s s = dot n s t := div_mul_cancel₀ _ h0
  refine ⟨_, _, lt_of_le_of_ne (sum_nonneg fun i _ => sq_nonneg _) hz.1.symm,
    lt_of_le_of_ne (sum_nonneg fun i _ => sq_nonneg _) hz.2.symm, ?_, ?_, rfl⟩
  · rw [hnum, hden, ← hmul]
    ring
  · rw [hnum, ← hmul]
    ring

/-- It does not depend on the levels (nor on the signs) of the two signals. -/
theorem C60_sisdr_scale (n : ℕ) (s t : ℕ → ℝ) (a b : ℝ) (ha : a ≠ 0) (hb : b ≠ 0) :
    sisdr n (fun i => a * s i) (fun i => b * t i) = sisdr n s t := by
  have h1 : dot n (fun i => a * s i) (fun i => a * s i) = a ^ 2 * dot n s s := by
    unfold dot
    rw [mul_sum]
    exact sum_congr rfl fun i _ => by ring
  have h2 : dot n (fun i => a * s i) (fun i => b * t i) = a * b * dot n s t := by
    unfold dot
    rw [mul_sum]
    exact sum_congr rfl fun i _ => by ring
  unfold sisdr
  rw [h1, h2]
  by_cases h0 : dot n s s = 0
  · rw [if_pos h0, if_pos (by rw [h0, mul_zero])]
  · rw [if_neg h0, if_neg (mul_ne_zero (pow_ne_zero 2 ha) h0)]
    dsimp only
    have hα : ∀ i, a * b * dot n s t / (a ^ 2 * dot n s s) * (a * s i) =
        b * (dot n s t / dot n s s * s i) := by
      intro i
      field_simp
    simp only [hα]
    have e1 : ∑ i ∈ range n, (b * (dot n s t / dot n s s * s i)) ^ 2 =
        b ^ 2 * ∑ i ∈ range n, (dot n s t / dot n s s * s i) ^ 2 := by
      rw [mul_sum]
      exact sum_congr rfl fun i _ => by ring
    have e2 : ∑ i ∈ range n, (b * (dot n s t / dot n s s * s i) - b * t i) ^ 2 =
        b ^ 2 * ∑ i ∈ range n, (dot n s t / dot n s s * s i - t i) ^ 2 := by
      rw [mul_sum]
      exact sum_congr rfl fun i _ => by ring
    have hb2 : b ^ 2 ≠ 0 := pow_ne_zero 2 hb
    rw [e1, e2, mul_div_mul_left _ _ hb2]
    simp only [mul_eq_zero, hb2, false_or]

/-! ## Segmental SNR -/

/-- The mean over the frames lies in the requested range, whatever the frames contain. -/
theorem C60_segmental_range (lo hi : ℝ) (h : lo ≤ hi) (frames : List ℝ) (hf : frames ≠ []) :
    lo ≤ segmental lo hi frames ∧ segmental lo hi frames ≤ hi := by
  have hlen : (0 : ℝ) < frames.length := by
    have := List.length_pos_of_ne_nil hf
    exact_mod_cast this
  have hmem : ∀ v ∈ frames.map (fun v =>
      let v := if v < lo then lo else v
      if v > hi then hi else v), lo ≤ v ∧ v ≤ hi := by
    intro v hv
    obtain ⟨u, -, rfl⟩ := List.mem_map.mp hv
    dsimp only
    split_ifs with h1 h2 h2
    · exact ⟨h, le_rfl⟩
    · exact ⟨le_rfl, h⟩
    · exact ⟨h, le_rfl⟩
    · exact ⟨by linarith, by linarith⟩
  have h1 := List.card_nsmul_le_sum _ lo fun v hv => (hmem v hv).1
  have h2 := List.sum_le_card_nsmul _ hi fun v hv => (hmem v hv).2
  rw [List.length_map, nsmul_eq_mul] at h1 h2
  unfold segmental
  rw [le_div_iff₀ hlen, div_le_iff₀ hlen]
  constructor <;> linarith

/-! ## Concrete cases -/

example : ∃ (x y z : ℕ → ℝ), Positive 4 x ∧ Positive 4 y ∧ Positive 4 z ∧ (∃ i < 4, x i ≠ y i) :=
  ⟨fun i => i + 1, fun _ => 2, fun i => 1 / (i + 1), fun i _ => by positivity,
    fun _ _ => by norm_num, fun i _ => by positivity, 0, by norm_num, by norm_num⟩

example : ∃ (s t : ℕ → ℝ) (v : ℝ), sisdr 2 s t = some v := by
  refine ⟨fun i => if i = 0 then 1 else 0, fun _ => 1, 0, ?_⟩
  unfold sisdr
  norm_num [dot, sum_range_succ]

/-! ## The integration rule -/

theorem sum_base_succ (M : ℕ) (hM : M % 2 = 1) (y : ℕ → ℝ) :
    ∑ i ∈ range (M + 2), baseWeight (M + 2) i * y i =
      ∑ i ∈ range M, baseWeight M i * y i +
        (1 / 3 * y (M - 1) + 4 / 3 * y M + 1 / 3 * y (M + 1)) := by
  obtain ⟨m, rfl⟩ : ∃ m, M = m + 1 := ⟨M - 1, by omega⟩
  rw [sum_range_succ, sum_range_succ, sum_range_succ, sum_range_succ _ m]
  have h1 : baseWeight (m + 1 + 2) (m + 1 + 1) = 1 / 3 := by
    unfold baseWeight
    rw [if_neg (by omega), if_pos (by omega)]
  have h2 : baseWeight (m + 1 + 2) (m + 1) = 4 / 3 := by
    unfold baseWeight
    rw [if_neg (by omega), if_neg (by omega), if_pos (by omega)]
  have h3 : baseWeight (m + 1 + 2) m = baseWeight (m + 1) m + 1 / 3 := by
    unfold baseWeight
    by_cases h0 : m = 0
    · subst h0
      norm_num
    · rw [if_neg (by omega), if_neg (by omega), if_neg (by omega), if_neg (by omega),
        if_pos (by omega)]
      norm_num
  have h4 : ∑ i ∈ range m, baseWeight (m + 1 + 2) i * y i =
      ∑ i ∈ range m, baseWeight (m + 1) i * y i := by
    refine sum_congr rfl fun i hi => ?_
    have hi' := mem_range.1 hi
    congr 1
    unfold baseWeight
    have g1 : ¬ (m + 1 + 2 ≤ 1 ∨ m + 1 + 2 ≤ i) := by omega
    have g2 : ¬ (m + 1 ≤ 1 ∨ m + 1 ≤ i) := by omega
    have g3 : (i = 0 ∨ i + 1 = m + 1 + 2) ↔ (i = 0 ∨ i + 1 = m + 1) := by omega
    simp only [if_neg g1, if_neg g2, g3]
  rw [h1, h2, h3, h4, Nat.add_sub_cancel]
  ring

theorem sum_base_quadratic (m : ℕ) (a b c : ℝ) :
    ∑ i ∈ range (2 * m + 1), baseWeight (2 * m + 1) i * (a + b * i + c * i ^ 2) =
      a * (2 * m) + b * (2 * m) ^ 2 / 2 + c * (2 * m) ^ 3 / 3 := by
  induction m with
  | zero => simp [baseWeight]
  | succ m ih =>
    rw [show 2 * (m + 1) + 1 = (2 * m + 1) + 2 by ring, sum_base_succ _ (by omega), ih,
      Nat.add_sub_cancel]
    push_cast
    ring

/-- The rule is exact for parabolas, for every number of points above two, and for straight lines
with two points: the value is the integral over the whole range. -/
theorem C60_integration (N : ℕ) (hN : 2 ≤ N) (df a b c : ℝ) (hc : N = 2 → c = 0) :
    simpson N df (fun i => a + b * (i * df) + c * (i * df) ^ 2) =
      a * ((N - 1) * df) + b * ((N - 1) * df) ^ 2 / 2 + c * ((N - 1) * df) ^ 3 / 3 := by
  have hy : ∀ i : ℕ, a + b * (i * df) + c * (i * df) ^ 2 =
      a + (b * df) * i + (c * df ^ 2) * (i : ℝ) ^ 2 := fun i => by ring
  simp only [hy]
  unfold simpson
  by_cases hodd : N % 2 = 1
  · obtain ⟨m, rfl⟩ : ∃ m, N = 2 * m + 1 := ⟨N / 2, by omega⟩
    have hw : ∀ i, weight (2 * m + 1) i = baseWeight (2 * m + 1) i := fun i => if_pos hodd
    simp only [hw]
    rw [sum_base_quadratic]
    push_cast
    ring
  · by_cases h2 : N = 2
    · subst h2
      rw [hc rfl]
      simp [sum_range_succ, weight]
      ring
    · obtain ⟨m, rfl⟩ : ∃ m, N = 2 * m + 1 + 3 := ⟨(N - 4) / 2, by omega⟩
      have hw : ∀ i, weight (2 * m + 1 + 3) i = baseWeight (2 * m + 1 + 2) i +
          (if i + 1 = 2 * m + 1 + 3 then 5 / 12 else if i + 2 = 2 * m + 1 + 3 then 2 / 3
            else if i + 3 = 2 * m + 1 + 3 then -1 / 12 else 0) := by
        intro i
        unfold weight
        rw [if_neg hodd, if_neg h2]
        rfl
      simp only [hw, add_mul, sum_add_distrib]
      have hb : ∑ i ∈ range (2 * m + 1 + 3), baseWeight (2 * m + 1 + 2) i *
          (a + b * df * i + c * df ^ 2 * (i : ℝ) ^ 2) =
          ∑ i ∈ range (2 * (m + 1) + 1), baseWeight (2 * (m + 1) + 1) i *
          (a + b * df * i + c * df ^ 2 * (i : ℝ) ^ 2) := by
        rw [show 2 * m + 1 + 3 = (2 * m + 1 + 2) + 1 by ring, sum_range_succ]
        have : baseWeight (2 * m + 1 + 2) (2 * m + 1 + 2) = 0 := by
          unfold baseWeight
          rw [if_pos (by omega)]
        rw [this, zero_mul, add_zero]
        rfl
      have hrest : ∑ i ∈ range (2 * m + 1 + 3),
          (if i + 1 = 2 * m + 1 + 3 then (5 / 12 : ℝ) else if i + 2 = 2 * m + 1 + 3 then 2 / 3
            else if i + 3 = 2 * m + 1 + 3 then -1 / 12 else 0) *
          (a + b * df * i + c * df ^ 2 * (i : ℝ) ^ 2) =
          5 / 12 * (a + b * df * (2 * m + 3) + c * df ^ 2 * (2 * m + 3) ^ 2) +
          2 / 3 * (a + b * df * (2 * m + 2) + c * df ^ 2 * (2 * m + 2) ^ 2) -
          1 / 12 * (a + b * df * (2 * m + 1) + c * df ^ 2 * (2 * m + 1) ^ 2) := by
        rw [sum_range_succ, sum_range_succ, sum_range_succ, sum_eq_zero]
        · rw [if_neg (by omega), if_neg (by omega), if_pos (by omega), if_neg (by omega),
            if_pos (by omega), if_pos (by omega)]
          push_cast
          ring
        · intro i hi
          have := mem_range.1 hi
          rw [if_neg (by omega), if_neg (by omega), if_neg (by omega), zero_mul]
      rw [hb, hrest, sum_base_quadratic]
      push_cast
      ring

/-- The measures of a frequency range compare the bins `i0, …, i1 - 1` of the first spectrum with those of the
second one; with energy normalization each is divided by its energy in the range. -/
theorem C60_range (i0 i1 : ℕ) (df : ℝ) (p q : ℕ → ℝ) :
    (itakuraSaitoBand false i0 i1 df p q =
      simpson (i1 - i0) df fun i => p (i0 + i) / q (i0 + i) - Real.logb 10 (p (i0 + i) / q (i0 + i)) - 1) ∧
    (logSpectralBand false i0 i1 df p q =
      √(simpson (i1 - i0) df fun i => (10 * Real.logb 10 (p (i0 + i) / q (i0 + i))) ^ 2)) ∧
    ∀ norm, (∑ j ∈ Ico i0 i1, p j) = 1 → (∑ j ∈ Ico i0 i1, q j) = 1 →
      itakuraSaitoBand norm i0 i1 df p q = itakuraSaitoBand false i0 i1 df p q ∧
      logSpectralBand norm i0 i1 df p q = logSpectralBand false i0 i1 df p q := by
  refine ⟨rfl, rfl, fun norm hp hq => ?_⟩
  have h : ∀ r : ℕ → ℝ, (∑ j ∈ Ico i0 i1, r j) = 1 → observed norm i0 i1 r = observed false i0 i1 r := by
    intro r hr
    funext i
    unfold observed
    rw [← Finset.sum_Ico_eq_sum_range (fun j => r j), hr]
    cases norm <;> simp
  unfold itakuraSaitoBand logSpectralBand
  rw [h p hp, h q hq]
  exact ⟨rfl, rfl⟩

end Verif.Distances

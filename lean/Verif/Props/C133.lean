import Verif.Model.ComplexSmoothing
import Mathlib.Analysis.InnerProductSpace.Basic

/-!
# C133: complex smoothing takes weighted means over fractions of an octave
-/

namespace Verif.ComplexSmoothing

open Complex Finset

/-- What is used of the window: not negative, and positive inside. -/
def Bump (w : ℝ → ℝ) : Prop :=
  (∀ x, -1 ≤ x → x ≤ 1 → 0 ≤ w x) ∧ ∀ x, -1 < x → x < 1 → 0 < w x

/-- Weights of a mean over bins that are at most half of the smoothing width away from bin `i` (up
to half a bin). -/
structure MeanWeights (fraction : ℝ) (N i : ℕ) (a : ℕ → ℝ) : Prop where
  nonneg : ∀ m, 0 ≤ a m
  total : ∑ m ∈ range N, a m = 1
  range : ∀ m, a m ≠ 0 → (i : ℝ) * 2 ^ (-1 / (2 * fraction)) - 1 / 2 ≤ m ∧
    (m : ℝ) ≤ i * 2 ^ (1 / (2 * fraction)) + 1 / 2

theorem factor_gt (fraction : ℝ) (hf : 0 < fraction) : 1 < factor fraction :=
  Real.one_lt_rpow (by norm_num) (by positivity)

theorem ind_bounds (k delta : ℝ) (hk : 1 < k) (hd : 0 < delta) (i : ℕ) :
    0 ≤ indLow k delta i ∧ indLow k delta i ≤ i ∧ (i : ℤ) + 1 ≤ indHigh k delta i ∧
      (i : ℝ) / k - 1 / 2 ≤ (indLow k delta i : ℝ) ∧
      (indHigh k delta i : ℝ) ≤ i * k + 1 / 2 + 1 := by
  have hk0 : 0 < k := by linarith
  have e1 : (i * delta - i * delta / k) / delta = (i : ℝ) - i / k := by
    field_simp
  have e2 : (i * delta * k - i * delta) / delta = (i : ℝ) * k - i := by
    field_simp
  have hi : (0 : ℝ) ≤ i := Nat.cast_nonneg i
  have hik : (i : ℝ) / k ≤ i := div_le_self hi hk.le
  have hik0 : 0 ≤ (i : ℝ) / k := by positivity
  have hik2 : (i : ℝ) ≤ i * k := by nlinarith
  unfold indLow indHigh
  rw [e1, e2]
  have h1 : ⌊(i : ℝ) - i / k + 1 / 2⌋ ≤ (i : ℤ) := by
    rw [← Int.lt_add_one_iff, Int.floor_lt]
    push_cast
    linarith
  have h2 : (0 : ℤ) ≤ ⌊(i : ℝ) - i / k + 1 / 2⌋ := Int.floor_nonneg.mpr (by linarith)
  have h3 : (0 : ℤ) ≤ ⌊(i : ℝ) * k - i + 1 / 2⌋ := Int.floor_nonneg.mpr (by linarith)
  have h4 := Int.floor_le ((i : ℝ) - i / k + 1 / 2)
  have h5 := Int.floor_le ((i : ℝ) * k - i + 1 / 2)
  refine ⟨by omega, by omega, by omega, ?_, ?_⟩
  · push_cast
    linarith
  · push_cast
    linarith

theorem weight_pos (w : ℝ → ℝ) (hw : Bump w) (L j : ℕ) (hj : j < L) :
    0 ≤ weight w L j ∧ (0 < j → j + 1 < L → 0 < weight w L j) := by
  unfold weight
  rcases Nat.eq_or_lt_of_le (show 1 ≤ L by omega) with h1 | h1
  · subst h1
    obtain rfl : j = 0 := by omega
    refine ⟨?_, fun h => absurd h (lt_irrefl _)⟩
    refine hw.1 _ ?_ ?_ <;> norm_num
  · have hL : (0 : ℝ) < (L : ℝ) - 1 := by
      have : (1 : ℝ) < L := by exact_mod_cast h1
      linarith
    have hj1 : (j : ℝ) / ((L : ℝ) - 1) ≤ 1 := by
      rw [div_le_one hL]
      have : (j : ℝ) + 1 ≤ L := by exact_mod_cast hj
      linarith
    have hj0 : 0 ≤ (j : ℝ) / ((L : ℝ) - 1) := by positivity
    have u1 : (3 : ℝ) ^ (1 - (j : ℝ) / ((L : ℝ) - 1)) ≤ 3 := by
      calc _ ≤ (3 : ℝ) ^ (1 : ℝ) := Real.rpow_le_rpow_of_exponent_le (by norm_num) (by linarith)
        _ = 3 := Real.rpow_one _
    have u2 : 1 ≤ (3 : ℝ) ^ (1 - (j : ℝ) / ((L : ℝ) - 1)) :=
      Real.one_le_rpow (by norm_num) (by linarith)
    refine ⟨hw.1 _ (by linarith) (by linarith), fun h0 h2 => hw.2 _ ?_ ?_⟩
    · have : (j : ℝ) / ((L : ℝ) - 1) < 1 := by
        rw [div_lt_one hL]
        have : (j : ℝ) + 1 < L := by exact_mod_cast h2
        linarith
      have := Real.one_lt_rpow (x := 3) (z := 1 - (j : ℝ) / ((L : ℝ) - 1)) (by norm_num) (by linarith)
      linarith
    · have hjp : 0 < (j : ℝ) / ((L : ℝ) - 1) := by positivity
      have : (3 : ℝ) ^ (1 - (j : ℝ) / ((L : ℝ) - 1)) < 3 ^ (1 : ℝ) :=
        Real.rpow_lt_rpow_of_exponent_lt (by norm_num) (by linarith)
      rw [Real.rpow_one] at this
      linarith

/-- Every smoothed value is a mean of the values around it with weights that do not depend on the
spectrum. -/
theorem C133_mean (w : ℝ → ℝ) (hw : Bump w) (fraction delta : ℝ) (hf : 0 < fraction) (hd : 0 < delta)
    (N i : ℕ) (hi : i < N) :
    ∃ a, MeanWeights fraction N i a ∧
      ∀ s, smoothAt w fraction delta N s i = some (∑ m ∈ range N, (a m : ℂ) * s m) := by
  have hk := factor_gt fraction hf
  obtain ⟨b1, b2, b3, b4, b5⟩ := ind_bounds (factor fraction) delta hk hd i
  have hfac : factor fraction = 2 ^ (1 / (2 * fraction)) := by
    unfold factor
    congr 1
    field_simp
  have hinv : (i : ℝ) * 2 ^ (-1 / (2 * fraction)) = i / factor fraction := by
    rw [hfac, neg_div, Real.rpow_neg (by norm_num), ← div_eq_mul_inv]
  set lo := (max (indLow (factor fraction) delta i) 0).toNat with hlo
  set hi' := (min (indHigh (factor fraction) delta i) N).toNat with hhi
  set L := (indHigh (factor fraction) delta i - indLow (factor fraction) delta i).toNat with hL
  have e1 : (lo : ℤ) = indLow (factor fraction) delta i := by omega
  have e2 : (hi' : ℤ) = min (indHigh (factor fraction) delta i) N := by omega
  by_cases hc : hi' ≤ lo + 2
  · refine ⟨fun m => if m = i then 1 else 0, ⟨fun m => ?_, ?_, fun m hm => ?_⟩, fun s => ?_⟩
    · split <;> norm_num
    · rw [Finset.sum_ite_eq', if_pos (mem_range.mpr hi)]
    · have hmi : m = i := by
        by_contra h
        exact hm (if_neg h)
      subst hmi
      rw [hinv, ← hfac]
      have hm0 : (0 : ℝ) ≤ m := Nat.cast_nonneg m
      have := div_le_self hm0 hk.le
      constructor
      · linarith
      · nlinarith
    · unfold smoothAt
      dsimp only
      rw [← hlo, ← hhi, if_pos hc]
      congr 1
      rw [Finset.sum_eq_single i]
      · simp
      · intro m _ hm
        rw [if_neg hm]
        simp
      · intro h
        exact absurd (mem_range.mpr hi) h
  · have hle : hi' ≤ N := by omega
    have hlen : hi' - lo ≤ L := by omega
    set total := ∑ j ∈ range (hi' - lo), weight w L j with htot
    have hnn : ∀ j ∈ range (hi' - lo), 0 ≤ weight w L j := fun j hj =>
      (weight_pos w hw L j (by have := mem_range.mp hj; omega)).1
    have hpos : 0 < total := by
      refine lt_of_lt_of_le ?_ (single_le_sum hnn (mem_range.mpr (show 1 < hi' - lo by omega)))
      exact (weight_pos w hw L 1 (by omega)).2 one_pos (by omega)
    have hsum : ∀ g : ℕ → ℂ, ∑ m ∈ range N, (if lo ≤ m ∧ m < hi' then g m else 0) =
        ∑ j ∈ range (hi' - lo), g (lo + j) := by
      intro g
      rw [← sum_Ico_eq_sum_range, ← sum_filter]
      refine sum_congr ?_ fun _ _ => rfl
      ext m
      simp only [mem_filter, mem_range, mem_Ico]
      omega
    have hsumR : ∀ g : ℕ → ℝ, ∑ m ∈ range N, (if lo ≤ m ∧ m < hi' then g m else 0) =
        ∑ j ∈ range (hi' - lo), g (lo + j) := by
      intro g
      rw [← sum_Ico_eq_sum_range, ← sum_filter]
      refine sum_congr ?_ fun _ _ => rfl
      ext m
      simp only [mem_filter, mem_range, mem_Ico]
      omega
    refine ⟨fun m => if lo ≤ m ∧ m < hi' then weight w L (m - lo) / total else 0,
      ⟨fun m => ?_, ?_, fun m hm => ?_⟩, fun s => ?_⟩
    · split_ifs with h
      · exact div_nonneg (hnn _ (mem_range.mpr (by omega))) hpos.le
      · exact le_rfl
    · rw [hsumR fun m => weight w L (m - lo) / total]
      simp only [Nat.add_sub_cancel_left]
      rw [← sum_div, ← htot, div_self hpos.ne']
    · have hm' : lo ≤ m ∧ m < hi' := by
        by_contra h
        exact hm (if_neg h)
      rw [hinv, ← hfac]
      constructor
      · have : (indLow (factor fraction) delta i : ℝ) ≤ m := by
          have : indLow (factor fraction) delta i ≤ (m : ℤ) := by omega
          exact_mod_cast this
        linarith
      · have : (m : ℝ) + 1 ≤ (indHigh (factor fraction) delta i : ℝ) := by
          have : (m : ℤ) + 1 ≤ indHigh (factor fraction) delta i := by omega
          exact_mod_cast this
        linarith
    · unfold smoothAt
      dsimp only
      rw [← hlo, ← hhi, ← hL, if_neg hc, ← htot, if_neg hpos.ne']
      congr 1
      have e : ∀ m, (((if lo ≤ m ∧ m < hi' then weight w L (m - lo) / total else 0 : ℝ)) : ℂ) * s m =
          if lo ≤ m ∧ m < hi' then ((weight w L (m - lo) / total : ℝ) : ℂ) * s m else 0 := by
        intro m
        split_ifs
        · rfl
        · simp
      rw [sum_congr rfl fun m _ => e m, hsum fun m => ((weight w L (m - lo) / total : ℝ) : ℂ) * s m]
      simp only [Nat.add_sub_cancel_left]

/-! ### The domains -/

/-- The arithmetic of all domains in terms of the weights. -/
theorem domains (w : ℝ → ℝ) (fraction delta : ℝ) (hf : 0 < fraction) (N i : ℕ) (hN : 2 ≤ N)
    (a : ℕ → ℝ)
    (ha : ∀ s, smoothAt w fraction delta N s i = some (∑ m ∈ range N, (a m : ℂ) * s m)) (s : ℕ → ℂ) :
    complexSmoothing w fraction delta N .realImaginary s i = .ok (some (∑ m ∈ range N, (a m : ℂ) * s m)) ∧
    complexSmoothing w fraction delta N .magnitude s i =
      .ok (some (((∑ m ∈ range N, a m * ‖s m‖ : ℝ) : ℂ) * exp (I * ((s i).arg : ℂ)))) ∧
    complexSmoothing w fraction delta N .power s i =
      .ok (some ((Real.sqrt (∑ m ∈ range N, a m * ‖s m‖ ^ 2) : ℂ) * exp (I * ((s i).arg : ℂ)))) ∧
    complexSmoothing w fraction delta N .magnitudePhase s i =
      .ok (some (((∑ m ∈ range N, a m * ‖s m‖ : ℝ) : ℂ) *
        exp (I * ((∑ m ∈ range N, a m * Spectrum.unwrap (fun m => (s m).arg) m : ℝ) : ℂ)))) ∧
    complexSmoothing w fraction delta N .powerPhase s i =
      .ok (some ((Real.sqrt (∑ m ∈ range N, a m * ‖s m‖ ^ 2) : ℂ) *
        exp (I * ((∑ m ∈ range N, a m * Spectrum.unwrap (fun m => (s m).arg) m : ℝ) : ℂ)))) ∧
    complexSmoothing w fraction delta N .equivalentComplex s i =
      .ok (some ((Real.sqrt (∑ m ∈ range N, a m * ‖s m‖ ^ 2) : ℂ) *
        exp (I * ((∑ m ∈ range N, (a m : ℂ) * s m).arg : ℂ)))) := by
  have hre : ∀ x y : ℕ → ℝ, (∑ m ∈ range N, (a m : ℂ) * ((x m : ℂ) + I * (y m : ℂ))).re =
      ∑ m ∈ range N, a m * x m := by
    intro x y
    rw [re_sum]
    exact sum_congr rfl fun m _ => by simp
  have him : ∀ x y : ℕ → ℝ, (∑ m ∈ range N, (a m : ℂ) * ((x m : ℂ) + I * (y m : ℂ))).im =
      ∑ m ∈ range N, a m * y m := by
    intro x y
    rw [im_sum]
    exact sum_congr rfl fun m _ => by simp
  have hre' : ∀ x : ℕ → ℝ, (∑ m ∈ range N, (a m : ℂ) * (x m : ℂ)).re = ∑ m ∈ range N, a m * x m := by
    intro x
    rw [re_sum]
    exact sum_congr rfl fun m _ => by simp
  unfold complexSmoothing
  simp only [hf, not_true_eq_false, if_false, if_neg (not_lt.mpr hN), ha, Option.map_some]
  refine ⟨trivial, ?_, ?_, ?_, ?_, ?_⟩
  · rw [hre']
  · rw [hre' fun m => ‖s m‖ ^ 2]
  · rw [hre, him]
  · rw [hre fun m => ‖s m‖ ^ 2, him fun m => ‖s m‖ ^ 2]
  · rw [hre' fun m => ‖s m‖ ^ 2]

/-- Smoothing is refused for a fraction that is not positive; a spectrum needs two bins. -/
theorem C133_refused (w : ℝ → ℝ) (fraction delta : ℝ) (N : ℕ) (d : Domain) (s : ℕ → ℂ) (i : ℕ) :
    (fraction ≤ 0 → complexSmoothing w fraction delta N d s i = .error .assertionError) ∧
    (0 < fraction → N < 2 → complexSmoothing w fraction delta N d s i = .error .indexError) := by
  unfold complexSmoothing
  constructor
  · intro h
    rw [if_pos (not_lt.mpr h)]
  · intro h hN
    rw [if_neg (not_not.mpr h), if_pos hN]

theorem norm_polar (r t : ℝ) (hr : 0 ≤ r) : ‖(r : ℂ) * exp (I * (t : ℂ))‖ = r := by
  rw [norm_mul, mul_comm I, norm_exp_ofReal_mul_I, mul_one, norm_real, Real.norm_of_nonneg hr]

theorem polar (z : ℂ) : (‖z‖ : ℂ) * exp (I * (z.arg : ℂ)) = z := by
  rw [mul_comm I]
  exact norm_mul_exp_arg_mul_I z

theorem jensen {fraction : ℝ} {N i : ℕ} {a : ℕ → ℝ} (h : MeanWeights fraction N i a) (x : ℕ → ℝ) :
    (∑ m ∈ range N, a m * x m) ^ 2 ≤ ∑ m ∈ range N, a m * x m ^ 2 := by
  set μ := ∑ m ∈ range N, a m * x m with hμ
  have h1 : 0 ≤ ∑ m ∈ range N, a m * (x m - μ) ^ 2 :=
    sum_nonneg fun m _ => mul_nonneg (h.nonneg m) (sq_nonneg _)
  have h2 : ∑ m ∈ range N, a m * (x m - μ) ^ 2 =
      ∑ m ∈ range N, a m * x m ^ 2 - 2 * μ * ∑ m ∈ range N, a m * x m + μ ^ 2 * ∑ m ∈ range N, a m := by
    have h3 : ∀ c : ℝ, c * ∑ m ∈ range N, a m * x m = ∑ m ∈ range N, c * (a m * x m) := fun c => mul_sum _ _ _
    have h4 : ∀ c : ℝ, c * ∑ m ∈ range N, a m = ∑ m ∈ range N, c * a m := fun c => mul_sum _ _ _
    rw [h3, h4, ← sum_sub_distrib, ← sum_add_distrib]
    exact sum_congr rfl fun m _ => by ring
  rw [h2, h.total, ← hμ] at h1
  nlinarith

/-- The magnitudes of the domains are ordered for every spectrum: smoothing real and imaginary parts
gives at most the smoothed magnitude, and this at most the root of the smoothed power.  The domains
with phase have the magnitudes of those without; the equivalent complex smoothing has the magnitude
of the power smoothing and the phase of the complex smoothing.  The phase is kept by the smoothing of
power and magnitude. -/
theorem C133_order (w : ℝ → ℝ) (hw : Bump w) (fraction delta : ℝ) (hf : 0 < fraction) (hd : 0 < delta)
    (N i : ℕ) (hN : 2 ≤ N) (hi : i < N) (s : ℕ → ℂ) :
    ∃ c mag pow magPh powPh eq,
      complexSmoothing w fraction delta N .realImaginary s i = .ok (some c) ∧
      complexSmoothing w fraction delta N .magnitude s i = .ok (some mag) ∧
      complexSmoothing w fraction delta N .power s i = .ok (some pow) ∧
      complexSmoothing w fraction delta N .magnitudePhase s i = .ok (some magPh) ∧
      complexSmoothing w fraction delta N .powerPhase s i = .ok (some powPh) ∧
      complexSmoothing w fraction delta N .equivalentComplex s i = .ok (some eq) ∧
      ‖c‖ ≤ ‖mag‖ ∧ ‖mag‖ ≤ ‖pow‖ ∧ ‖magPh‖ = ‖mag‖ ∧ ‖powPh‖ = ‖pow‖ ∧ ‖eq‖ = ‖pow‖ ∧
      mag * ‖s i‖ = ‖mag‖ * s i ∧ pow * ‖s i‖ = ‖pow‖ * s i ∧ eq * ‖c‖ = ‖eq‖ * c := by
  obtain ⟨a, ma, ha⟩ := C133_mean w hw fraction delta hf hd N i hi
  obtain ⟨d1, d2, d3, d4, d5, d6⟩ := domains w fraction delta hf N i hN a ha s
  have hm0 : 0 ≤ ∑ m ∈ range N, a m * ‖s m‖ := sum_nonneg fun m _ => mul_nonneg (ma.nonneg m) (norm_nonneg _)
  have hp0 := Real.sqrt_nonneg (∑ m ∈ range N, a m * ‖s m‖ ^ 2)
  refine ⟨_, _, _, _, _, _, d1, d2, d3, d4, d5, d6, ?_, ?_, ?_, ?_, ?_, ?_, ?_, ?_⟩
  · rw [norm_polar _ _ hm0]
    refine (norm_sum_le _ _).trans (sum_le_sum fun m _ => ?_)
    rw [norm_mul, norm_real, Real.norm_of_nonneg (ma.nonneg m)]
  · rw [norm_polar _ _ hm0, norm_polar _ _ hp0]
    exact Real.le_sqrt_of_sq_le (jensen ma fun m => ‖s m‖)
  · rw [norm_polar _ _ hm0, norm_polar _ _ hm0]
  · rw [norm_polar _ _ hp0, norm_polar _ _ hp0]
  · rw [norm_polar _ _ hp0, norm_polar _ _ hp0]
  · rw [norm_polar _ _ hm0, mul_assoc, mul_comm (exp _), polar]
  · rw [norm_polar _ _ hp0, mul_assoc, mul_comm (exp _), polar]
  · rw [norm_polar _ _ hp0, mul_assoc, mul_comm (exp _), polar]

/-- The smoothed magnitude and the root of the smoothed power lie between bounds of the magnitudes
in the range of the smoothing. -/
theorem C133_bounds (w : ℝ → ℝ) (hw : Bump w) (fraction delta : ℝ) (hf : 0 < fraction) (hd : 0 < delta)
    (N i : ℕ) (hN : 2 ≤ N) (hi : i < N) (s : ℕ → ℂ) (lo hi' : ℝ) (hlo : 0 ≤ lo)
    (hb : ∀ m < N, (i : ℝ) * 2 ^ (-1 / (2 * fraction)) - 1 / 2 ≤ m →
      (m : ℝ) ≤ i * 2 ^ (1 / (2 * fraction)) + 1 / 2 → lo ≤ ‖s m‖ ∧ ‖s m‖ ≤ hi') (d : Domain) :
    ∃ v, complexSmoothing w fraction delta N d s i = .ok (some v) ∧ ‖v‖ ≤ hi' ∧
      ((match d with | .realImaginary => False | _ => True) → lo ≤ ‖v‖) := by
  obtain ⟨a, ma, ha⟩ := C133_mean w hw fraction delta hf hd N i hi
  obtain ⟨d1, d2, d3, d4, d5, d6⟩ := domains w fraction delta hf N i hN a ha s
  have hm0 : 0 ≤ ∑ m ∈ range N, a m * ‖s m‖ := sum_nonneg fun m _ => mul_nonneg (ma.nonneg m) (norm_nonneg _)
  have hp0 := Real.sqrt_nonneg (∑ m ∈ range N, a m * ‖s m‖ ^ 2)
  have gen : ∀ (x : ℕ → ℝ) (A B : ℝ), (∀ m < N, a m ≠ 0 → A ≤ x m ∧ x m ≤ B) →
      A ≤ ∑ m ∈ range N, a m * x m ∧ ∑ m ∈ range N, a m * x m ≤ B := by
    intro x A B hx
    have e : ∀ C : ℝ, C = ∑ m ∈ range N, a m * C := by
      intro C
      rw [← sum_mul, ma.total, one_mul]
    constructor
    · rw [e A]
      refine sum_le_sum fun m hm => ?_
      by_cases h0 : a m = 0
      · rw [h0, zero_mul, zero_mul]
      · exact mul_le_mul_of_nonneg_left (hx m (mem_range.mp hm) h0).1 (ma.nonneg m)
    · conv_rhs => rw [e B]
      refine sum_le_sum fun m hm => ?_
      by_cases h0 : a m = 0
      · rw [h0, zero_mul, zero_mul]
      · exact mul_le_mul_of_nonneg_left (hx m (mem_range.mp hm) h0).2 (ma.nonneg m)
  have hx : ∀ m < N, a m ≠ 0 → lo ≤ ‖s m‖ ∧ ‖s m‖ ≤ hi' := fun m hm h0 =>
    hb m hm (ma.range m h0).1 (ma.range m h0).2
  obtain ⟨g1, g2⟩ := gen (fun m => ‖s m‖) lo hi' hx
  have hhi0 : 0 ≤ hi' := hm0.trans g2
  obtain ⟨p1, p2⟩ := gen (fun m => ‖s m‖ ^ 2) (lo ^ 2) (hi' ^ 2) fun m hm h0 =>
    ⟨pow_le_pow_left₀ hlo (hx m hm h0).1 2, pow_le_pow_left₀ (norm_nonneg _) (hx m hm h0).2 2⟩
  have q1 : lo ≤ Real.sqrt (∑ m ∈ range N, a m * ‖s m‖ ^ 2) := Real.le_sqrt_of_sq_le p1
  have q2 : Real.sqrt (∑ m ∈ range N, a m * ‖s m‖ ^ 2) ≤ hi' := by
    rw [← Real.sqrt_sq hhi0]
    exact Real.sqrt_le_sqrt p2
  cases d with
  | realImaginary =>
    refine ⟨_, d1, ?_, fun h => h.elim⟩
    refine ((norm_sum_le _ _).trans (sum_le_sum fun m _ => ?_)).trans g2
    rw [norm_mul, norm_real, Real.norm_of_nonneg (ma.nonneg m)]
  | magnitudePhase => exact ⟨_, d4, by rw [norm_polar _ _ hm0]; exact g2, fun _ => by rw [norm_polar _ _ hm0]; exact g1⟩
  | powerPhase => exact ⟨_, d5, by rw [norm_polar _ _ hp0]; exact q2, fun _ => by rw [norm_polar _ _ hp0]; exact q1⟩
  | power => exact ⟨_, d3, by rw [norm_polar _ _ hp0]; exact q2, fun _ => by rw [norm_polar _ _ hp0]; exact q1⟩
  | magnitude => exact ⟨_, d2, by rw [norm_polar _ _ hm0]; exact g2, fun _ => by rw [norm_polar _ _ hm0]; exact g1⟩
  | equivalentComplex => exact ⟨_, d6, by rw [norm_polar _ _ hp0]; exact q2, fun _ => by rw [norm_polar _ _ hp0]; exact q1⟩

/-- A constant spectrum is not changed in any domain. -/
theorem C133_constant (w : ℝ → ℝ) (hw : Bump w) (fraction delta : ℝ) (hf : 0 < fraction) (hd : 0 < delta)
    (N i : ℕ) (hN : 2 ≤ N) (hi : i < N) (c : ℂ) (d : Domain) :
    complexSmoothing w fraction delta N d (fun _ => c) i = .ok (some c) := by
  obtain ⟨a, ma, ha⟩ := C133_mean w hw fraction delta hf hd N i hi
  obtain ⟨d1, d2, d3, d4, d5, d6⟩ := domains w fraction delta hf N i hN a ha fun _ => c
  have hc : ∑ m ∈ range N, (a m : ℂ) * c = c := by
    rw [← sum_mul, ← ofReal_sum, ma.total, ofReal_one, one_mul]
  have hr : ∀ x : ℝ, ∑ m ∈ range N, a m * x = x := by
    intro x
    rw [← sum_mul, ma.total, one_mul]
  have hu : ∀ m, Spectrum.unwrap (fun _ => c.arg) m = c.arg := by
    intro m
    unfold Spectrum.unwrap Spectrum.unwrapCorr
    simp [Real.pi_pos]
  simp only [hc, hr, hu, Real.sqrt_sq (norm_nonneg c), polar] at d1 d2 d3 d4 d5 d6
  cases d <;> assumption

/-- Smoothing real and imaginary parts is linear. -/
theorem C133_linear (w : ℝ → ℝ) (hw : Bump w) (fraction delta : ℝ) (hf : 0 < fraction) (hd : 0 < delta)
    (N i : ℕ) (hN : 2 ≤ N) (hi : i < N) (s t : ℕ → ℂ) (p q : ℂ) :
    ∃ u v, complexSmoothing w fraction delta N .realImaginary s i = .ok (some u) ∧
      complexSmoothing w fraction delta N .realImaginary t i = .ok (some v) ∧
      complexSmoothing w fraction delta N .realImaginary (fun m => p * s m + q * t m) i =
        .ok (some (p * u + q * v)) := by
  obtain ⟨a, ma, ha⟩ := C133_mean w hw fraction delta hf hd N i hi
  refine ⟨_, _, (domains w fraction delta hf N i hN a ha s).1,
    (domains w fraction delta hf N i hN a ha t).1, ?_⟩
  rw [(domains w fraction delta hf N i hN a ha _).1, mul_sum, mul_sum, ← sum_add_distrib]
  congr 2
  exact sum_congr rfl fun m _ => by ring

/-- All domains commute with a gain: a spectrum `g` times as large gives a result `g` times as
large. -/
theorem C133_gain (w : ℝ → ℝ) (hw : Bump w) (fraction delta : ℝ) (hf : 0 < fraction) (hd : 0 < delta)
    (N i : ℕ) (hN : 2 ≤ N) (hi : i < N) (s : ℕ → ℂ) (g : ℝ) (hg : 0 < g) (d : Domain) :
    ∃ v, complexSmoothing w fraction delta N d s i = .ok (some v) ∧
      complexSmoothing w fraction delta N d (fun m => g * s m) i = .ok (some (g * v)) := by
  obtain ⟨a, ma, ha⟩ := C133_mean w hw fraction delta hf hd N i hi
  obtain ⟨d1, d2, d3, d4, d5, d6⟩ := domains w fraction delta hf N i hN a ha s
  obtain ⟨e1, e2, e3, e4, e5, e6⟩ := domains w fraction delta hf N i hN a ha fun m => g * s m
  have harg : ∀ z : ℂ, ((g : ℂ) * z).arg = z.arg := fun z => arg_real_mul z hg
  have hn : ∀ z : ℂ, ‖(g : ℂ) * z‖ = g * ‖z‖ := by
    intro z
    rw [norm_mul, norm_real, Real.norm_of_nonneg hg.le]
  have hc : ∑ m ∈ range N, (a m : ℂ) * (g * s m) = g * ∑ m ∈ range N, (a m : ℂ) * s m := by
    rw [mul_sum]
    exact sum_congr rfl fun m _ => by ring
  have hm : ∑ m ∈ range N, a m * (g * ‖s m‖) = g * ∑ m ∈ range N, a m * ‖s m‖ := by
    rw [mul_sum]
    exact sum_congr rfl fun m _ => by ring
  have hp : Real.sqrt (∑ m ∈ range N, a m * (g * ‖s m‖) ^ 2) =
      g * Real.sqrt (∑ m ∈ range N, a m * ‖s m‖ ^ 2) := by
    have : ∑ m ∈ range N, a m * (g * ‖s m‖) ^ 2 = g ^ 2 * ∑ m ∈ range N, a m * ‖s m‖ ^ 2 := by
      rw [mul_sum]
      exact sum_congr rfl fun m _ => by ring
    rw [this, Real.sqrt_mul (sq_nonneg g), Real.sqrt_sq hg.le]
  simp only [harg, hn, hc, hm, hp, ofReal_mul, mul_assoc] at e1 e2 e3 e4 e5 e6
  cases d with
  | realImaginary => exact ⟨_, d1, e1⟩
  | magnitudePhase => exact ⟨_, d4, e4⟩
  | powerPhase => exact ⟨_, d5, e5⟩
  | power => exact ⟨_, d3, e3⟩
  | magnitude => exact ⟨_, d2, e2⟩
  | equivalentComplex => exact ⟨_, d6, e6⟩

/-- Bin 0 (DC) is kept. -/
theorem C133_dc (w : ℝ → ℝ) (fraction delta : ℝ) (N : ℕ) (s : ℕ → ℂ) :
    smoothAt w fraction delta N s 0 = some (s 0) := by
  unfold smoothAt
  dsimp only
  rw [if_pos]
  unfold indHigh indLow
  norm_num

theorem three_rpow (t : ℝ) (h0 : 0 ≤ t) (h1 : t ≤ 1) : (3 : ℝ) ^ (1 - t) + 3 ^ t ≤ 4 := by
  have hp : (0 : ℝ) < 3 ^ t := Real.rpow_pos_of_pos (by norm_num) t
  have e : (3 : ℝ) ^ (1 - t) = 3 / 3 ^ t := by
    rw [Real.rpow_sub (by norm_num), Real.rpow_one]
  have l1 : 1 ≤ (3 : ℝ) ^ t := Real.one_le_rpow (by norm_num) h0
  have l3 : (3 : ℝ) ^ t ≤ 3 := by
    calc (3 : ℝ) ^ t ≤ (3 : ℝ) ^ (1 : ℝ) := Real.rpow_le_rpow_of_exponent_le (by norm_num) h1
      _ = 3 := Real.rpow_one _
  rw [e, div_add' _ _ _ hp.ne', div_le_iff₀ hp]
  nlinarith

theorem weight_skew (w : ℝ → ℝ) (hw : ∀ x y, |x| ≤ |y| → |y| ≤ 1 → w y ≤ w x) (L j j' : ℕ)
    (hj : j < j') (hs : j + j' + 1 = L) : weight w L j' ≤ weight w L j := by
  have hL : (L : ℝ) - 1 = j + j' := by
    rw [← hs]
    push_cast
    ring
  have hj' : (j : ℝ) < j' := by exact_mod_cast hj
  have hj0 : (0 : ℝ) ≤ j := Nat.cast_nonneg j
  have hpos : (0 : ℝ) < (j : ℝ) + j' := by linarith
  unfold weight
  rw [hL]
  set t : ℝ := (j : ℝ) / (j + j') with ht
  have e : (j' : ℝ) / (j + j') = 1 - t := by
    rw [ht]
    field_simp
    ring
  rw [e]
  have ht0 : 0 ≤ t := by positivity
  have ht1 : t ≤ 1 := by
    rw [ht, div_le_one hpos]
    linarith
  have hth : t ≤ 1 - t := by
    rw [← e, ht]
    gcongr
  have h4 := three_rpow t ht0 ht1
  have hmono : (3 : ℝ) ^ t ≤ 3 ^ (1 - t) := Real.rpow_le_rpow_of_exponent_le (by norm_num) hth
  have l1 : 1 ≤ (3 : ℝ) ^ t := Real.one_le_rpow (by norm_num) ht0
  have hneg : (3 : ℝ) ^ t - 2 ≤ 0 := by linarith
  have e1 : 1 - (1 - t) = t := by ring
  rw [e1]
  refine hw _ _ ?_ ?_
  · rw [abs_of_nonpos hneg, abs_le]
    constructor <;> linarith
  · rw [abs_of_nonpos hneg]
    linarith

/-- The window is skewed to the low frequencies: of two bins placed symmetrically in the (uncut)
range of the smoothing the lower one counts at least as much, for every even window that falls from
its centre. -/
theorem C133_skew (w : ℝ → ℝ) (hw : Bump w) (hm : ∀ x y, |x| ≤ |y| → |y| ≤ 1 → w y ≤ w x)
    (fraction delta : ℝ) (hf : 0 < fraction) (hd : 0 < delta) (N i : ℕ) (m m' : ℕ) (hmm : m < m')
    (hN : indHigh (factor fraction) delta i ≤ N) (h1 : indLow (factor fraction) delta i ≤ m)
    (h2 : (m : ℤ) + m' + 1 = indLow (factor fraction) delta i + indHigh (factor fraction) delta i)
    (h3 : indLow (factor fraction) delta i + 2 < indHigh (factor fraction) delta i) :
    ∃ u v : ℝ, smoothAt w fraction delta N (fun n => if n = m then 1 else 0) i = some (u : ℂ) ∧
      smoothAt w fraction delta N (fun n => if n = m' then 1 else 0) i = some (v : ℂ) ∧ v ≤ u := by
  have hk := factor_gt fraction hf
  obtain ⟨b1, b2, b3, b4, b5⟩ := ind_bounds (factor fraction) delta hk hd i
  set lo := (max (indLow (factor fraction) delta i) 0).toNat with hlo
  set hi' := (min (indHigh (factor fraction) delta i) N).toNat with hhi
  set L := (indHigh (factor fraction) delta i - indLow (factor fraction) delta i).toNat with hL
  have hLe : hi' - lo = L := by omega
  have hc : ¬ hi' ≤ lo + 2 := by omega
  set total := ∑ j ∈ range (hi' - lo), weight w L j with htot
  have hnn : ∀ j ∈ range (hi' - lo), 0 ≤ weight w L j := fun j hj =>
    (weight_pos w hw L j (by have := mem_range.mp hj; omega)).1
  have hpos : 0 < total := by
    refine lt_of_lt_of_le ?_ (single_le_sum hnn (mem_range.mpr (show 1 < hi' - lo by omega)))
    exact (weight_pos w hw L 1 (by omega)).2 one_pos (by omega)
  have key : ∀ n, lo ≤ n → n < hi' →
      smoothAt w fraction delta N (fun q => if q = n then 1 else 0) i =
        some ((weight w L (n - lo) / total : ℝ) : ℂ) := by
    intro n hn1 hn2
    unfold smoothAt
    dsimp only
    rw [← hlo, ← hhi, ← hL, if_neg hc, ← htot, if_neg hpos.ne']
    congr 1
    rw [sum_eq_single (n - lo)]
    · rw [if_pos (by omega), mul_one]
    · intro j _ hj
      rw [if_neg (by omega), mul_zero]
    · intro h
      exact absurd (mem_range.mpr (by omega)) h
  refine ⟨_, _, key m (by omega) (by omega), key m' (by omega) (by omega), ?_⟩
  exact div_le_div_of_nonneg_right (weight_skew w hm L _ _ (by omega) (by omega)) hpos.le

/-- Concrete case: bin 10 with the factor 3/2 has the bins 7 to 15. -/
example : indLow (3 / 2) 1 10 = 7 ∧ indHigh (3 / 2) 1 10 = 16 := by
  unfold indLow indHigh
  constructor
  · have : ⌊((10 : ℕ) * 1 - (10 : ℕ) * 1 / (3 / 2)) / 1 + 1 / (2 : ℝ)⌋ = 3 := by
      rw [Int.floor_eq_iff]
      norm_num
    rw [this]
    norm_num
  · have : ⌊((10 : ℕ) * 1 * (3 / 2) - (10 : ℕ) * 1) / 1 + 1 / (2 : ℝ)⌋ = 5 := by
      rw [Int.floor_eq_iff]
      norm_num
    rw [this]
    norm_num

/-- Concrete case: a parabola as window. -/
example : Bump (fun x => 1 - x ^ 2) ∧
    ∀ x y : ℝ, |x| ≤ |y| → |y| ≤ 1 → 1 - y ^ 2 ≤ 1 - x ^ 2 :=
  ⟨⟨fun x h1 h2 => by nlinarith, fun x h1 h2 => by nlinarith⟩, fun x y h _ => by
    have := sq_le_sq' (by linarith [abs_nonneg x, abs_nonneg y]) h
    rw [sq_abs, sq_abs] at this
    linarith⟩

end Verif.ComplexSmoothing

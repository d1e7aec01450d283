import Verif.Model.Warp
import Verif.Props.C36Stable
import Mathlib.Tactic.LinearCombination

/-!
# C71: warping replaces every delay by an allpass
-/

namespace Verif.Props.C71

open Warp Bank StableFilter PowerSeries

/-- The first-order allpass `(z⁻¹ - λ) / (1 - λ z⁻¹)` as a power series in `z⁻¹`. -/
noncomputable def allpassSeries (lam : ℝ) : PowerSeries ℝ := (X - C lam) * (1 - C lam * X)⁻¹

/-- The response `∑ x[n] z⁻ⁿ` with every `z⁻¹` replaced by the allpass. -/
noncomputable def warped (lam : ℝ) (x : List ℝ) : PowerSeries ℝ :=
  ∑ n ∈ Finset.range x.length, C (x.getD n 0) * allpassSeries lam ^ n

theorem zseries_pair (p q : ℝ) : zseries [p, q] = C p + C q * X := by
  ext n
  rw [zseries_coeff]
  match n with
  | 0 => simp
  | 1 => simp [PowerSeries.coeff_C]
  | n + 2 => simp

theorem ratio_allpass (lam : ℝ) : ratio [-lam, 1] [1, -lam] = allpassSeries lam := by
  unfold ratio allpassSeries
  rw [zseries_pair, zseries_pair]
  congr 1
  · rw [map_neg, map_one]
    ring
  · congr 1
    rw [map_neg, map_one]
    ring

theorem zseries_dirac (m : ℕ) : zseries ((1 : ℝ) :: List.replicate m 0) = 1 := by
  ext n
  rw [zseries_coeff, PowerSeries.coeff_one]
  cases n with
  | zero => simp
  | succ n =>
    rw [List.getD_cons_succ]
    simp only [Nat.succ_ne_zero, if_false]
    by_cases h : n < m
    · rw [List.getD_eq_getElem _ _ (by simpa using h)]
      simp
    · rw [List.getD_eq_default _ _ (by simpa using h)]

theorem zipWith_getD (a d : List ℝ) (x : ℝ) (h : a.length = d.length) (k : ℕ) (hk : k < a.length) :
    (List.zipWith (· + ·) a (d.map (· * x))).getD k 0 = a.getD k 0 + d.getD k 0 * x := by
  rw [List.getD_eq_getElem _ _ (by simpa [h] using (h ▸ hk)), List.getD_eq_getElem _ _ hk,
    List.getD_eq_getElem _ _ (h ▸ hk)]
  simp

theorem warpLoop_spec (lam : ℝ) (N : ℕ) (xs : List ℝ) (dirac acc : List ℝ) (p q : PowerSeries ℝ)
    (hd : dirac.length = N) (ha : acc.length = N) (h1 : AgreeUpTo N (zseries dirac) p)
    (h2 : AgreeUpTo N (zseries acc) q) :
    (warpLoop [-lam, 1] [1, -lam] dirac acc xs).length = N ∧
      AgreeUpTo N (zseries (warpLoop [-lam, 1] [1, -lam] dirac acc xs))
        (q + ∑ n ∈ Finset.range xs.length,
          C (xs.getD n 0) * (allpassSeries lam ^ (n + 1) * p)) := by
  induction xs generalizing dirac acc p q with
  | nil => exact ⟨ha, by simpa [warpLoop] using h2⟩
  | cons x xs ih =>
    unfold warpLoop
    dsimp only
    have hf := lfilter_agree [-lam, 1] [1, -lam] dirac (by simp)
    rw [hd, ratio_allpass] at hf
    have hf' : AgreeUpTo N (zseries (lfilter [-lam, 1] [1, -lam] dirac)) (allpassSeries lam * p) :=
      hf.trans (h1.mul_left _)
    have hl : (lfilter [-lam, 1] [1, -lam] dirac).length = N := by rw [lfilter_length, hd]
    have hacc : AgreeUpTo N (zseries (List.zipWith (· + ·) acc
        ((lfilter [-lam, 1] [1, -lam] dirac).map (· * x)))) (q + C x * (allpassSeries lam * p)) := by
      intro k hk
      rw [zseries_coeff, zipWith_getD _ _ _ (ha.trans hl.symm) _ (ha ▸ hk), map_add,
        PowerSeries.coeff_C_mul, ← h2 k hk, ← hf' k hk, zseries_coeff, zseries_coeff]
      ring
    obtain ⟨r1, r2⟩ := ih _ _ (allpassSeries lam * p) (q + C x * (allpassSeries lam * p)) hl
      (by simp [ha, hl]) hf' hacc
    refine ⟨r1, ?_⟩
    convert r2 using 1
    rw [List.length_cons, Finset.sum_range_succ']
    simp only [List.getD_cons_zero, List.getD_cons_succ]
    have : ∀ n, C (xs.getD n 0) * (allpassSeries lam ^ (n + 1 + 1) * p) =
        C (xs.getD n 0) * (allpassSeries lam ^ (n + 1) * (allpassSeries lam * p)) := fun n => by ring
    simp only [this]
    ring

/-- The warped signal has the length of the signal, and its samples are the first ones of the
response in which every delay is replaced by an allpass. -/
theorem C71_warped (lam : ℝ) (x : List ℝ) :
    (warpSeries lam x).length = x.length ∧
      ∀ k < x.length, (warpSeries lam x).getD k 0 = coeff k (warped lam x) := by
  cases x with
  | nil => simp [warpSeries]
  | cons x xs =>
    obtain ⟨h1, h2⟩ := warpLoop_spec lam (xs.length + 1) xs (1 :: List.replicate xs.length 0)
      ((1 :: List.replicate xs.length 0).map (· * x)) 1 (C x) (by simp) (by simp)
      (fun k _ => by rw [zseries_dirac]) (fun k hk => by
        rw [zseries_coeff, PowerSeries.coeff_C]
        cases k with
        | zero => simp
        | succ k =>
          rw [List.map_cons, List.getD_cons_succ, List.map_replicate,
            List.getD_eq_getElem _ _ (by simpa using hk)]
          simp)
    refine ⟨h1, fun k hk => ?_⟩
    have := h2 k hk
    rw [zseries_coeff] at this
    refine this.trans ?_
    congr 1
    unfold warped
    rw [List.length_cons, Finset.sum_range_succ']
    simp only [List.getD_cons_zero, List.getD_cons_succ, pow_zero, mul_one]
    ring

theorem warped_zero (x : List ℝ) : warped 0 x = zseries x := by
  unfold warped allpassSeries
  have h0 : ((X : PowerSeries ℝ) - C 0) * (1 - C 0 * X)⁻¹ = X := by
    rw [map_zero, zero_mul, sub_zero, sub_zero]
    have : (1 : PowerSeries ℝ)⁻¹ = 1 := by
      rw [PowerSeries.inv_eq_iff_mul_eq_one (by simp)]
      simp
    rw [this, mul_one]
  rw [h0]
  ext k
  rw [zseries_coeff, map_sum]
  simp only [PowerSeries.coeff_C_mul, PowerSeries.coeff_X_pow]
  rcases Nat.lt_or_ge k x.length with hk | hk
  · rw [Finset.sum_eq_single k]
    · simp
    · intro n _ hn
      rw [if_neg (Ne.symm hn), mul_zero]
    · intro h
      exact absurd (Finset.mem_range.2 hk) h
  · rw [List.getD_eq_default _ _ hk]
    refine Finset.sum_eq_zero fun n hn => ?_
    have := Finset.mem_range.1 hn
    rw [if_neg (by omega), mul_zero]

/-- The factor 0 changes nothing. -/
theorem C71_zero_factor (x : List ℝ) : warpSeries 0 x = x := by
  obtain ⟨h1, h2⟩ := C71_warped 0 x
  refine List.ext_getElem h1 fun k hk hk' => ?_
  have := h2 k hk'
  rw [warped_zero, zseries_coeff, List.getD_eq_getElem _ _ hk, List.getD_eq_getElem _ _ hk'] at this
  exact this

/-- Warping is linear. -/
theorem C71_linear (lam a b : ℝ) (x y z : List ℝ) (hxy : x.length = y.length)
    (hz : z.length = x.length) (h : ∀ n < x.length, z.getD n 0 = a * x.getD n 0 + b * y.getD n 0)
    (k : ℕ) (hk : k < x.length) :
    (warpSeries lam z).getD k 0 =
      a * (warpSeries lam x).getD k 0 + b * (warpSeries lam y).getD k 0 := by
  rw [(C71_warped lam z).2 k (hz ▸ hk), (C71_warped lam x).2 k hk,
    (C71_warped lam y).2 k (hxy ▸ hk)]
  unfold warped
  rw [hz, ← hxy, map_sum, map_sum, map_sum, Finset.mul_sum, Finset.mul_sum,
    ← Finset.sum_add_distrib]
  refine Finset.sum_congr rfl fun n hn => ?_
  rw [PowerSeries.coeff_C_mul, PowerSeries.coeff_C_mul, PowerSeries.coeff_C_mul,
    h n (Finset.mem_range.1 hn)]
  ring

theorem warped_padding (lam : ℝ) (x : List ℝ) (m : ℕ) :
    warped lam (x ++ List.replicate m 0) = warped lam x := by
  unfold warped
  rw [List.length_append, List.length_replicate]
  symm
  have hsub : Finset.range x.length ⊆ Finset.range (x.length + m) :=
    Finset.range_mono (Nat.le_add_right _ _)
  rw [← Finset.sum_subset hsub]
  · refine Finset.sum_congr rfl fun n hn => ?_
    rw [List.getD_append _ _ _ _ (Finset.mem_range.1 hn)]
  · intro n hn hn'
    have h1 : x.length ≤ n := by simpa using hn'
    have h2 : n < x.length + m := by simpa using hn
    rw [List.getD_append_right _ _ _ _ h1, List.getD_eq_getElem _ _ (by simp; omega)]
    simp

/-- Padding with zeros only appends samples. -/
theorem C71_padding (lam : ℝ) (x : List ℝ) (m k : ℕ) (hk : k < x.length) :
    (warpSeries lam (x ++ List.replicate m 0)).getD k 0 = (warpSeries lam x).getD k 0 := by
  rw [(C71_warped lam _).2 k (by simp; omega), (C71_warped lam x).2 k hk, warped_padding]

/-- The allpass at `w = z⁻¹`. -/
noncomputable def allpassAt (lam : ℝ) (w : ℂ) : ℂ := (w - lam) / (1 - lam * w)

theorem den_ne_zero (lam : ℝ) (hl : |lam| < 1) (w : ℂ) (hw : ‖w‖ ≤ 1) : 1 - (lam : ℂ) * w ≠ 0 := by
  intro h
  have h1 : (lam : ℂ) * w = 1 := by linear_combination -h
  have h2 : ‖(lam : ℂ) * w‖ = 1 := by rw [h1, norm_one]
  rw [norm_mul, Complex.norm_real, Real.norm_eq_abs] at h2
  have := abs_nonneg lam
  nlinarith [norm_nonneg w]

theorem allpass_value (lam : ℝ) (hl : |lam| < 1) :
    AbsSum (cplx (allpassSeries lam)) ∧
      ∀ w : ℂ, ‖w‖ ≤ 1 → valueAt (cplx (allpassSeries lam)) w = allpassAt lam w := by
  have hs : StableDen [1, -lam] := by
    intro w hw
    have := den_ne_zero lam hl w hw
    simpa [Finset.sum_range_succ, sub_eq_add_neg] using this
  obtain ⟨h1, h2⟩ := ratio_value [-lam, 1] [1, -lam] (by simp) hs
  rw [ratio_allpass] at h1 h2
  refine ⟨h1, fun w hw => ?_⟩
  rw [h2 w hw]
  unfold evalPoly allpassAt
  simp [Finset.sum_range_succ]
  congr 1
  ring

theorem const_value (c : ℝ) : AbsSum (cplx (C c)) ∧ ∀ w : ℂ, valueAt (cplx (C c)) w = c := by
  have h : cplx (C c) = ((Polynomial.C (c : ℂ) : Polynomial ℂ) : PowerSeries ℂ) := by
    simp [cplx]
  rw [h]
  exact ⟨absSum_poly _, fun w => by rw [valueAt_poly, Polynomial.eval_C]⟩

theorem pow_value (lam : ℝ) (hl : |lam| < 1) (n : ℕ) :
    AbsSum (cplx (allpassSeries lam ^ n)) ∧
      ∀ w : ℂ, ‖w‖ ≤ 1 → valueAt (cplx (allpassSeries lam ^ n)) w = allpassAt lam w ^ n := by
  induction n with
  | zero =>
    simp only [pow_zero]
    exact ⟨one_value.1, fun w _ => one_value.2 w⟩
  | succ n ih =>
    simp only [pow_succ]
    exact mul_value ih (allpass_value lam hl)

theorem warped_value (lam : ℝ) (hl : |lam| < 1) (x : List ℝ) (m : ℕ) :
    AbsSum (cplx (∑ n ∈ Finset.range m, C (x.getD n 0) * allpassSeries lam ^ n)) ∧
      ∀ w : ℂ, ‖w‖ ≤ 1 →
        valueAt (cplx (∑ n ∈ Finset.range m, C (x.getD n 0) * allpassSeries lam ^ n)) w =
          ∑ n ∈ Finset.range m, (x.getD n 0 : ℂ) * allpassAt lam w ^ n := by
  induction m with
  | zero =>
    have h : cplx (0 : PowerSeries ℝ) = ((0 : Polynomial ℂ) : PowerSeries ℂ) := by simp [cplx]
    simp only [Finset.range_zero, Finset.sum_empty]
    rw [h]
    exact ⟨absSum_poly _, fun w _ => by rw [valueAt_poly, Polynomial.eval_zero]⟩
  | succ m ih =>
    simp only [Finset.sum_range_succ]
    exact add_value ih (mul_value ⟨(const_value _).1, fun w _ => (const_value _).2 w⟩
      (pow_value lam hl m))

/-- The samples that the warped signal has when the signal is long enough (padded with zeros). -/
noncomputable def samples (lam : ℝ) (x : List ℝ) (k : ℕ) : ℝ :=
  (warpSeries lam (x ++ List.replicate (k + 1) 0)).getD k 0

/-- The response of the complete warped signal at the frequency `w` is the response of the signal at
the frequency to which the allpass maps `w`; frequencies are mapped to frequencies. -/
theorem C71_frequencies (lam : ℝ) (hl : |lam| < 1) (x : List ℝ) :
    TransformIs (samples lam x)
      (fun w => ∑ n ∈ Finset.range x.length, (x.getD n 0 : ℂ) * allpassAt lam w ^ n) ∧
      ∀ w : ℂ, ‖w‖ = 1 → ‖allpassAt lam w‖ = 1 := by
  have hs : ∀ k, samples lam x k = coeff k (warped lam x) := by
    intro k
    unfold samples
    rw [(C71_warped lam _).2 k (by simp; omega), warped_padding]
  obtain ⟨h1, h2⟩ := warped_value lam hl x x.length
  refine ⟨⟨?_, fun w hw => ?_⟩, fun w hw => ?_⟩
  · refine h1.congr fun n => ?_
    rw [hs, cplx_coeff, Complex.norm_real, Real.norm_eq_abs]
    rfl
  · dsimp only
    rw [← h2 w hw]
    refine (h1.hasSum w hw).congr_fun fun n => ?_
    rw [hs, cplx_coeff]
    rfl
  · unfold allpassAt
    rw [norm_div, div_eq_one_iff_eq (norm_ne_zero_iff.2 (den_ne_zero lam hl w hw.le))]
    have hc : (starRingEnd ℂ) w * w = 1 := by
      rw [mul_comm, Complex.mul_conj, Complex.normSq_eq_norm_sq, hw]
      norm_num
    have e : w - lam = w * (starRingEnd ℂ) (1 - lam * w) := by
      rw [map_sub, map_mul, map_one, Complex.conj_ofReal]
      linear_combination (lam : ℂ) * hc
    rw [e, norm_mul, hw, one_mul, Complex.norm_conj]

/-- The opposite factor maps the frequencies back. -/
theorem C71_inverse_map (lam : ℝ) (hl : |lam| < 1) (w : ℂ) (hw : ‖w‖ ≤ 1) :
    allpassAt (-lam) (allpassAt lam w) = w := by
  unfold allpassAt
  have h1 := den_ne_zero lam hl w hw
  have h3 : (1 : ℂ) - lam ^ 2 ≠ 0 := by
    have h4 : (1 : ℝ) - lam ^ 2 ≠ 0 := by nlinarith [abs_lt.1 hl]
    exact_mod_cast h4
  have h2 : 1 - ((-lam : ℝ) : ℂ) * ((w - lam) / (1 - lam * w)) = (1 - lam ^ 2) / (1 - lam * w) := by
    push_cast
    field_simp
    ring
  rw [h2, div_eq_iff (div_ne_zero h3 h1)]
  push_cast
  rw [mul_div_assoc', eq_div_iff h1, sub_mul, div_mul_cancel₀ _ h1]
  ring

theorem allpass_coeffs (lam : ℝ) :
    coeff 0 (allpassSeries lam) = -lam ∧ coeff 1 (allpassSeries lam) = 1 - lam ^ 2 := by
  have h : (1 - C lam * X) * allpassSeries lam = X - C lam := by
    unfold allpassSeries
    rw [mul_comm (X - C lam), ← mul_assoc, PowerSeries.mul_inv_cancel _ (by simp), one_mul]
  have h0 := congrArg (coeff 0) h
  have h1 := congrArg (coeff 1) h
  rw [sub_mul, one_mul, mul_assoc, map_sub, map_sub, PowerSeries.coeff_C_mul] at h0 h1
  rw [PowerSeries.coeff_zero_X_mul] at h0
  rw [PowerSeries.coeff_succ_X_mul] at h1
  simp [PowerSeries.coeff_C] at h0 h1
  constructor
  · simpa using h0
  · have e0 : coeff 0 (allpassSeries lam) = -lam := by simpa using h0
    simp only [PowerSeries.coeff_zero_eq_constantCoeff] at e0
    rw [e0] at h1
    linarith

theorem warp_two (lam a b : ℝ) : warpSeries lam [a, b] = [a - lam * b, (1 - lam ^ 2) * b] := by
  obtain ⟨h1, h2⟩ := C71_warped lam [a, b]
  obtain ⟨c0, c1⟩ := allpass_coeffs lam
  have e : warped lam [a, b] = C a + C b * allpassSeries lam := by
    unfold warped
    simp [Finset.sum_range_succ]
  rw [e] at h2
  refine List.ext_getElem (by rw [h1]; rfl) fun k hk hk' => ?_
  have hk2 : k < 2 := by simpa using hk'
  have := h2 k (by simpa using hk2)
  rw [List.getD_eq_getElem _ _ hk] at this
  rw [this, map_add, PowerSeries.coeff_C_mul]
  interval_cases k
  · rw [c0]
    simp
    ring
  · rw [c1]
    simp
    ring

/-- Warping and warping back does not return the signal, since the samples beyond the length are
cut off: no signal of two samples with a second one comes back, for any factor except 0. -/
theorem C71_not_reversible (lam a b : ℝ) (hl : |lam| < 1) (h0 : lam ≠ 0) (hb : b ≠ 0) :
    warpSeries (-lam) (warpSeries lam [a, b]) ≠ [a, b] := by
  rw [warp_two, warp_two]
  intro h
  have h1 : (1 - (-lam) ^ 2) * ((1 - lam ^ 2) * b) = b := by
    have := congrArg (fun l => l.getD 1 0) h
    simpa using this
  have h2 : b * (lam ^ 2 * (lam ^ 2 - 2)) = 0 := by linear_combination h1
  have h3 := abs_lt.1 hl
  rcases mul_eq_zero.1 h2 with h | h
  · exact hb h
  · rcases mul_eq_zero.1 h with h | h
    · exact h0 (by simpa using h)
    · nlinarith

/-- The total length is the one of the result only if it is not above the length of the signal: it
never extends the result. -/
theorem C71_total_length_partial (lam : ℝ) (n : ℕ) (x : List ℝ) :
    (warp lam (some n) x).length = min n x.length ∧ warp lam none x = warpSeries lam x := by
  unfold warp
  rw [(C71_warped lam _).1]
  exact ⟨by simp, rfl⟩

/-- A total length above the one of the signal is not respected. -/
theorem C71_total_length_ignored : (warp (1 / 2) (some 8) [1, 2, 3]).length ≠ 8 := by
  rw [(C71_total_length_partial _ _ _).1]
  decide

end Verif.Props.C71

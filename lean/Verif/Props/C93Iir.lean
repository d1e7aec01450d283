import Verif.Props.C93
import Mathlib.RingTheory.PowerSeries.Evaluation
import Mathlib.Analysis.Complex.Basic

/-!
# C93 (continued): responses, full sampling rate, recursive filters
-/

set_option linter.unusedSectionVars false

namespace Verif.QMF

open Verif.Polyphase LFilter Finset

section
variable {K : Type} [Field K] [LinearOrder K] [IsStrictOrderedRing K]

/-- **C93**, without change of the sampling rate: bands that hold the first samples of the two
filtered signals are combined into the same overall system, shifted by the half length of the
filter. -/
theorem C93_full_rate (b x w0 w1 : List K) (fs : ℕ) (hfs : 0 < fs) (hb : 3 ≤ b.length)
    (hl0 : w0.length = x.length) (hl1 : w1.length = x.length)
    (h0 : ∀ n < x.length, w0.getD n 0 = convAt b x n)
    (h1 : ∀ n < x.length, w1.getD n 0 = convAt (ofFir b fs).high.b x n) :
    ∃ y, reconstruct (ofFir b fs) [w0, w1] fs false = .ok (y, fs) ∧ x.length ≤ y.length ∧
      ∀ k, k + (b.length - 1) / 2 < x.length →
        y.getD k 0 = overall b x (k + ((b.length - 1) / 2 : ℕ)) := by
  have hmir : (alternate b).length = b.length := alternate_length b
  have hneg : ((alternate b).map fun v => -v).length = b.length := by
    rw [List.length_map, alternate_length]
  have hg : ∀ n, gap n 1 = 0 := fun n => by
    have := gap_lt n 1 (by norm_num)
    omega
  obtain ⟨y0, d0, l0, e0⟩ := C23_downsample_partial w0 b 1 (by norm_num) hb _ rfl
  obtain ⟨y1, d1, l1, e1⟩ := C23_downsample_partial w1 ((alternate b).map fun v => -v) 1
    (by norm_num) (by omega) _ rfl
  rw [hneg] at l1 e1
  simp only [hg, Nat.div_one] at l0 l1 e0 e1
  have R : ∀ (F : ResampleFilter K) (v : List K), F.isFir = true → F.fs = fs →
      resample F v fs fs = (downsample v F.b 1).map fun y => (y, fs) := by
    intro F v h1 h2
    rw [(C23_resample F v fs fs hfs hfs).1 (dvd_refl _) h2, Nat.div_self hfs, if_pos h1]
  refine ⟨(List.range y0.length).map fun k => y0.getD k 0 + y1.getD k 0, ?_, ?_, fun k hk => ?_⟩
  · unfold reconstruct
    dsimp only
    rw [if_neg (by simp), mul_one, R _ _ rfl rfl, R _ _ rfl rfl]
    simp only [ofFir, fir]
    rw [d0, d1]
    simp only [Except.map, bind, Except.bind]
    rw [if_neg (by omega)]
    rfl
  · simp only [List.length_map, List.length_range]
    omega
  · have hs : ∀ (w c : List K), w.length = x.length →
        (∀ n < x.length, w.getD n 0 = convAt c x n) → ∀ n : ℤ, n < x.length →
        sample w n = ∑ l ∈ range c.length, c.getD l 0 * sample x (n - l) := by
      intro w c hw hc n hn
      rw [← convAt_sample]
      unfold sample
      by_cases h : 0 ≤ n
      · rw [if_pos h, hc _ (by omega), Int.toNat_of_nonneg h]
      · rw [if_neg h]
        unfold convAt
        rw [sum_eq_zero]
        intro m _
        rw [if_neg (by omega)]
    rw [getD_map_range, if_pos (by omega), e0 k (by omega), e1 k (by omega), convAt_sample,
      convAt_sample, hneg, ← sum_add_distrib]
    unfold overall
    rw [mul_sum]
    refine sum_congr rfl fun m _ => ?_
    have en : ∀ c : ℤ, (k : ℤ) * (1 : ℕ) + (((b.length - 1) / 2 : ℕ) * (1 : ℕ) + (1 : ℕ) - 1 -
        (0 : ℕ) - (0 : ℕ)) - c = k + ((b.length - 1) / 2 : ℕ) - c := by
      intro c
      push_cast
      ring
    rw [en, hs w0 b hl0 h0 _ (by omega), hs w1 (alternate b) hl1 h1 _ (by omega), hmir, mul_sum,
      mul_sum, mul_sum, ← sum_add_distrib]
    refine sum_congr rfl fun l _ => ?_
    rw [neg_getD, alternate_getD, alternate_getD]
    have hp : (-1 : K) ^ m * (-1) ^ l = (-1) ^ (m + l) := (pow_add _ _ _).symm
    rcases Nat.mod_two_eq_zero_or_one (m + l) with h2 | h2
    · rw [if_neg (by omega)]
      rw [(Nat.even_iff.mpr h2).neg_one_pow] at hp
      linear_combination (-(b.getD m 0 * b.getD l 0 *
        sample x (k + ((b.length - 1) / 2 : ℕ) - m - l))) * hp
    · rw [if_pos h2]
      rw [(Nat.odd_iff.mpr h2).neg_one_pow] at hp
      linear_combination (-(b.getD m 0 * b.getD l 0 *
        sample x (k + ((b.length - 1) / 2 : ℕ) - m - l))) * hp

/-- Concrete case: three taps, one band pair as computed by the filters. -/
example : ∃ y, reconstruct (ofFir ([1, 2, 1] : List ℚ) 4) [[1, 2, 1], [1, -2, 1]] 4 false =
    .ok (y, 4) ∧ 3 ≤ y.length ∧ ∀ k, k + 1 < 3 →
      y.getD k 0 = overall [1, 2, 1] [1, 0, 0] (k + (1 : ℕ)) :=
  C93_full_rate [1, 2, 1] [1, 0, 0] [1, 2, 1] [1, -2, 1] 4 (by norm_num) (by simp) rfl rfl
    (by decide +kernel) (by decide +kernel)

/-- **C93**, response of the overall system: the square of the lowpass minus the square of the
highpass. -/
theorem C93_overall_response (b : List K) (fs : ℕ) (w : K) :
    2 * ∑ m ∈ range b.length, ∑ l ∈ range b.length,
      (if (m + l) % 2 = 1 then b.getD m 0 * b.getD l 0 * w ^ (m + l) else 0) =
    (∑ n ∈ range b.length, b.getD n 0 * w ^ n) ^ 2 -
      (∑ n ∈ range b.length, (ofFir b fs).high.b.getD n 0 * w ^ n) ^ 2 := by
  rw [sq, sq, sum_mul_sum, sum_mul_sum, mul_sum, ← sum_sub_distrib]
  refine sum_congr rfl fun m _ => ?_
  rw [mul_sum, ← sum_sub_distrib]
  refine sum_congr rfl fun l _ => ?_
  rw [show (ofFir b fs).high.b = alternate b from rfl, alternate_getD, alternate_getD]
  have hp : (-1 : K) ^ m * (-1) ^ l = (-1) ^ (m + l) := (pow_add _ _ _).symm
  rcases Nat.mod_two_eq_zero_or_one (m + l) with h2 | h2
  · rw [if_neg (by omega)]
    rw [(Nat.even_iff.mpr h2).neg_one_pow] at hp
    linear_combination (b.getD m 0 * b.getD l 0 * w ^ m * w ^ l) * hp
  · rw [if_pos h2]
    rw [(Nat.odd_iff.mpr h2).neg_one_pow] at hp
    rw [pow_add]
    linear_combination (b.getD m 0 * b.getD l 0 * w ^ m * w ^ l) * hp

end

/-- Response of real taps at a point of the complex plane. -/
noncomputable def response (b : List ℝ) (w : ℂ) : ℂ := ∑ n ∈ range b.length, (b.getD n 0 : ℂ) * w ^ n

theorem response_symmetric (b : List ℝ) (w : ℂ) (hw : ‖w‖ = 1)
    (hsym : ∀ m < b.length, b.getD (b.length - 1 - m) 0 = b.getD m 0) :
    response b w ^ 2 = w ^ (b.length - 1) * (‖response b w‖ ^ 2 : ℝ) := by
  have hconj : w * (starRingEnd ℂ) w = 1 := by
    rw [Complex.mul_conj, Complex.normSq_eq_norm_sq, hw]
    simp
  have h : response b w = w ^ (b.length - 1) * (starRingEnd ℂ) (response b w) := by
    unfold response
    rw [map_sum, mul_sum, ← sum_range_reflect]
    refine sum_congr rfl fun m hm => ?_
    have hm' := mem_range.mp hm
    rw [hsym m hm', map_mul, map_pow, Complex.conj_ofReal]
    have : w ^ (b.length - 1) = w ^ (b.length - 1 - m) * w ^ m := by
      rw [← pow_add]
      congr 1
      omega
    rw [this]
    have h2 : w ^ m * (starRingEnd ℂ) w ^ m = 1 := by rw [← mul_pow, hconj, one_pow]
    linear_combination (-((b.getD m 0 : ℂ) * w ^ (b.length - 1 - m))) * h2
  have h3 : response b w * (starRingEnd ℂ) (response b w) = (‖response b w‖ ^ 2 : ℝ) := by
    rw [Complex.mul_conj, Complex.normSq_eq_norm_sq]
  rw [← h3, sq]
  nth_rewrite 1 [h]
  ring

/-- **C93**, linear phase prototypes: on the unit circle the overall response is a delay of
`L - 1` samples times the sum of the powers of lowpass and highpass for an even number `L` of
taps, and times their difference for an odd number. -/
theorem C93_power (b : List ℝ) (fs : ℕ) (w : ℂ) (hw : ‖w‖ = 1)
    (hsym : ∀ m < b.length, b.getD (b.length - 1 - m) 0 = b.getD m 0) (hpos : 0 < b.length) :
    response b w ^ 2 - response (ofFir b fs).high.b w ^ 2 =
      w ^ (b.length - 1) * (‖response b w‖ ^ 2 +
        (-1) ^ b.length * ‖response (ofFir b fs).high.b w‖ ^ 2 : ℝ) := by
  have hm : response (ofFir b fs).high.b w = response b (-w) := by
    unfold response
    rw [show (ofFir b fs).high.b = alternate b from rfl, alternate_length]
    refine sum_congr rfl fun n _ => ?_
    rw [alternate_getD, neg_pow w]
    push_cast
    ring
  rw [hm, response_symmetric b w hw hsym, response_symmetric b (-w) (by rw [norm_neg, hw]) hsym,
    neg_pow w]
  have : ((-1 : ℂ)) ^ b.length = -(-1) ^ (b.length - 1) := by
    obtain ⟨n, hn⟩ : ∃ n, b.length = n + 1 := ⟨b.length - 1, by omega⟩
    rw [hn, Nat.add_sub_cancel, pow_succ]
    ring
  push_cast
  rw [this]
  ring

/-- Concrete case: `[1/2, 1/2]` at `w = 1`. -/
example : response [1 / 2, 1 / 2] 1 ^ 2 -
    response (ofFir ([1 / 2, 1 / 2] : List ℝ) 8).high.b 1 ^ 2 =
      1 ^ (2 - 1) * (‖response [1 / 2, 1 / 2] 1‖ ^ 2 +
        (-1) ^ 2 * ‖response (ofFir ([1 / 2, 1 / 2] : List ℝ) 8).high.b 1‖ ^ 2 : ℝ) :=
  C93_power [1 / 2, 1 / 2] 8 1 (by simp) (by
    intro m hm
    simp only [List.length_cons, List.length_nil] at hm
    have : m = 0 ∨ m = 1 := by omega
    rcases this with rfl | rfl <;> rfl) (by simp)

/-! ### Recursive filters -/

theorem polyOf_zero (r : List ℂ) : (polyOf r).getD 0 0 = 1 := by
  induction r with
  | nil => rfl
  | cons a r ih =>
    unfold polyOf
    rw [getD_map_range, if_pos (by omega), ih]
    simp

theorem polyOf_length (r : List ℂ) : (polyOf r).length = r.length + 1 := by
  induction r with
  | nil => rfl
  | cons a r ih => simp [polyOf, ih]

theorem polyOf_getD (a : ℂ) (r : List ℂ) (n : ℕ) : (polyOf (a :: r)).getD n 0 =
    (polyOf r).getD n 0 - a * (if n = 0 then 0 else (polyOf r).getD (n - 1) 0) := by
  have h : polyOf (a :: r) = (List.range ((polyOf r).length + 1)).map fun n =>
      (polyOf r).getD n 0 - a * (if n = 0 then 0 else (polyOf r).getD (n - 1) 0) := rfl
  rw [h, getD_map_range]
  split_ifs with h1 h2 h2
  · rfl
  · rfl
  · omega
  · rw [List.getD_eq_default _ _ (by omega), List.getD_eq_default _ _ (by omega)]
    simp

/-- The coefficients are those of the product over the roots. -/
theorem polyOf_eval (r : List ℂ) (w : ℂ) :
    ∑ n ∈ range (polyOf r).length, (polyOf r).getD n 0 * w ^ n =
      (r.map fun a => 1 - a * w).prod := by
  induction r with
  | nil => simp [polyOf]
  | cons a r ih =>
    rw [List.map_cons, List.prod_cons, ← ih, polyOf_length, List.length_cons, polyOf_length]
    have e : ∀ n, (polyOf (a :: r)).getD n 0 * w ^ n = (polyOf r).getD n 0 * w ^ n -
        a * ((if n = 0 then 0 else (polyOf r).getD (n - 1) 0) * w ^ n) := fun n => by
      rw [polyOf_getD]
      ring
    rw [sum_congr rfl fun n _ => e n, sum_sub_distrib, sum_range_succ, ← mul_sum,
      sum_range_succ' (fun n => (if n = 0 then 0 else (polyOf r).getD (n - 1) 0) * w ^ n)]
    rw [List.getD_eq_default _ _ (by rw [polyOf_length])]
    have e2 : ∑ k ∈ range (r.length + 1), (if k + 1 = 0 then 0 else
        (polyOf r).getD (k + 1 - 1) 0) * w ^ (k + 1) =
        w * ∑ k ∈ range (r.length + 1), (polyOf r).getD k 0 * w ^ k := by
      rw [mul_sum]
      refine sum_congr rfl fun k _ => ?_
      rw [if_neg (by omega), Nat.add_sub_cancel, pow_succ]
      ring
    rw [e2]
    simp
    ring

theorem polyOf_neg (r : List ℂ) (n : ℕ) :
    (polyOf (r.map fun c => c * -1)).getD n 0 = (-1) ^ n * (polyOf r).getD n 0 := by
  induction r generalizing n with
  | nil =>
    cases n with
    | zero => simp [polyOf]
    | succ n => simp [polyOf]
  | cons a r ih =>
    rw [List.map_cons, polyOf_getD, polyOf_getD, ih]
    cases n with
    | zero => simp
    | succ n =>
      rw [if_neg (by omega), if_neg (by omega), Nat.add_sub_cancel, ih, pow_succ]
      ring

theorem re_getD (l : List ℂ) (n : ℕ) : (l.map fun c => c.re).getD n 0 = (l.getD n 0).re := by
  have := List.getD_map (l := l) (d := 0) (f := fun c : ℂ => c.re) (n := n)
  simpa using this

theorem kre_getD (l : List ℂ) (k : ℝ) (n : ℕ) :
    (l.map fun c => k * c.re).getD n 0 = k * (l.getD n 0).re := by
  have := List.getD_map (l := l) (d := 0) (f := fun c : ℂ => k * c.re) (n := n)
  simpa using this

theorem neg_one_pow_re (n : ℕ) (c : ℂ) : ((-1) ^ n * c).re = (-1) ^ n * c.re := by
  rcases Nat.mod_two_eq_zero_or_one n with h | h
  · rw [(Nat.even_iff.mpr h).neg_one_pow, (Nat.even_iff.mpr h).neg_one_pow]; simp
  · rw [(Nat.odd_iff.mpr h).neg_one_pow, (Nat.odd_iff.mpr h).neg_one_pow]; simp

/-- Replacing the unit delay `w` by `-w`. -/
noncomputable def mirror : PowerSeries ℝ →+* PowerSeries ℝ := PowerSeries.rescale (-1)

theorem mirror_coeff (p : PowerSeries ℝ) (n : ℕ) :
    PowerSeries.coeff n (mirror p) = (-1) ^ n * PowerSeries.coeff n p := by
  unfold mirror
  rw [PowerSeries.coeff_rescale]

theorem mirror_mirror (p : PowerSeries ℝ) : mirror (mirror p) = p := by
  ext n
  rw [mirror_coeff, mirror_coeff, ← mul_assoc, ← pow_add, ← two_mul, pow_mul]
  simp

/-- **C93**, recursive prototypes: the transfer function of the highpass is the one of the
lowpass at `-w`, the synthesis highpass is the negative, and the lowpass has the given zeros,
poles and gain. -/
theorem C93_mirror_iir (z p : List ℂ) (k : ℝ) (fs : ℕ) :
    ratio (ofIir z p k fs).high.b (ofIir z p k fs).high.a =
      mirror (ratio (ofIir z p k fs).low.b (ofIir z p k fs).low.a) ∧
    ratio (ofIir z p k fs).synthesisHigh.b (ofIir z p k fs).synthesisHigh.a =
      -ratio (ofIir z p k fs).high.b (ofIir z p k fs).high.a ∧
    (ofIir z p k fs).low.a.getD 0 0 = 1 ∧ (ofIir z p k fs).high.a.getD 0 0 = 1 := by
  have ha : ∀ q : List ℂ, ((polyOf q).map fun c => c.re).getD 0 0 = 1 := fun q => by
    rw [re_getD, polyOf_zero]; rfl
  have hb : zseries ((polyOf (z.map fun c => c * -1)).map fun c => k * c.re) =
      mirror (zseries ((polyOf z).map fun c => k * c.re)) := by
    ext n
    rw [mirror_coeff, zseries_coeff, zseries_coeff, kre_getD, kre_getD, polyOf_neg,
      neg_one_pow_re]
    ring
  have hden : zseries ((polyOf (p.map fun c => c * -1)).map fun c => c.re) =
      mirror (zseries ((polyOf p).map fun c => c.re)) := by
    ext n
    rw [mirror_coeff, zseries_coeff, zseries_coeff, re_getD, re_getD, polyOf_neg,
      neg_one_pow_re]
  have hne : ∀ q : List ℂ, PowerSeries.constantCoeff (zseries ((polyOf q).map fun c => c.re)) ≠ 0 := by
    intro q
    rw [← PowerSeries.coeff_zero_eq_constantCoeff_apply, zseries_coeff, ha]
    exact one_ne_zero
  refine ⟨?_, ?_, ha p, ha _⟩
  · unfold ratio
    simp only [ofIir, ofZpk]
    rw [hb, hden, map_mul]
    congr 1
    have h1 : mirror (zseries ((polyOf p).map fun c => c.re)) *
        mirror ((zseries ((polyOf p).map fun c => c.re))⁻¹) = 1 := by
      rw [← map_mul, PowerSeries.mul_inv_cancel _ (hne p), map_one]
    have h2 : PowerSeries.constantCoeff (mirror (zseries ((polyOf p).map fun c => c.re))) ≠ 0 := by
      rw [← hden]
      exact hne _
    rw [PowerSeries.inv_eq_iff_mul_eq_one h2, mul_comm]
    exact h1
  · unfold ratio
    simp only [ofIir, ofZpk]
    rw [← neg_mul]
    congr 1
    ext n
    rw [map_neg, zseries_coeff, zseries_coeff, kre_getD, kre_getD]
    ring

theorem agree_mirror {N : ℕ} {p q : PowerSeries ℝ} (h : AgreeUpTo N p q) :
    AgreeUpTo N (mirror p) (mirror q) := fun n hn => by
  rw [mirror_coeff, mirror_coeff, h n hn]

theorem stuff_series (w : List ℝ) :
    zseries (stuff (everyNth w 2) 2) = zseries w + mirror (zseries w) := by
  ext n
  rw [map_add, mirror_coeff, zseries_coeff, zseries_coeff]
  unfold stuff everyNth
  rw [getD_map_range, List.length_map, List.length_range]
  by_cases hn : n < (w.length + 2 - 1) / 2 * 2
  · rw [if_pos hn]
    rcases Nat.mod_two_eq_zero_or_one n with h2 | h2
    · rw [if_pos h2, getD_map_range, if_pos (by omega), (Nat.even_iff.mpr h2).neg_one_pow,
        Nat.div_mul_cancel (Nat.dvd_of_mod_eq_zero h2)]
      push_cast
      ring
    · rw [if_neg (by omega), (Nat.odd_iff.mpr h2).neg_one_pow]
      ring
  · rw [if_neg hn, List.getD_eq_default _ _ (by omega)]
    ring

/-- **C93**, recursive prototypes: after both bands went to half the sampling rate and back,
every sample is the response of `H(w)² - H(-w)²`; the aliases cancel exactly. -/
theorem C93_iir (z p : List ℂ) (k : ℝ) (r : ℕ) (hr : 0 < r) (x : List ℝ) :
    ∃ v0 v1 y, filterSignal (ofIir z p k (2 * r)) x (2 * r) .parallel false =
        .ok ([v0, v1], r) ∧
      v0.length = (x.length + 1) / 2 ∧ v1.length = (x.length + 1) / 2 ∧
      reconstruct (ofIir z p k (2 * r)) [v0, v1] r true = .ok (y, 2 * r) ∧
      y.length = 2 * ((x.length + 1) / 2) ∧
      AgreeUpTo x.length (zseries y)
        ((ratio (ofIir z p k (2 * r)).low.b (ofIir z p k (2 * r)).low.a ^ 2 -
          mirror (ratio (ofIir z p k (2 * r)).low.b (ofIir z p k (2 * r)).low.a) ^ 2) *
            zseries x) := by
  set c := ofIir z p k (2 * r) with hc
  obtain ⟨hH, hG, ha0, ha1⟩ := C93_mirror_iir z p k (2 * r)
  rw [← hc] at hH hG ha0 ha1
  set R := ratio c.low.b c.low.a with hR
  have hq : 2 * r / r = 2 := Nat.mul_div_cancel _ hr
  have D : ∀ F : ResampleFilter ℝ, F.isFir = false → F.fs = 2 * r →
      resample F x (2 * r) r = .ok (downsamplePlain x F.b F.a 2, r) := by
    intro F h1 h2
    rw [(C23_resample F x (2 * r) r (by omega) hr).1 ⟨2, by ring⟩ h2, hq, if_neg (by simp [h1])]
  have U : ∀ (F : ResampleFilter ℝ) (v : List ℝ), F.isFir = false → F.fs = 2 * r →
      resample F v r (2 * r) = .ok (upsamplePlain v F.b F.a 2, 2 * r) := by
    intro F v h1 h2
    rw [(C23_resample F v r (2 * r) hr (by omega)).2.1 ⟨2, by ring⟩ (by omega) h2, hq,
      if_neg (by simp [h1])]
  have hlv : ∀ b a : List ℝ, (downsamplePlain x b a 2).length = (x.length + 1) / 2 := by
    intro b a
    simp [downsamplePlain, everyNth, Bank.lfilter_length]
  have hly : ∀ b a b' a' : List ℝ, (upsamplePlain (downsamplePlain x b a 2) b' a' 2).length =
      2 * ((x.length + 1) / 2) := by
    intro b a b' a'
    unfold upsamplePlain
    rw [Bank.lfilter_length]
    simp only [stuff, List.length_map, List.length_range, hlv]
    ring
  have key : ∀ b a b' a' : List ℝ, a.getD 0 0 ≠ 0 → a'.getD 0 0 ≠ 0 →
      AgreeUpTo x.length (zseries (upsamplePlain (downsamplePlain x b a 2) b' a' 2))
        (ratio b' a' * (ratio b a * zseries x + mirror (ratio b a * zseries x))) := by
    intro b a b' a' h h'
    have h1 := Bank.lfilter_agree b a x h
    have h2 : AgreeUpTo x.length (zseries (stuff (downsamplePlain x b a 2) 2))
        (ratio b a * zseries x + mirror (ratio b a * zseries x)) := by
      unfold downsamplePlain
      rw [stuff_series]
      exact h1.add (agree_mirror h1)
    have h3 := Bank.lfilter_agree b' a' (stuff (downsamplePlain x b a 2) 2) h'
    have h4 : AgreeUpTo x.length (zseries (upsamplePlain (downsamplePlain x b a 2) b' a' 2))
        (ratio b' a' * zseries (stuff (downsamplePlain x b a 2) 2)) := by
      intro n hn
      refine h3 n ?_
      simp only [stuff, List.length_map, List.length_range, hlv]
      omega
    exact h4.trans (h2.mul_left _)
  set v0 := downsamplePlain x c.low.b c.low.a 2 with hv0
  set v1 := downsamplePlain x c.high.b c.high.a 2 with hv1
  set y0 := upsamplePlain v0 c.synthesisLow.b c.synthesisLow.a 2 with hy0
  set y1 := upsamplePlain v1 c.synthesisHigh.b c.synthesisHigh.a 2 with hy1
  have ly0 : y0.length = 2 * ((x.length + 1) / 2) := hly _ _ _ _
  have ly1 : y1.length = 2 * ((x.length + 1) / 2) := hly _ _ _ _
  refine ⟨v0, v1, (List.range y0.length).map fun n => y0.getD n 0 + y1.getD n 0, ?_, hlv _ _,
    hlv _ _, ?_, by simpa using ly0, ?_⟩
  · unfold filterSignal downsampled
    rw [if_neg (by simp), if_neg (by simp [hc, ofIir, ofZpk]), show 2 * r / 2 = r by omega]
    dsimp only
    rw [D _ rfl rfl, D _ rfl rfl]
    rfl
  · unfold reconstruct
    dsimp only
    rw [if_pos rfl, mul_comm r 2, U _ _ rfl rfl, U _ _ rfl rfl]
    simp only [bind, Except.bind]
    rw [if_neg (by rw [← hy0, ← hy1, ly0, ly1]; simp)]
    rfl
  · have e0 := key c.low.b c.low.a c.synthesisLow.b c.synthesisLow.a (by rw [ha0]; exact one_ne_zero)
      (by rw [show c.synthesisLow = c.low from rfl, ha0]; exact one_ne_zero)
    have e1 := key c.high.b c.high.a c.synthesisHigh.b c.synthesisHigh.a
      (by rw [ha1]; exact one_ne_zero)
      (by rw [show c.synthesisHigh.a = c.high.a from rfl, ha1]; exact one_ne_zero)
    have hsum : zseries ((List.range y0.length).map fun n => y0.getD n 0 + y1.getD n 0) =
        zseries y0 + zseries y1 := by
      ext n
      rw [map_add, zseries_coeff, zseries_coeff, zseries_coeff, getD_map_range]
      split_ifs with h
      · rfl
      · rw [List.getD_eq_default _ _ (by omega), List.getD_eq_default _ _ (by omega), add_zero]
    rw [hsum]
    refine (e0.add e1).trans ?_
    rw [show c.synthesisLow = c.low from rfl, ← hR, hG, hH, map_mul, map_mul, mirror_mirror]
    have : R * (R * zseries x + mirror R * mirror (zseries x)) +
        -mirror R * (mirror R * zseries x + R * mirror (zseries x)) =
        (R ^ 2 - mirror R ^ 2) * zseries x := by ring
    rw [this]
    exact AgreeUpTo.refl _ _

/-- Concrete case: one zero at -1, one pole at 1/2. -/
example (x : List ℝ) := C93_iir [-1] [1 / 2] 3 4 (by norm_num) x

end Verif.QMF

import Verif.Model.LinkwitzRiley
import Verif.Props.C36Stable
import Mathlib.RingTheory.RootsOfUnity.Complex
import Mathlib.FieldTheory.KummerExtension

/-!
# C79: Linkwitz-Riley crossovers
-/

namespace Verif.LinkwitzRiley

open Verif.SignalData Verif.LFilter Verif.Bank Complex Finset

/-! ### Specification: Butterworth filters -/

/-- The poles of the analog Butterworth filter of order `n` and cut-off 1. -/
noncomputable def pole (n k : ℕ) : ℂ := exp (I * Real.pi * ((2 * k + n + 1 : ℝ) / (2 * n) : ℝ))

/-- The denominator of the digital filter at `w = z⁻¹`: with `s = (1 - w) / (T (1 + w))` it is
`∏ (s - pole)` times `(T (1 + w)) ^ n`. -/
noncomputable def den (n : ℕ) (T : ℝ) (w : ℂ) : ℂ :=
  ∏ k ∈ range n, ((1 - w) - pole n k * (T * (1 + w)))

theorem pole_sq (n k : ℕ) (hn : n ≠ 0) :
    pole n k ^ 2 = exp (2 * Real.pi * I / n) ^ k * pole n 0 ^ 2 := by
  have hn' : (n : ℂ) ≠ 0 := by exact_mod_cast hn
  unfold pole
  rw [← exp_nat_mul, ← exp_nat_mul, ← exp_nat_mul, ← exp_add]
  congr 1
  push_cast
  field_simp
  ring

theorem pole_zero_pow (n : ℕ) (hn : n ≠ 0) : (pole n 0 ^ 2) ^ n = (-1) ^ (n + 1) := by
  have hn' : (n : ℂ) ≠ 0 := by exact_mod_cast hn
  unfold pole
  rw [← exp_nat_mul, ← exp_nat_mul, ← exp_pi_mul_I, ← exp_nat_mul]
  congr 1
  push_cast
  field_simp
  ring

theorem prod_poles (n : ℕ) (hn : n ≠ 0) (s : ℂ) :
    ∏ k ∈ range n, (s - pole n k ^ 2) = s ^ n + (-1) ^ n := by
  have h := X_pow_sub_C_eq_prod (isPrimitiveRoot_exp n hn) (Nat.pos_of_ne_zero hn) (pole_zero_pow n hn)
  have h2 := congrArg (Polynomial.eval s) h
  rw [Polynomial.eval_prod] at h2
  simp only [Polynomial.eval_sub, Polynomial.eval_pow, Polynomial.eval_X, Polynomial.eval_C] at h2
  rw [prod_congr rfl fun k _ => by rw [pole_sq n k hn], ← h2, pow_succ]
  ring

theorem pole_conj (n k : ℕ) (hk : k < n) : (starRingEnd ℂ) (pole n k) = pole n (n - 1 - k) := by
  have hn' : (n : ℂ) ≠ 0 := by
    have : n ≠ 0 := by omega
    exact_mod_cast this
  unfold pole
  rw [← exp_conj]
  refine exp_eq_exp_iff_exists_int.2 ⟨-1, ?_⟩
  rw [map_mul, map_mul, conj_I, conj_ofReal, conj_ofReal]
  have : ((n - 1 - k : ℕ) : ℝ) = n - 1 - k := by
    rw [Nat.cast_sub (by omega), Nat.cast_sub (by omega)]
    simp
  rw [this]
  push_cast
  field_simp
  ring

theorem prod_conj (n : ℕ) (s : ℂ) : ∏ k ∈ range n, (s - (starRingEnd ℂ) (pole n k)) =
    ∏ k ∈ range n, (s - pole n k) := by
  rw [← prod_range_reflect]
  refine prod_congr rfl fun k hk => ?_
  have := mem_range.1 hk
  rw [pole_conj n _ (by omega), show n - 1 - (n - 1 - k) = k by omega]

/-- The magnitude of the analog Butterworth filter. -/
theorem analog (n : ℕ) (hn : n ≠ 0) (t : ℝ) :
    ‖∏ k ∈ range n, (I * t - pole n k)‖ ^ 2 = 1 + t ^ (2 * n) := by
  have h : (((‖∏ k ∈ range n, (I * t - pole n k)‖ ^ 2 : ℝ)) : ℂ) = ((1 + t ^ (2 * n) : ℝ) : ℂ) := by
    rw [ofReal_pow, ← mul_conj', map_prod]
    simp only [map_sub, map_mul, conj_I, conj_ofReal]
    rw [prod_conj n (-I * t), ← prod_mul_distrib]
    have : ∀ k ∈ range n, (I * t - pole n k) * (-I * t - pole n k) = -1 * ((I * t) ^ 2 - pole n k ^ 2) := by
      intro k _
      ring
    rw [prod_congr rfl this, prod_mul_distrib, prod_poles n hn, prod_const, card_range, mul_pow, I_sq,
      mul_add, ← mul_pow, ← mul_pow]
    push_cast
    rw [pow_mul]
    norm_num
    ring
  exact_mod_cast h

/-- On the unit circle the two factors have the phase difference of 90 degrees. -/
theorem quadrature (w : ℂ) (hw : ‖w‖ = 1) (T : ℝ) (hT : 0 < T) (hne : w ≠ -1) :
    ∃ t : ℝ, 1 - w = I * t * (T * (1 + w)) := by
  have h1 : 1 + w ≠ 0 := by
    intro h
    exact hne (by linear_combination h)
  have hT' : (T : ℂ) ≠ 0 := by exact_mod_cast hT.ne'
  set q := (1 - w) / (T * (1 + w)) with hq
  have hc : (starRingEnd ℂ) w * w = 1 := by
    rw [mul_comm, mul_conj', hw]
    simp
  have hw0 : w ≠ 0 := by
    intro h
    rw [h, norm_zero] at hw
    exact zero_ne_one hw
  have hcw : (starRingEnd ℂ) w = w⁻¹ := eq_inv_of_mul_eq_one_left hc
  have hre : (starRingEnd ℂ) q = -q := by
    rw [hq, map_div₀, map_mul, map_sub, map_add, map_one, conj_ofReal, hcw]
    have h2 : 1 + w⁻¹ ≠ 0 := by
      intro h
      apply h1
      have := congrArg (· * w) h
      simp only [add_mul, one_mul, inv_mul_cancel₀ hw0, zero_mul] at this
      linear_combination this
    rw [← neg_div, div_eq_div_iff (mul_ne_zero hT' h2) (mul_ne_zero hT' h1)]
    field_simp
    ring
  refine ⟨q.im, ?_⟩
  have hqi : q = I * q.im := by
    have h3 : q.re = 0 := by
      have := congrArg Complex.re hre
      rw [conj_re, neg_re] at this
      linarith
    rw [← re_add_im q, h3]
    simp [mul_comm]
  rw [← hqi, hq, div_mul_cancel₀ _ (mul_ne_zero hT' h1)]

theorem den_eq (n : ℕ) (T : ℝ) (w : ℂ) (t : ℝ) (h : 1 - w = I * t * (T * (1 + w))) :
    den n T w = (∏ k ∈ range n, (I * t - pole n k)) * (T * (1 + w)) ^ n := by
  unfold den
  have : (T * (1 + w)) ^ n = ∏ _k ∈ range n, ((T : ℂ) * (1 + w)) := by rw [prod_const, card_range]
  rw [h, this, ← prod_mul_distrib]
  exact prod_congr rfl fun k _ => by ring

theorem den_nyquist (n : ℕ) (T : ℝ) : den n T (-1) = 2 ^ n := by
  unfold den
  norm_num

theorem prod_all_poles (n : ℕ) (hn : n ≠ 0) : ∏ k ∈ range n, pole n k = (-1) ^ n := by
  unfold pole
  rw [← exp_sum, ← mul_sum, ← ofReal_sum]
  have h : ∑ k ∈ range n, ((2 * k + n + 1 : ℝ) / (2 * n)) = n := by
    have hg : (∑ k ∈ range n, (k : ℝ)) * 2 = n * (n - 1) := by
      have := sum_range_id_mul_two n
      have h1 : 1 ≤ n := Nat.pos_of_ne_zero hn
      rw [← Nat.cast_sum, ← Nat.cast_ofNat, ← Nat.cast_mul, this, Nat.cast_mul, Nat.cast_sub h1, Nat.cast_one]
    rw [← sum_div, sum_add_distrib, sum_add_distrib, ← mul_sum, sum_const, sum_const, card_range, nsmul_eq_mul,
      nsmul_eq_mul]
    have : (n : ℝ) ≠ 0 := by exact_mod_cast hn
    field_simp
    linear_combination hg
  rw [h, ofReal_natCast, mul_comm, mul_comm I, exp_nat_mul, exp_pi_mul_I]

theorem den_dc (n : ℕ) (hn : n ≠ 0) (T : ℝ) : den n T 1 = (2 * T) ^ n := by
  unfold den
  have h : ∀ k ∈ range n, ((1 : ℂ) - 1 - pole n k * (T * (1 + 1))) = -(2 * T) * pole n k := fun k _ => by ring
  rw [prod_congr rfl h, prod_mul_distrib, prod_all_poles n hn, prod_const, card_range, ← mul_pow]
  congr 1
  ring

theorem den_sq (n : ℕ) (hn : n ≠ 0) (T : ℝ) (hT : 0 < T) (w : ℂ) (hw : ‖w‖ = 1) :
    ‖den n T w‖ ^ 2 = ‖1 - w‖ ^ (2 * n) + ‖(T : ℂ) * (1 + w)‖ ^ (2 * n) := by
  by_cases hne : w = -1
  · subst hne
    rw [den_nyquist]
    norm_num [hn, pow_mul]
    rw [← pow_mul, mul_comm, pow_mul]
    norm_num
  · obtain ⟨t, h⟩ := quadrature w hw T hT hne
    rw [den_eq n T w t h, norm_mul, mul_pow, analog n hn, h, norm_mul, norm_mul, norm_I, one_mul, norm_pow,
      norm_real, Real.norm_eq_abs, mul_pow, pow_mul |t|, sq_abs, ← pow_mul, ← pow_mul]
    ring

theorem den_ne_zero (n : ℕ) (hn : n ≠ 0) (T : ℝ) (hT : 0 < T) (w : ℂ) (hw : ‖w‖ = 1) : den n T w ≠ 0 := by
  intro h
  have h2 := den_sq n hn T hT w hw
  rw [h, norm_zero, zero_pow two_ne_zero] at h2
  have h3 : ‖1 - w‖ ^ (2 * n) = 0 := by
    have := pow_nonneg (norm_nonneg (1 - w)) (2 * n)
    have := pow_nonneg (norm_nonneg ((T : ℂ) * (1 + w))) (2 * n)
    linarith
  have h4 : ‖(T : ℂ) * (1 + w)‖ ^ (2 * n) = 0 := by linarith
  have h5 := norm_eq_zero.1 (pow_eq_zero_iff (by omega) |>.1 h3)
  have h6 := norm_eq_zero.1 (pow_eq_zero_iff (by omega) |>.1 h4)
  have h7 : (T : ℂ) ≠ 0 := by exact_mod_cast hT.ne'
  rcases mul_eq_zero.1 h6 with h8 | h8
  · exact h7 h8
  · have : (2 : ℂ) = 0 := by linear_combination h5 + h8
    norm_num at this

/-- What `scipy.signal.butter` documents: stable sections, together the bilinear transform of the analog
Butterworth low- and highpass of order `n` with the frequency `T = tan(π f / fs)`. -/
structure IsButter (n : ℕ) (T : ℝ) (f : Sos ℝ × Sos ℝ) : Prop where
  sections : f.1.length = (n + 1) / 2 ∧ f.2.length = (n + 1) / 2
  proper_low : (Filt.sos f.1).Proper
  proper_high : (Filt.sos f.2).Proper
  stable_low : (Filt.sos f.1).Stable
  stable_high : (Filt.sos f.2).Stable
  low : ∀ w : ℂ, ‖w‖ = 1 → (Filt.sos f.1).tf ofReal w = (T * (1 + w)) ^ n / den n T w
  high : ∀ w : ℂ, ‖w‖ = 1 → (Filt.sos f.2).tf ofReal w = (1 - w) ^ n / den n T w

/-- The order of the Butterworth filters of a crossover. -/
def butterOrder (order : ℕ) : ℕ := if order % 2 = 0 then order / 2 else order

theorem sq_norm_add (n : ℕ) (hn : n % 2 = 1) (t : ℝ) : ‖(1 : ℂ) + (I * t) ^ n‖ ^ 2 = 1 + t ^ (2 * n) := by
  obtain ⟨m, rfl⟩ : ∃ m, n = 2 * m + 1 := ⟨n / 2, by omega⟩
  have : (I * t) ^ (2 * m + 1) = I * (((-1) ^ m * t ^ (2 * m + 1) : ℝ) : ℂ) := by
    rw [mul_pow, pow_succ I, pow_mul I, I_sq]
    push_cast
    ring
  rw [this, Complex.sq_norm, normSq_apply]
  simp only [add_re, one_re, mul_re, I_re, ofReal_re, I_im, ofReal_im, add_im, one_im, mul_im]
  have h2 : ((-1 : ℝ) ^ m) ^ 2 = 1 := by rw [← pow_mul, mul_comm, pow_mul]; norm_num
  linear_combination (t ^ (2 * m + 1)) ^ 2 * h2

/-- Odd orders: the bands add up to an allpass. -/
theorem odd_sum (n : ℕ) (hn : n % 2 = 1) (T : ℝ) (hT : 0 < T) (w : ℂ) (hw : ‖w‖ = 1) :
    ‖(T * (1 + w)) ^ n / den n T w + (1 - w) ^ n / den n T w‖ = 1 := by
  have hd := den_ne_zero n (by omega) T hT w hw
  rw [← add_div, norm_div, div_eq_one_iff_eq (norm_ne_zero_iff.2 hd),
    ← sq_eq_sq₀ (norm_nonneg _) (norm_nonneg _), den_sq n (by omega) T hT w hw]
  by_cases hne : w = -1
  · subst hne
    have : n ≠ 0 := by omega
    norm_num [this]
    rw [← pow_mul, mul_comm]
  · obtain ⟨t, h⟩ := quadrature w hw T hT hne
    rw [h, mul_pow (I * (t : ℂ)), show (T * (1 + w)) ^ n + (I * t) ^ n * (T * (1 + w)) ^ n =
      (T * (1 + w)) ^ n * (1 + (I * t) ^ n) by ring, norm_mul, mul_pow, sq_norm_add n hn, norm_mul, norm_mul,
      norm_I, one_mul, norm_pow, norm_real, Real.norm_eq_abs, mul_pow, pow_mul |t|, sq_abs, ← pow_mul,
      ← pow_mul]
    ring

/-- Twice the filters of even order. -/
theorem even_sum (n : ℕ) (hn : n % 2 = 0) (hn0 : n ≠ 0) (T : ℝ) (hT : 0 < T) (w : ℂ) (hw : ‖w‖ = 1) :
    ‖((T * (1 + w)) ^ n / den n T w) ^ 2 + ((1 - w) ^ n / den n T w) ^ 2‖ = 1 := by
  have hd := den_ne_zero n hn0 T hT w hw
  rw [div_pow, div_pow, ← add_div, norm_div, div_eq_one_iff_eq (norm_ne_zero_iff.2 (pow_ne_zero 2 hd)),
    norm_pow (den n T w), den_sq n hn0 T hT w hw]
  by_cases hne : w = -1
  · subst hne
    norm_num [hn0]
    rw [← pow_mul, mul_comm]
  · obtain ⟨t, h⟩ := quadrature w hw T hT hne
    obtain ⟨m, rfl⟩ : ∃ m, n = 2 * m := ⟨n / 2, by omega⟩
    have h1 : (I * (t : ℂ)) ^ (2 * m) = ((-1) ^ m * t ^ (2 * m) : ℝ) := by
      rw [mul_pow, pow_mul I, I_sq]
      push_cast
      ring
    have h2 : ((-1 : ℝ) ^ m) ^ 2 = 1 := by rw [← pow_mul, mul_comm, pow_mul]; norm_num
    rw [h, mul_pow (I * (t : ℂ)), h1, show ((T * (1 + w)) ^ (2 * m)) ^ 2 +
      ((((-1) ^ m * t ^ (2 * m) : ℝ) : ℂ) * (T * (1 + w)) ^ (2 * m)) ^ 2 =
      ((T * (1 + w)) ^ (2 * m)) ^ 2 * ((1 + ((-1) ^ m) ^ 2 * (t ^ (2 * m)) ^ 2 : ℝ) : ℂ) by push_cast; ring,
      h2, norm_mul, norm_real, Real.norm_eq_abs, abs_of_nonneg (by positivity), norm_mul (I * (t : ℂ)),
      norm_mul I, norm_I, norm_pow, norm_pow, norm_real, Real.norm_eq_abs, mul_pow (1 * |t|), mul_pow 1 |t|,
      pow_mul |t| 2 (2 * m), sq_abs, ← pow_mul, ← pow_mul, ← pow_mul]
    ring

/-! ### The bands and their sum -/

section
variable {K : Type} [Field K] [LinearOrder K]

/-- Both bands have causal sections. -/
def Cross.Proper (c : Cross K) : Prop := (Filt.sos c.low).Proper ∧ (Filt.sos c.high).Proper

/-- Sum of both bands of a crossover. -/
noncomputable def Cross.A (c : Cross K) : PowerSeries K := (Filt.sos c.low).H + (Filt.sos c.high).H

/-- Band `n`: the highpasses of the crossovers below, the lowpass of its own, and the allpasses of the
crossovers above. -/
noncomputable def bandH (cs : List (Cross K)) (n : ℕ) : PowerSeries K :=
  ((cs.take n).map fun c => (Filt.sos c.high).H).prod *
    ((cs[n]?.map fun c => (Filt.sos c.low).H).getD 1) * ((cs.drop (n + 1)).map Cross.A).prod

omit [LinearOrder K] in
theorem zseries_zipWith_add (x y : List K) (h : x.length = y.length) :
    zseries (List.zipWith (· + ·) x y) = zseries x + zseries y := by
  ext k
  rw [map_add, zseries_coeff, zseries_coeff, zseries_coeff]
  by_cases hk : k < x.length
  · rw [List.getD_eq_getElem _ _ (by rw [List.length_zipWith]; omega), List.getElem_zipWith,
      List.getD_eq_getElem x _ hk, List.getD_eq_getElem y _ (by omega)]
  · rw [List.getD_eq_default _ _ (by rw [List.length_zipWith]; omega), List.getD_eq_default x _ (by omega),
      List.getD_eq_default y _ (by omega), add_zero]

theorem allpass_length (c : Cross K) (hc : c.Proper) (x : List K) : (allpass c x).length = x.length := by
  unfold allpass
  rw [List.length_zipWith, channel_length _ hc.1, channel_length _ hc.2, min_self]

theorem allpass_agree (c : Cross K) (hc : c.Proper) (x : List K) :
    AgreeUpTo x.length (zseries (allpass c x)) (c.A * zseries x) := by
  unfold allpass Cross.A
  rw [zseries_zipWith_add _ _ (by rw [channel_length _ hc.1, channel_length _ hc.2]), add_mul]
  exact (channel_agree _ hc.1 x).add (channel_agree _ hc.2 x)

theorem allpasses_agree (cs : List (Cross K)) (hc : ∀ c ∈ cs, c.Proper) (x : List K) :
    (cs.foldl (fun b a => allpass a b) x).length = x.length ∧
    AgreeUpTo x.length (zseries (cs.foldl (fun b a => allpass a b) x)) ((cs.map Cross.A).prod * zseries x) := by
  induction cs generalizing x with
  | nil => exact ⟨rfl, by simpa using AgreeUpTo.refl _ _⟩
  | cons c cs ih =>
    have h := ih (fun d hd => hc d (List.mem_cons_of_mem _ hd)) (allpass c x)
    rw [allpass_length c (hc c (by simp))] at h
    refine ⟨h.1, h.2.trans ?_⟩
    rw [List.map_cons, List.prod_cons, mul_comm c.A, mul_assoc]
    exact (allpass_agree c (hc c (by simp)) x).mul_left _

theorem mapM_ok {α β : Type} (l : List α) (f : α → Except Err β) (g : α → β)
    (h : ∀ a ∈ l, f a = .ok (g a)) : l.mapM f = .ok (l.map g) := by
  induction l with
  | nil => rfl
  | cons a l ih =>
    rw [List.mapM_cons, h a (by simp), ih fun b hb => h b (List.mem_cons_of_mem _ hb)]
    rfl

omit [LinearOrder K] in
theorem bands_length (cs : List (Cross K)) (x : List K) : (bands cs x).length = cs.length + 1 := by
  induction cs generalizing x with
  | nil => rfl
  | cons c cs ih => rw [bands, List.length_cons, ih, List.length_cons]

theorem bands_agree (cs : List (Cross K)) (hc : ∀ c ∈ cs, c.Proper) (x : List K) (n : ℕ)
    (hn : n ≤ cs.length) :
    ((bands cs x).getD n []).length = x.length ∧
    AgreeUpTo x.length (zseries ((bands cs x).getD n [])) (bandH cs n * zseries x) := by
  induction cs generalizing x n with
  | nil =>
    obtain rfl : n = 0 := by simpa using hn
    exact ⟨rfl, by simpa [bands, bandH] using AgreeUpTo.refl _ _⟩
  | cons c cs ih =>
    have hp := hc c (by simp)
    have hps : ∀ d ∈ cs, Cross.Proper d := fun d hd => hc d (List.mem_cons_of_mem _ hd)
    rcases n with _ | n
    · have h := allpasses_agree cs hps ((Filt.sos c.low).channel x)
      rw [channel_length _ hp.1] at h
      refine ⟨h.1, h.2.trans ?_⟩
      have : bandH (c :: cs) 0 = (cs.map Cross.A).prod * (Filt.sos c.low).H := by
        simp [bandH, mul_comm]
      rw [this, mul_assoc]
      exact (channel_agree _ hp.1 x).mul_left _
    · have h := ih hps ((Filt.sos c.high).channel x) n (by simpa using hn)
      rw [channel_length _ hp.2] at h
      refine ⟨h.1, h.2.trans ?_⟩
      have : bandH (c :: cs) (n + 1) = bandH cs n * (Filt.sos c.high).H := by
        simp only [bandH, List.take_succ_cons, List.map_cons, List.prod_cons, List.getElem?_cons_succ,
          List.drop_succ_cons]
        ring
      rw [this, mul_assoc]
      exact (channel_agree _ hp.2 x).mul_left _

omit [LinearOrder K] in
/-- The bands add up to the cascade of the allpasses. -/
theorem bandH_sum (cs : List (Cross K)) :
    ((List.range (cs.length + 1)).map (bandH cs)).sum = (cs.map Cross.A).prod := by
  induction cs with
  | nil => simp [bandH]
  | cons c cs ih =>
    have h : ∀ n, bandH (c :: cs) (n + 1) = (Filt.sos c.high).H * bandH cs n := by
      intro n
      simp only [bandH, List.take_succ_cons, List.map_cons, List.prod_cons, List.getElem?_cons_succ,
        List.drop_succ_cons]
      ring
    rw [List.length_cons, List.range_succ_eq_map, List.map_cons, List.sum_cons, List.map_map]
    have h' : (bandH (c :: cs)) ∘ Nat.succ = fun n => (Filt.sos c.high).H * bandH cs n := funext h
    rw [h', List.sum_map_mul_left, ih, List.map_cons, List.prod_cons, Cross.A, add_mul]
    congr 1
    simp [bandH]

variable [IsStrictOrderedRing K]

/-- One band of a signal without amplitude constraint. -/
def bandState (cs : List (Cross K)) (s : State K) (n : ℕ) : State K :=
  ⟨(ofCols s.re.rows s.re.cols fun c => (bands cs (colOf s.re c)).getD n []).reMat, none, false, 1⟩

theorem parallel_ok (cs : List (Cross K)) (s : State K) (hs : Shaped s) (hcon : s.constrain = false) :
    parallel cs s = .ok ((List.range (cs.length + 1)).map (bandState cs s)) := by
  unfold parallel
  refine mapM_ok _ _ _ fun n _ => ?_
  rw [copyWith_ok s _ hs.tall (fun h => hs.more h.1) (by intro h; rw [hcon] at h; exact absurd h (by simp)),
    hcon]
  rfl

theorem bandState_agree (cs : List (Cross K)) (hc : ∀ c ∈ cs, c.Proper) (s : State K) (n : ℕ)
    (hn : n ≤ cs.length) (c : ℕ) (hcc : c < s.re.cols) :
    AgreeUpTo s.re.rows (chanZ (bandState cs s n) c) (bandH cs n * chanZ s c) := by
  rw [chanZ_eq s c hcc, chanZ_eq _ c (by exact hcc)]
  have h := bands_agree cs hc (colOf s.re c) n hn
  rw [colOf_length] at h
  have h1 : colOf (bandState cs s n).re c = (bands cs (colOf s.re c)).getD n [] := by
    refine ext_getD _ _ (by rw [h.1]; simp [colOf, bandState, ofCols, Input.reMat]) fun k hk => ?_
    have hk' : k < s.re.rows := by simpa [colOf, bandState, ofCols, Input.reMat] using hk
    rw [colOf_getD, if_pos (by exact hk')]
    rfl
  rw [h1]
  exact h.2

/-- Parallel mode (no amplitude constraint): there is one band more than crossovers, and band `n`
is the signal through the highpasses of the crossovers below, the lowpass of crossover `n` and the sums of
both bands of all crossovers above. -/
theorem C79_bands (cs : List (Cross K)) (hc : ∀ c ∈ cs, c.Proper) (s : State K) (hs : Shaped s)
    (hcon : s.constrain = false) :
    ∃ ts, parallel cs s = .ok ts ∧ ts.length = cs.length + 1 ∧ ∀ n (hn : n < ts.length),
      ts[n].HasShape s.re.rows s.re.cols ∧ ∀ c < s.re.cols,
        AgreeUpTo s.re.rows (chanZ ts[n] c) (bandH cs n * chanZ s c) := by
  refine ⟨_, parallel_ok cs s hs hcon, by simp, fun n hn => ?_⟩
  rw [List.getElem_map, List.getElem_range]
  rw [List.length_map, List.length_range] at hn
  exact ⟨⟨rfl, rfl⟩, fun c hcc => bandState_agree cs hc s n (by omega) c hcc⟩

/-- Summed mode (no amplitude constraint): the sum of the bands is the signal through the allpasses of all
crossovers, for any number of crossovers. -/
theorem C79_sum (cs : List (Cross K)) (hc : ∀ c ∈ cs, c.Proper) (s : State K) (hs : Shaped s)
    (hcon : s.constrain = false) :
    ∃ t, summed cs s = .ok t ∧ t.HasShape s.re.rows s.re.cols ∧ ∀ c < s.re.cols,
      AgreeUpTo s.re.rows (chanZ t c)
        ((cs.map fun c => (Filt.sos c.low).H + (Filt.sos c.high).H).prod * chanZ s c) := by
  have h0 : (List.range (cs.length + 1)).map (bandState cs s) =
      bandState cs s 0 :: (List.range cs.length).map (fun n => bandState cs s (n + 1)) := by
    rw [List.range_succ_eq_map, List.map_cons, List.map_map]
    rfl
  have h1 := copyWith_ok (bandState cs s 0) (sumOf s.re.rows s.re.cols
    ((List.range (cs.length + 1)).map (bandState cs s))) hs.tall (fun h => hs.more h.1)
    (by intro h; exact absurd h (by simp [bandState]))
  have h2 : summed cs s = .ok ⟨(sumOf s.re.rows s.re.cols ((List.range (cs.length + 1)).map
      (bandState cs s))).reMat, none, false, 1⟩ := by
    unfold summed
    rw [parallel_ok cs s hs hcon, h0]
    change collapse (bandState cs s 0 :: _) = _
    unfold collapse
    dsimp only
    rw [← h0]
    exact h1
  refine ⟨_, h2, ⟨rfl, rfl⟩, fun c hcc => ?_⟩
  rw [chanZ_eq (⟨(sumOf s.re.rows s.re.cols ((List.range (cs.length + 1)).map
    (bandState cs s))).reMat, none, false, 1⟩ : State K) c (by exact hcc)]
  show AgreeUpTo _ (zseries ((List.range s.re.rows).map fun r =>
    (((List.range (cs.length + 1)).map (bandState cs s)).map fun s => s.re.val r c).sum)) _
  have h3 := bandH_sum cs
  unfold Cross.A at h3
  rw [← h3]
  have h4 : ∀ l : List ℕ, (∀ n ∈ l, n ≤ cs.length) → AgreeUpTo s.re.rows
      (zseries ((List.range s.re.rows).map fun r => ((l.map (bandState cs s)).map fun s => s.re.val r c).sum))
      ((l.map (bandH cs)).sum * chanZ s c) := by
    intro l
    induction l with
    | nil =>
      intro _ n hn
      simp [zseries_coeff]
    | cons n l ih =>
      intro hl
      simp only [List.map_cons, List.sum_cons]
      rw [zseries_map_add, add_mul]
      refine AgreeUpTo.add ?_ (ih fun m hm => hl m (List.mem_cons_of_mem _ hm))
      have h5 := bandState_agree cs hc s n (hl n (by simp)) c hcc
      rw [chanZ_eq _ c (by exact hcc)] at h5
      exact h5
  exact h4 _ fun n hn => by rw [List.mem_range] at hn; omega

end

/-! ### Magnitude -/

/-- A crossover of order `order` at `f` Hz for the sampling rate `fs`. -/
structure Designed (butter : ℕ → ℝ → Sos ℝ × Sos ℝ) (order : ℕ) (f fs : ℝ) (c : Cross ℝ) : Prop where
  order_pos : order ≠ 0
  f_pos : 0 < f
  f_lt : f < fs / 2
  isButter : order ≠ 2 → IsButter (butterOrder order) (Real.tan (Real.pi * f / fs))
    (butter (butterOrder order) (Real.tan (Real.pi * f / fs)))
  ok : design butter order (Real.tan (Real.pi * f / fs)) = .ok c

theorem tan_pos (f fs : ℝ) (hf : 0 < f) (h : f < fs / 2) : 0 < Real.tan (Real.pi * f / fs) := by
  have hfs : 0 < fs := by linarith
  refine Real.tan_pos_of_pos_of_lt_pi_div_two (by positivity) ?_
  rw [div_lt_iff₀ hfs]
  nlinarith [Real.pi_pos]

theorem den_one (T : ℝ) (w : ℂ) : den 1 T w = (1 - w) + T * (1 + w) := by
  have : pole 1 0 = -1 := by
    unfold pole
    norm_num
    rw [mul_comm, exp_pi_mul_I]
  simp [den, this]

theorem second_tf (T : ℝ) (hT : 0 < T) (w : ℂ) :
    (Filt.sos (second T).low).tf ofReal w = ((T * (1 + w)) / den 1 T w) ^ 2 ∧
    (Filt.sos (second T).high).tf ofReal w = -((1 - w) / den 1 T w) ^ 2 := by
  have h1 : (1 + (T : ℂ)) ≠ 0 := by
    have : (0 : ℝ) < 1 + T := by linarith
    exact_mod_cast this.ne'
  have hd : evalPoly (([1, 2 * (T - 1) / (1 + T), ((T - 1) / (1 + T)) ^ 2] : List ℝ).map ofReal) w =
      (den 1 T w / (1 + T)) ^ 2 := by
    rw [den_one]
    simp [evalPoly, sum_range_succ]
    field_simp
    ring
  constructor
  · simp only [second, Filt.tf, List.map_cons, List.map_nil, List.prod_cons, List.prod_nil, mul_one]
    rw [show ([(1 : ℝ) |> ofReal, ofReal (2 * (T - 1) / (1 + T)), ofReal (((T - 1) / (1 + T)) ^ 2)] : List ℂ) =
      ([1, 2 * (T - 1) / (1 + T), ((T - 1) / (1 + T)) ^ 2] : List ℝ).map ofReal from rfl, hd]
    have : evalPoly [((T ^ 2 / (1 + T) ^ 2 : ℝ) : ℂ), ((2 * T ^ 2 / (1 + T) ^ 2 : ℝ) : ℂ),
        ((T ^ 2 / (1 + T) ^ 2 : ℝ) : ℂ)] w = (T * (1 + w) / (1 + T)) ^ 2 := by
      simp [evalPoly, sum_range_succ]
      field_simp
      ring
    rw [this, ← div_pow, div_div_div_cancel_right₀ h1]
  · simp only [second, Filt.tf, List.map_cons, List.map_nil, List.prod_cons, List.prod_nil, mul_one]
    rw [show ([(1 : ℝ) |> ofReal, ofReal (2 * (T - 1) / (1 + T)), ofReal (((T - 1) / (1 + T)) ^ 2)] : List ℂ) =
      ([1, 2 * (T - 1) / (1 + T), ((T - 1) / (1 + T)) ^ 2] : List ℝ).map ofReal from rfl, hd]
    have : evalPoly [((-1 / (1 + T) ^ 2 : ℝ) : ℂ), ((2 / (1 + T) ^ 2 : ℝ) : ℂ),
        ((-1 / (1 + T) ^ 2 : ℝ) : ℂ)] w = -((1 - w) / (1 + T)) ^ 2 := by
      simp [evalPoly, sum_range_succ]
      field_simp
      ring
    rw [this, neg_div, ← div_pow, div_div_div_cancel_right₀ h1]

theorem second_stable (T : ℝ) (hT : 0 < T) :
    StableDen [1, 2 * (T - 1) / (1 + T), ((T - 1) / (1 + T)) ^ 2] := by
  intro w hw h
  have h1 : (1 + (T : ℂ)) ≠ 0 := by
    have : (0 : ℝ) < 1 + T := by linarith
    exact_mod_cast this.ne'
  have h2 : ((1 - w) + T * (1 + w)) = 0 := by
    have : ((((1 - w) + T * (1 + w)) / (1 + T)) ^ 2 : ℂ) = 0 := by
      rw [← h]
      simp [sum_range_succ]
      field_simp
      ring
    rw [pow_eq_zero_iff two_ne_zero, div_eq_zero_iff] at this
    exact this.resolve_right h1
  have h3 : (1 - T) * w = 1 + T := by linear_combination -h2
  have h4 := congrArg norm h3
  rw [norm_mul] at h4
  have h5 : ‖(1 : ℂ) - T‖ = |1 - T| := by rw [← ofReal_one, ← ofReal_sub, norm_real, Real.norm_eq_abs]
  have h6 : ‖(1 : ℂ) + T‖ = 1 + T := by
    rw [← ofReal_one, ← ofReal_add, norm_real, Real.norm_eq_abs, abs_of_pos (by linarith)]
  rw [h5, h6] at h4
  have h7 : |1 - T| < 1 + T := by rw [abs_lt]; constructor <;> linarith
  nlinarith [abs_nonneg (1 - T), norm_nonneg w]

theorem tf_append (x y : Sos ℝ) (w : ℂ) :
    (Filt.sos (x ++ y)).tf ofReal w = (Filt.sos x).tf ofReal w * (Filt.sos y).tf ofReal w := by
  simp only [Filt.tf, List.map_append, List.prod_append]

/-- The three cases of a crossover. -/
theorem design_cases (butter : ℕ → ℝ → Sos ℝ × Sos ℝ) (order : ℕ) (f fs : ℝ) (c : Cross ℝ)
    (h : Designed butter order f fs c) :
    (order = 2 ∧ c = second (Real.tan (Real.pi * f / fs))) ∨
    (order ≠ 2 ∧ order % 4 = 0 ∧ ∃ l u, IsButter (order / 2) (Real.tan (Real.pi * f / fs)) (l, u) ∧
      c = ⟨l ++ l, u ++ u⟩) ∨
    (order % 2 = 1 ∧ ∃ l u, IsButter order (Real.tan (Real.pi * f / fs)) (l, u) ∧ c = ⟨l, u⟩) := by
  have ho := h.ok
  have hb := h.isButter
  unfold design at ho
  unfold butterOrder at hb
  split_ifs at ho with h1 h2 h3
  · exact Or.inl ⟨h1, (Except.ok.inj ho).symm⟩
  · rw [if_pos h2] at hb
    exact Or.inr (Or.inl ⟨h1, by omega, _, _, hb h1, (Except.ok.inj ho).symm⟩)
  · rw [if_neg h2] at hb
    exact Or.inr (Or.inr ⟨by omega, _, _, hb h1, (Except.ok.inj ho).symm⟩)

theorem designed_good (butter : ℕ → ℝ → Sos ℝ × Sos ℝ) (order : ℕ) (f fs : ℝ) (c : Cross ℝ)
    (h : Designed butter order f fs c) :
    c.Proper ∧ (Filt.sos c.low).Stable ∧ (Filt.sos c.high).Stable := by
  have hT := tan_pos f fs h.f_pos h.f_lt
  rcases design_cases butter order f fs c h with ⟨-, rfl⟩ | ⟨-, -, l, u, hb, rfl⟩ | ⟨-, l, u, hb, rfl⟩
  · have := second_stable _ hT
    refine ⟨⟨?_, ?_⟩, ?_, ?_⟩ <;> simp [second, Filt.Proper, Filt.Stable] <;> exact this
  · refine ⟨⟨fun s hs => hb.proper_low s ?_, fun s hs => hb.proper_high s ?_⟩, fun s hs => hb.stable_low s ?_,
      fun s hs => hb.stable_high s ?_⟩ <;> simpa using hs
  · exact ⟨⟨hb.proper_low, hb.proper_high⟩, hb.stable_low, hb.stable_high⟩

/-- Low and high band of every crossover add up to an allpass. -/
theorem C79_allpass (butter : ℕ → ℝ → Sos ℝ × Sos ℝ) (order : ℕ) (f fs : ℝ) (c : Cross ℝ)
    (h : Designed butter order f fs c) (w : ℂ) (hw : ‖w‖ = 1) :
    ‖(Filt.sos c.low).tf ofReal w + (Filt.sos c.high).tf ofReal w‖ = 1 := by
  have hT := tan_pos f fs h.f_pos h.f_lt
  have h0 := h.order_pos
  rcases design_cases butter order f fs c h with ⟨-, rfl⟩ | ⟨h2, h4, l, u, hb, rfl⟩ | ⟨ho, l, u, hb, rfl⟩
  · rw [(second_tf _ hT w).1, (second_tf _ hT w).2]
    generalize Real.tan (Real.pi * f / fs) = T at *
    have hd := den_ne_zero 1 one_ne_zero T hT w hw
    have hs := odd_sum 1 rfl T hT w hw
    rw [pow_one, pow_one] at hs
    have hs2 : ‖(T * (1 + w)) / den 1 T w - (1 - w) / den 1 T w‖ = 1 := by
      rw [← hs, ← sub_div, ← add_div, norm_div, norm_div]
      congr 1
      by_cases hne : w = -1
      · subst hne; norm_num
      · obtain ⟨t, ht⟩ := quadrature w hw T hT hne
        have e1 : T * (1 + w) - (1 - w) = T * (1 + w) * (1 + ((-t : ℝ) : ℂ) * I) := by
          rw [ht]; push_cast; ring
        have e2 : T * (1 + w) + (1 - w) = T * (1 + w) * (1 + (t : ℂ) * I) := by
          rw [ht]; ring
        rw [e1, e2, norm_mul ((T : ℂ) * (1 + w)), norm_mul ((T : ℂ) * (1 + w))]
        congr 1
        rw [← sq_eq_sq₀ (norm_nonneg _) (norm_nonneg _), Complex.sq_norm, Complex.sq_norm, normSq_apply,
          normSq_apply]
        simp
    have e : ((T * (1 + w)) / den 1 T w) ^ 2 + -((1 - w) / den 1 T w) ^ 2 =
        ((T * (1 + w)) / den 1 T w + (1 - w) / den 1 T w) * ((T * (1 + w)) / den 1 T w - (1 - w) / den 1 T w) := by
      ring
    rw [e, norm_mul, hs, hs2, one_mul]
  · dsimp only
    rw [tf_append, tf_append, hb.low w hw, hb.high w hw, ← pow_two, ← pow_two]
    exact even_sum _ (by omega) (by omega) _ hT w hw
  · dsimp only
    rw [hb.low w hw, hb.high w hw]
    exact odd_sum _ ho _ hT w hw

/-- Even orders which are neither 2 nor a multiple of 4 are rejected. -/
theorem C79_orders {K : Type} [Field K] (butter : ℕ → K → Sos K × Sos K) (order : ℕ) (T : K) :
    (∃ c, design butter order T = .ok c) ↔ order = 2 ∨ order % 4 = 0 ∨ order % 2 = 1 := by
  unfold design
  split_ifs with h1 h2 h3 <;> simp <;> omega

/-- For every list of crossovers there is one impulse response `h`: the summed bands of an impulse of any
length (no amplitude constraint) are the first samples of `h`, `h` is absolutely summable and its
spectrum has the magnitude one at all frequencies: the crossover changes only the phase of a signal. -/
theorem C79_impulse_response (butter : ℕ → ℝ → Sos ℝ × Sos ℝ) (fs : ℝ) (cs : List (Cross ℝ))
    (hc : ∀ c ∈ cs, ∃ order f, Designed butter order f fs c) :
    ∃ (h : ℕ → ℝ) (H : ℂ → ℂ), (∀ n, 2 ≤ n → ∃ t, summed cs (impulse n) = .ok t ∧ t.HasShape n 1 ∧
        ∀ k < n, t.sample k 0 = h k) ∧
      TransformIs h H ∧ ∀ w : ℂ, ‖w‖ = 1 → ‖H w‖ = 1 := by
  have hp : ∀ c ∈ cs, c.Proper := fun c hcc => by
    obtain ⟨o, f, h⟩ := hc c hcc
    exact (designed_good butter o f fs c h).1
  have hv : ∀ l : List (Cross ℝ), (∀ c ∈ l, c ∈ cs) →
      StableFilter.AbsSum (cplx (l.map fun c => (Filt.sos c.low).H + (Filt.sos c.high).H).prod) ∧
      ∀ w : ℂ, ‖w‖ ≤ 1 → StableFilter.valueAt
        (cplx (l.map fun c => (Filt.sos c.low).H + (Filt.sos c.high).H).prod) w =
          (l.map fun c => (Filt.sos c.low).tf ofReal w + (Filt.sos c.high).tf ofReal w).prod := by
    intro l
    induction l with
    | nil => intro _; simpa using ⟨one_value.1, fun w _ => one_value.2 w⟩
    | cons c l ih =>
      intro hl
      obtain ⟨o, f, h⟩ := hc c (hl c (by simp))
      have hg := designed_good butter o f fs c h
      simp only [List.map_cons, List.prod_cons]
      exact mul_value (add_value (filt_value _ hg.1.1 hg.2.1) (filt_value _ hg.1.2 hg.2.2))
        (ih fun d hd => hl d (List.mem_cons_of_mem _ hd))
  refine ⟨_, _, fun n hn => ?_, transformIs_of_value (hv cs fun _ h => h), fun w hw => ?_⟩
  · obtain ⟨t, ht, hsh, hval⟩ := C79_sum cs hp (impulse n)
      ⟨le_rfl, show 1 ≤ n by omega, show n ≠ 1 by omega⟩ rfl
    exact ⟨t, ht, hsh, sample_of_agree hn hsh (hval 0 Nat.one_pos)⟩
  · clear hv hp
    induction cs with
    | nil => simp
    | cons c cs ih =>
      obtain ⟨o, f, h⟩ := hc c (by simp)
      rw [List.map_cons, List.prod_cons, norm_mul, C79_allpass butter o f fs c h w hw,
        ih fun d hd => hc d (List.mem_cons_of_mem _ hd), one_mul]

/-- At the crossover frequency. -/
theorem butter_crossing (n : ℕ) (hn : n ≠ 0) (f fs : ℝ) (hf : 0 < f) (hf2 : f < fs / 2) :
    ‖((Real.tan (Real.pi * f / fs) : ℂ) * (1 + exp (-(2 * Real.pi * f / fs : ℝ) * I))) ^ n /
      den n (Real.tan (Real.pi * f / fs)) (exp (-(2 * Real.pi * f / fs : ℝ) * I))‖ ^ 2 = 1 / 2 ∧
    ‖(1 - exp (-(2 * Real.pi * f / fs : ℝ) * I)) ^ n /
      den n (Real.tan (Real.pi * f / fs)) (exp (-(2 * Real.pi * f / fs : ℝ) * I))‖ ^ 2 = 1 / 2 := by
  have hT := tan_pos f fs hf hf2
  set T := Real.tan (Real.pi * f / fs) with hTdef
  set w := exp (-(2 * Real.pi * f / fs : ℝ) * I) with hwdef
  have hw : ‖w‖ = 1 := by rw [hwdef, ← ofReal_neg, norm_exp_ofReal_mul_I]
  have hfs : 0 < fs := by linarith
  have hc : 0 < Real.cos (Real.pi * f / fs) := by
    refine Real.cos_pos_of_mem_Ioo ⟨?_, ?_⟩
    · have : 0 < Real.pi * f / fs := by positivity
      linarith [Real.pi_pos]
    · rw [div_lt_iff₀ hfs]; nlinarith [Real.pi_pos]
  have key : 1 - w = I * (T * (1 + w)) := by
    set p := Real.pi * f / fs with hp
    have e : w = (Real.cos p - Real.sin p * I) ^ 2 := by
      rw [hwdef, ofReal_cos, ofReal_sin]
      have : cos (p : ℂ) - sin (p : ℂ) * I = exp (-p * I) := by
        rw [exp_mul_I, cos_neg, sin_neg]; ring
      rw [this, ← exp_nat_mul]
      congr 1
      rw [hp]
      push_cast
      ring
    have h1 : (Real.sin p : ℂ) ^ 2 + (Real.cos p : ℂ) ^ 2 = 1 := by exact_mod_cast Real.sin_sq_add_cos_sq p
    have h2 : (T : ℂ) * Real.cos p = Real.sin p := by
      rw [hTdef, ← ofReal_mul, Real.tan_mul_cos hc.ne']
    rw [e]
    linear_combination (-1 + I * T) * h1 - 2 * I * (Real.cos p - Real.sin p * I) * h2 +
      ((Real.sin p : ℂ) ^ 2 - I * T * (Real.sin p : ℂ) ^ 2) * I_sq
  have hd := den_ne_zero n hn T hT w hw
  have hsq := den_sq n hn T hT w hw
  have heq : ‖1 - w‖ = ‖(T : ℂ) * (1 + w)‖ := by rw [key, norm_mul, norm_I, one_mul]
  have hd2 : 0 < ‖den n T w‖ ^ 2 := by positivity
  rw [heq] at hsq
  constructor
  · rw [norm_div, div_pow, norm_pow, ← pow_mul, mul_comm n 2, div_eq_iff hd2.ne']
    linarith
  · rw [norm_div, div_pow, norm_pow, heq, ← pow_mul, mul_comm n 2, div_eq_iff hd2.ne']
    linarith

/-- At the crossover frequency both bands are 6 dB down for even orders and 3 dB down for odd ones. -/
theorem C79_crossing (butter : ℕ → ℝ → Sos ℝ × Sos ℝ) (order : ℕ) (f fs : ℝ) (c : Cross ℝ)
    (h : Designed butter order f fs c) :
    let w := exp (-(2 * Real.pi * f / fs : ℝ) * I)
    ‖(Filt.sos c.low).tf ofReal w‖ = ‖(Filt.sos c.high).tf ofReal w‖ ∧
    ‖(Filt.sos c.low).tf ofReal w‖ = if order % 2 = 0 then 1 / 2 else √(1 / 2) := by
  intro w
  have hT := tan_pos f fs h.f_pos h.f_lt
  have h0 := h.order_pos
  have hw : ‖w‖ = 1 := by rw [show w = exp (-(2 * Real.pi * f / fs : ℝ) * I) from rfl, ← ofReal_neg,
    norm_exp_ofReal_mul_I]
  rcases design_cases butter order f fs c h with ⟨rfl, rfl⟩ | ⟨h2, h4, l, u, hb, rfl⟩ | ⟨ho, l, u, hb, rfl⟩
  · have hc := butter_crossing 1 one_ne_zero f fs h.f_pos h.f_lt
    rw [pow_one, pow_one] at hc
    rw [(second_tf _ hT w).1, (second_tf _ hT w).2, norm_neg, norm_pow, norm_pow, hc.1, hc.2]
    simp
  · have hc := butter_crossing (order / 2) (by omega) f fs h.f_pos h.f_lt
    dsimp only
    rw [tf_append, tf_append, hb.low w hw, hb.high w hw, ← pow_two, ← pow_two, norm_pow, norm_pow, hc.1, hc.2,
      if_pos (by omega)]
    simp
  · have hc := butter_crossing order h0 f fs h.f_pos h.f_lt
    dsimp only
    rw [hb.low w hw, hb.high w hw, if_neg (by omega), ← hc.1, Real.sqrt_sq (norm_nonneg _)]
    refine ⟨?_, rfl⟩
    rw [← sq_eq_sq₀ (norm_nonneg _) (norm_nonneg _), hc.1, hc.2]

/-- The low band passes 0 Hz unchanged and stops the Nyquist frequency, the high band the other way
round (with inverted polarity for the order 2). -/
theorem C79_ends (butter : ℕ → ℝ → Sos ℝ × Sos ℝ) (order : ℕ) (f fs : ℝ) (c : Cross ℝ)
    (h : Designed butter order f fs c) :
    (Filt.sos c.low).tf ofReal 1 = 1 ∧ (Filt.sos c.high).tf ofReal 1 = 0 ∧
    (Filt.sos c.low).tf ofReal (-1) = 0 ∧
    (Filt.sos c.high).tf ofReal (-1) = if order = 2 then -1 else 1 := by
  have hT := tan_pos f fs h.f_pos h.f_lt
  have h0 := h.order_pos
  have hT' : (2 * (Real.tan (Real.pi * f / fs) : ℂ)) ≠ 0 := by
    have : 2 * Real.tan (Real.pi * f / fs) ≠ 0 := by positivity
    exact_mod_cast this
  have hT1 : (Real.tan (Real.pi * f / fs) : ℂ) * (1 + 1) = 2 * Real.tan (Real.pi * f / fs) := by ring
  have e1 : (1 : ℂ) - 1 = 0 := sub_self 1
  have e2 : (1 : ℂ) + -1 = 0 := by norm_num
  have e3 : (1 : ℂ) - -1 = 2 := by norm_num
  rcases design_cases butter order f fs c h with ⟨rfl, rfl⟩ | ⟨h2, h4, l, u, hb, rfl⟩ | ⟨ho, l, u, hb, rfl⟩
  · rw [(second_tf _ hT 1).1, (second_tf _ hT 1).2, (second_tf _ hT (-1)).1, (second_tf _ hT (-1)).2, e1, e2,
      e3, den_dc 1 one_ne_zero, den_nyquist, hT1, pow_one, pow_one, div_self hT']
    norm_num
  · have hn : order / 2 ≠ 0 := by omega
    dsimp only
    rw [tf_append, tf_append, tf_append, tf_append, hb.low 1 (by simp), hb.high 1 (by simp),
      hb.low (-1) (by simp), hb.high (-1) (by simp), e1, e2, e3, den_dc _ hn, den_nyquist, hT1,
      div_self (pow_ne_zero _ hT'), mul_zero, zero_pow hn, zero_div, zero_div, if_neg h2,
      div_self (pow_ne_zero _ two_ne_zero)]
    norm_num
  · dsimp only
    rw [hb.low 1 (by simp), hb.high 1 (by simp), hb.low (-1) (by simp), hb.high (-1) (by simp), e1, e2, e3,
      den_dc _ h0, den_nyquist, hT1, div_self (pow_ne_zero _ hT'), mul_zero, zero_pow h0, zero_div, zero_div,
      if_neg (by omega), div_self (pow_ne_zero _ two_ne_zero)]
    norm_num

/-! ### Zero-phase filtering -/

/-- Without a crossover of the order 2 the gains of the bands of zero-phase filtering add up to one at all
frequencies: the sum of the bands is the signal itself. -/
theorem C79_zero_phase_partial (butter : ℕ → ℝ → Sos ℝ × Sos ℝ) (fs : ℝ) (cs : List (ℕ × Cross ℝ))
    (hc : ∀ c ∈ cs, c.1 ≠ 2 ∧ ∃ f, Designed butter c.1 f fs c.2) (w : ℂ) (hw : ‖w‖ = 1) (g : ℝ) :
    (zeroPhase w cs g).sum = g := by
  induction cs generalizing g with
  | nil => simp [zeroPhase]
  | cons c cs ih =>
    obtain ⟨order, c⟩ := c
    obtain ⟨h2, f, h⟩ := hc (order, c) (by simp)
    have hT := tan_pos f fs h.f_pos h.f_lt
    have h0 := h.order_pos
    have key : ∀ n, n ≠ 0 → ∀ l u, IsButter n (Real.tan (Real.pi * f / fs)) (l, u) →
        ‖(Filt.sos l).tf ofReal w‖ ^ 2 + ‖(Filt.sos u).tf ofReal w‖ ^ 2 = 1 := by
      intro n hn l u hb
      rw [hb.low w hw, hb.high w hw, norm_div, norm_div, div_pow, div_pow, ← add_div, norm_pow, norm_pow,
        ← pow_mul, ← pow_mul, mul_comm n 2, den_sq n hn _ hT w hw, add_comm, div_self]
      rw [← den_sq n hn _ hT w hw]
      exact pow_ne_zero 2 (norm_ne_zero_iff.2 (den_ne_zero n hn _ hT w hw))
    rw [zeroPhase, List.sum_cons, ih fun d hd => hc d (List.mem_cons_of_mem _ hd)]
    rcases design_cases butter order f fs c h with ⟨rfl, -⟩ | ⟨-, h4, l, u, hb, rfl⟩ | ⟨ho, l, u, hb, rfl⟩
    · exact absurd rfl h2
    · have hk := key (order / 2) (by omega) l u hb
      have hf : ¬ (order % 2 = 1 ∨ order = 2) := by omega
      have hs := hb.sections
      dsimp only at hs ⊢
      have hd : (l ++ l).length / 2 = l.length := by rw [List.length_append]; omega
      rw [if_neg hf, hd, List.take_left, show l.length = u.length by omega, List.take_left]
      linear_combination g * hk
    · have hk := key order h0 l u hb
      have hs := hb.sections
      dsimp only at hs ⊢
      rw [if_pos (Or.inl ho), Nat.div_one, List.take_length, show l.length = u.length by omega,
        List.take_length]
      linear_combination g * hk

/-- With a crossover of the order 2 half of the signal is lost at the crossover frequency. -/
theorem C79_zero_phase_second_order_wrong (butter : ℕ → ℝ → Sos ℝ × Sos ℝ) (f fs : ℝ) (c : Cross ℝ)
    (h : Designed butter 2 f fs c) :
    (zeroPhase (exp (-(2 * Real.pi * f / fs : ℝ) * I)) [(2, c)] 1).sum = 1 / 2 := by
  obtain ⟨h1, h2⟩ := C79_crossing butter 2 f fs c h
  rw [if_pos (by norm_num)] at h2
  have hl : c = second (Real.tan (Real.pi * f / fs)) := by
    rcases design_cases butter 2 f fs c h with ⟨-, h⟩ | ⟨h, -⟩ | ⟨h, -⟩
    · exact h
    · exact absurd rfl h
    · exact absurd h (by norm_num)
  have hl1 : c.low.take (c.low.length / 1) = c.low := by simp
  have hl2 : c.high.take (c.low.length / 1) = c.high := by rw [hl]; simp [second]
  simp only [zeroPhase, or_true, if_true, List.sum_cons, List.sum_nil, hl1, hl2]
  rw [← h1, h2]
  norm_num

end Verif.LinkwitzRiley

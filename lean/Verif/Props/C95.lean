import Verif.Model.Thiran
import Verif.Lemmas.LFilter
import Mathlib.Algebra.BigOperators.Field
import Mathlib.Algebra.BigOperators.Intervals
import Mathlib.Analysis.SpecialFunctions.ExpDeriv
import Mathlib.Analysis.Calculus.Deriv.Pow
import Mathlib.Analysis.Calculus.Deriv.Inv
import Mathlib.Analysis.Complex.Basic
import Mathlib.Analysis.Complex.Exponential
import Mathlib.Analysis.Complex.Trigonometric
import Mathlib.LinearAlgebra.Lagrange
import Mathlib.Data.Nat.Choose.Cast
import Mathlib.Analysis.Real.Pi.Bounds
import Mathlib.Tactic.Linarith
import Mathlib.Tactic.FieldSimp

/-!
# C95: the allpass filter with a fractional delay is stable, lossless, and delays by order plus
fraction at low frequencies
-/

namespace Verif.Thiran

open Finset

/-- `∏ (a + i) / (c + i)` for `i < k`. -/
noncomputable def rise (a c : ℝ) (k : ℕ) : ℝ := ∏ i ∈ range k, (a + i) / (c + i)

theorem rise_succ (a c : ℝ) (k : ℕ) :
    rise a c (k + 1) = rise a c k * ((a + k) / (c + k)) := prod_range_succ _ _

theorem rise_succ' (a c : ℝ) (k : ℕ) :
    rise a c (k + 1) = a / c * rise (a + 1) (c + 1) k := by
  unfold rise
  rw [prod_range_succ', mul_comm]
  congr 1
  · simp
  · refine prod_congr rfl fun i _ => ?_
    push_cast
    congr 1 <;> ring

/-- Sum of Chu and Vandermonde. -/
theorem vandermonde (n : ℕ) : ∀ a c : ℝ, 0 < c →
    ∑ k ∈ range (n + 1), (-1) ^ k * (n.choose k : ℝ) * rise a c k = rise (c - a) c n := by
  induction n with
  | zero => intro a c _; simp [rise]
  | succ n ih =>
    intro a c hc
    have h1 : ∑ k ∈ range (n + 1 + 1), (-1) ^ k * ((n + 1).choose k : ℝ) * rise a c k =
        ∑ k ∈ range (n + 1), (-1) ^ k * (n.choose k : ℝ) * rise a c k -
          a / c * ∑ k ∈ range (n + 1), (-1) ^ k * (n.choose k : ℝ) * rise (a + 1) (c + 1) k := by
      rw [sum_range_succ', mul_sum]
      have e : ∀ k, (-1 : ℝ) ^ (k + 1) * ((n + 1).choose (k + 1) : ℝ) * rise a c (k + 1) =
          (-1) ^ (k + 1) * (n.choose (k + 1) : ℝ) * rise a c (k + 1) -
            a / c * ((-1) ^ k * (n.choose k : ℝ) * rise (a + 1) (c + 1) k) := by
        intro k
        rw [Nat.choose_succ_succ, pow_succ]
        push_cast
        rw [rise_succ' a c k]
        ring
      rw [sum_congr rfl fun k _ => e k, sum_sub_distrib]
      have h2 : ∑ k ∈ range (n + 1), (-1 : ℝ) ^ (k + 1) * (n.choose (k + 1) : ℝ) *
          rise a c (k + 1) + (-1) ^ 0 * ((n + 1).choose 0 : ℝ) * rise a c 0 =
          ∑ k ∈ range (n + 1), (-1) ^ k * (n.choose k : ℝ) * rise a c k := by
        have h3 := sum_range_succ' (fun k => (-1 : ℝ) ^ k * (n.choose k : ℝ) * rise a c k) (n + 1)
        rw [sum_range_succ, Nat.choose_succ_self] at h3
        simp only [Nat.cast_zero, mul_zero, zero_mul, add_zero] at h3
        rw [h3]
        simp
      linarith
    rw [h1, ih a c hc, ih (a + 1) (c + 1) (by linarith)]
    rw [show c + 1 - (a + 1) = c - a by ring]
    unfold rise
    rw [prod_div_distrib, prod_div_distrib, prod_div_distrib]
    rw [prod_range_succ (fun i : ℕ => c - a + (i : ℝ))]
    have hc' : ∏ i ∈ range (n + 1), (c + (i : ℝ)) = c * ∏ i ∈ range n, (c + 1 + (i : ℝ)) := by
      rw [prod_range_succ', mul_comm]
      congr 1
      · simp
      · refine prod_congr rfl fun i _ => ?_
        push_cast
        ring
    have hc'' := prod_range_succ (fun i : ℕ => c + (i : ℝ)) n
    have hp1 : 0 < ∏ i ∈ range n, (c + (i : ℝ)) := prod_pos fun i _ => by positivity
    have hp2 : 0 < ∏ i ∈ range n, (c + 1 + (i : ℝ)) := prod_pos fun i _ => by positivity
    have hrel : c * ∏ i ∈ range n, (c + 1 + (i : ℝ)) = (∏ i ∈ range n, (c + (i : ℝ))) * (c + n) := by
      rw [← hc', hc'']
    rw [hc']
    have hcn : 0 < c + n := by positivity
    set P := ∏ i ∈ range n, (c - a + (i : ℝ))
    set Q := ∏ i ∈ range n, (c + (i : ℝ))
    set R := ∏ i ∈ range n, (c + 1 + (i : ℝ))
    have hQ : Q = c * R / (c + n) := by rw [hrel]; field_simp
    rw [hQ]
    field_simp
    ring

/-- The coefficients of the code as a product. -/
theorem coeff_prod (N : ℕ) (d : ℝ) (k : ℕ) :
    coeff N ((N : ℝ) + d) k =
      (-1) ^ k * (N.choose k : ℝ) * ∏ i ∈ range (N + 1), (d + i) / (d + k + i) := by
  have hf : ∀ (n : ℕ) (f : ℕ → ℝ) (x : ℝ),
      (List.range n).foldl (fun acc i => acc * f i) x = x * ∏ i ∈ range n, f i := by
    intro n f x
    induction n with
    | zero => simp
    | succ n ih => rw [List.range_succ, List.foldl_append, ih, prod_range_succ]; simp [mul_assoc]
  unfold coeff
  rw [hf]
  have hsign : (if k % 2 = 1 then (-1 : ℝ) else 1) = (-1) ^ k := by
    rcases Nat.mod_two_eq_zero_or_one k with h | h
    · rw [if_neg (by omega), (Nat.even_iff.mpr h).neg_one_pow]
    · rw [if_pos h, (Nat.odd_iff.mpr h).neg_one_pow]
  have hD : (N : ℝ) + d - N = d := by ring
  rw [hsign, mul_comm ((N.choose k : ℝ)), hD]

theorem coeff_eq (N : ℕ) (d : ℝ) (hd : 0 < d) (k : ℕ) :
    coeff N ((N : ℝ) + d) k = (-1) ^ k * (N.choose k : ℝ) * rise d (d + N + 1) k := by
  rw [coeff_prod]
  congr 1
  induction k with
  | zero =>
    simp only [rise, range_zero, prod_empty]
    refine prod_eq_one fun i _ => ?_
    have : d + (i : ℝ) ≠ 0 := by positivity
    simp [this]
  | succ k ih =>
    rw [rise_succ, ← ih, prod_div_distrib, prod_div_distrib]
    have h1 := prod_range_succ (fun i : ℕ => d + k + (i : ℝ)) (N + 1)
    have h2 := prod_range_succ' (fun i : ℕ => d + k + (i : ℝ)) (N + 1)
    have h3 : ∏ i ∈ range (N + 1), (d + k + ((i + 1 : ℕ) : ℝ)) =
        ∏ i ∈ range (N + 1), (d + ((k + 1 : ℕ) : ℝ) + (i : ℝ)) :=
      prod_congr rfl fun i _ => by push_cast; ring
    rw [h3] at h2
    have hp1 : 0 < ∏ i ∈ range (N + 1), (d + k + (i : ℝ)) := prod_pos fun i _ => by positivity
    have hp2 : 0 < ∏ i ∈ range (N + 1), (d + ((k + 1 : ℕ) : ℝ) + (i : ℝ)) :=
      prod_pos fun i _ => by positivity
    have hrel := h1.symm.trans h2
    push_cast at hrel hp2 ⊢
    rw [add_zero] at hrel
    set P := ∏ i ∈ range (N + 1), (d + k + (i : ℝ))
    set Q := ∏ i ∈ range (N + 1), (d + ((k : ℝ) + 1) + (i : ℝ))
    set S := ∏ i ∈ range (N + 1), (d + (i : ℝ))
    have hdn : d + N + 1 + (k : ℝ) ≠ 0 := by positivity
    have hdk : d + (k : ℝ) ≠ 0 := by positivity
    rw [div_mul_div_comm, div_eq_div_iff hp2.ne' (by positivity)]
    linear_combination S * hrel

/-- Sum of the coefficients, and sum weighted by the index. -/
theorem sums (M : ℕ) (d : ℝ) (hd : 0 < d) :
    0 < ∑ k ∈ range (M + 1 + 1), coeff (M + 1) (((M + 1 : ℕ) : ℝ) + d) k ∧
    ∑ k ∈ range (M + 1 + 1), (k : ℝ) * coeff (M + 1) (((M + 1 : ℕ) : ℝ) + d) k =
      -(d / 2) * ∑ k ∈ range (M + 1 + 1), coeff (M + 1) (((M + 1 : ℕ) : ℝ) + d) k := by
  set c := d + ((M + 1 : ℕ) : ℝ) + 1 with hc
  have hcpos : 0 < c := by positivity
  have hA : ∑ k ∈ range (M + 1 + 1), coeff (M + 1) (((M + 1 : ℕ) : ℝ) + d) k =
      rise (c - d) c (M + 1) := by
    rw [← vandermonde (M + 1) d c hcpos]
    exact sum_congr rfl fun k _ => coeff_eq _ d hd k
  have hA' : ∑ k ∈ range (M + 1 + 1), (k : ℝ) * coeff (M + 1) (((M + 1 : ℕ) : ℝ) + d) k =
      -((M + 1) * (d / c)) * rise (c - d) (c + 1) M := by
    rw [show rise (c - d) (c + 1) M = rise (c + 1 - (d + 1)) (c + 1) M by congr 1; ring,
      ← vandermonde M (d + 1) (c + 1) (by linarith), sum_range_succ', mul_sum]
    simp only [Nat.cast_zero, zero_mul, add_zero]
    refine sum_congr rfl fun k _ => ?_
    rw [coeff_eq _ d hd, rise_succ', pow_succ]
    have h : ((k + 1 : ℕ) : ℝ) * ((M + 1).choose (k + 1) : ℝ) = ((M : ℝ) + 1) * (M.choose k : ℝ) := by
      have := Nat.add_one_mul_choose_eq M k
      have h2 : (((M + 1) * M.choose k : ℕ) : ℝ) = (((M + 1).choose (k + 1) * (k + 1) : ℕ) : ℝ) := by
        rw [this]
      push_cast at h2 ⊢
      linarith
    rw [← hc]
    linear_combination (-(-1) ^ k * (d / c * rise (d + 1) (c + 1) k)) * h
  have hcd : c - d = (M : ℝ) + 2 := by rw [hc]; push_cast; ring
  have hrel : rise (c - d) c (M + 1) = 2 * (M + 1) / c * rise (c - d) (c + 1) M := by
    unfold rise
    rw [prod_div_distrib, prod_div_distrib, prod_range_succ, prod_range_succ' (fun i : ℕ => c + (i : ℝ))]
    have : ∏ k ∈ range M, (c + ((k + 1 : ℕ) : ℝ)) = ∏ i ∈ range M, (c + 1 + (i : ℝ)) :=
      prod_congr rfl fun i _ => by push_cast; ring
    rw [this, hcd]
    simp only [Nat.cast_zero, add_zero]
    rw [show (M : ℝ) + 2 + M = 2 * (M + 1) by ring]
    have hp : 0 < ∏ i ∈ range M, (c + 1 + (i : ℝ)) := prod_pos fun i _ => by positivity
    field_simp
  constructor
  · rw [hA, hcd]
    unfold rise
    exact prod_pos fun i _ => by positivity
  · rw [hA, hA', hrel]
    field_simp

/-- `∑ l[n] wⁿ` -/
noncomputable def poly (l : List ℝ) (w : ℂ) : ℂ := ∑ n ∈ range l.length, (l.getD n 0 : ℂ) * w ^ n

/-- **C95**, accepted input: positive orders and delays strictly between 0 and 1; numerator and
denominator have `order + 1` coefficients and mirror each other. -/
theorem C95_accepts (delay : ℝ) (order : ℤ) :
    ((∃ b a, filter delay order = .ok (b, a)) ↔ 0 < order ∧ 0 < delay ∧ delay < 1) ∧
    (¬ (0 < order ∧ 0 < delay ∧ delay < 1) → filter delay order = .error .assertionError) ∧
    ∀ b a, filter delay order = .ok (b, a) → a.length = order.toNat + 1 ∧ b = a.reverse := by
  unfold filter
  by_cases h1 : 0 < order
  · rw [if_neg (by simpa using h1)]
    by_cases h2 : 0 < delay ∧ delay < 1
    · rw [if_neg (by simpa using h2)]
      refine ⟨⟨fun _ => ⟨h1, h2⟩, fun _ => ⟨_, _, rfl⟩⟩, fun h => absurd ⟨h1, h2⟩ h, ?_⟩
      intro b a h
      cases h
      simp
    · rw [if_pos h2]
      refine ⟨⟨fun ⟨b, a, h⟩ => (by cases h), fun h => absurd h.2 h2⟩, fun _ => rfl, ?_⟩
      intro b a h
      cases h
  · rw [if_pos h1]
    refine ⟨⟨fun ⟨b, a, h⟩ => (by cases h), fun h => absurd h.1 h1⟩, fun _ => rfl, ?_⟩
    intro b a h
    cases h

theorem filter_ok {delay : ℝ} {order : ℤ} {b a : List ℝ} (h : filter delay order = .ok (b, a)) :
    0 < order ∧ 0 < delay ∧ delay < 1 ∧ b = a.reverse ∧
      a = (List.range (order.toNat + 1)).map (coeff order.toNat ((order.toNat : ℝ) + delay)) := by
  obtain ⟨h1, h2, h3⟩ := ((C95_accepts delay order).1).mp ⟨b, a, h⟩
  unfold filter at h
  rw [if_neg (by simpa using h1), if_neg (by simpa using ⟨h2, h3⟩)] at h
  cases h
  exact ⟨h1, h2, h3, rfl, rfl⟩

/-- Polynomials with decreasing positive coefficients have no zeros in the closed unit disk
(Eneström and Kakeya). -/
theorem kakeya (N : ℕ) (c : ℕ → ℝ) (hpos : 0 < c N) (hdec : ∀ k < N, c (k + 1) < c k) (w : ℂ)
    (hw : ‖w‖ ≤ 1) : ∑ k ∈ range (N + 1), (c k : ℂ) * w ^ k ≠ 0 := by
  intro h
  have hall : ∀ k ≤ N, 0 < c k := by
    have : ∀ j ≤ N, 0 < c (N - j) := by
      intro j
      induction j with
      | zero => intro _; simpa using hpos
      | succ j ih =>
        intro hj
        have h1 := hdec (N - (j + 1)) (by omega)
        rw [show N - (j + 1) + 1 = N - j by omega] at h1
        linarith [ih (by omega)]
    intro k hk
    have := this (N - k) (by omega)
    rwa [show N - (N - k) = k by omega] at this
  have hre : ∀ k, (w ^ k).re ≤ 1 := fun k =>
    (Complex.re_le_norm _).trans (by rw [norm_pow]; exact pow_le_one₀ (norm_nonneg _) hw)
  -- (1 - w) C(w)
  have hmul : (c 0 : ℂ) = ∑ k ∈ range N, ((c k - c (k + 1) : ℝ) : ℂ) * w ^ (k + 1) +
      (c N : ℂ) * w ^ (N + 1) := by
    have h1 : w * ∑ k ∈ range (N + 1), (c k : ℂ) * w ^ k = 0 := by rw [h, mul_zero]
    rw [mul_sum, sum_range_succ] at h1
    rw [sum_range_succ'] at h
    have e : ∑ k ∈ range N, ((c k - c (k + 1) : ℝ) : ℂ) * w ^ (k + 1) =
        ∑ k ∈ range N, w * ((c k : ℂ) * w ^ k) - ∑ k ∈ range N, (c (k + 1) : ℂ) * w ^ (k + 1) := by
      rw [← sum_sub_distrib]
      refine sum_congr rfl fun k _ => ?_
      push_cast
      ring
    rw [e]
    simp only [pow_zero, mul_one] at h
    have e2 : (c N : ℂ) * w ^ (N + 1) = w * ((c N : ℂ) * w ^ N) := by ring
    rw [e2]
    linear_combination h - h1
  have hr := congrArg Complex.re hmul
  rw [Complex.ofReal_re, Complex.add_re, Complex.re_sum, Complex.re_ofReal_mul] at hr
  simp only [Complex.re_ofReal_mul] at hr
  have htel : ∑ k ∈ range N, (c k - c (k + 1)) = c 0 - c N := sum_range_sub' c N
  have hone : w = 1 := by
    have hwre : w.re = 1 := by
      by_contra hne
      have hlt : w.re < 1 := lt_of_le_of_ne (by simpa using hre 1) hne
      rcases Nat.eq_zero_or_pos N with h0 | h0
      · subst h0
        simp at hr
        nlinarith
      · have : ∑ k ∈ range N, (c k - c (k + 1)) * (w ^ (k + 1)).re <
            ∑ k ∈ range N, (c k - c (k + 1)) := by
          refine sum_lt_sum (fun k hk => ?_) ⟨0, mem_range.mpr h0, ?_⟩
          · have := hdec k (mem_range.mp hk)
            nlinarith [hre (k + 1)]
          · have := hdec 0 h0
            simp only [zero_add, pow_one] at this ⊢
            nlinarith
        have h2 : c N * (w ^ (N + 1)).re ≤ c N := by nlinarith [hre (N + 1)]
        linarith
    have hn : w.re ^ 2 + w.im ^ 2 ≤ 1 := by
      have h1 := Complex.sq_norm w
      rw [Complex.normSq_apply] at h1
      have h2 : ‖w‖ ^ 2 ≤ 1 := pow_le_one₀ (norm_nonneg _) hw
      nlinarith
    have him : w.im = 0 := by
      rw [hwre] at hn
      nlinarith [sq_nonneg w.im]
    exact Complex.ext hwre him
  rw [hone] at h
  simp only [one_pow, mul_one] at h
  have h3 : ∑ k ∈ range (N + 1), c k = 0 := by exact_mod_cast h
  have h4 : 0 < ∑ k ∈ range (N + 1), c k :=
    sum_pos (fun k hk => hall k (by have := mem_range.mp hk; omega)) ⟨0, by simp⟩
  linarith

theorem getD_coeffs (N : ℕ) (D : ℝ) (n : ℕ) (hn : n < N + 1) :
    ((List.range (N + 1)).map (coeff N D)).getD n 0 = coeff N D n := by
  rw [LFilter.getD_map_range, if_pos hn]

/-- **C95**, stability: for all accepted orders and delays the denominator has no zero in the
closed unit disk of the unit delay, that is all poles lie inside the unit circle. -/
theorem C95_stable (delay : ℝ) (order : ℤ) (b a : List ℝ) (h : filter delay order = .ok (b, a))
    (w : ℂ) (hw : ‖w‖ ≤ 1) : poly a w ≠ 0 := by
  obtain ⟨h1, hd, hd1, -, ha⟩ := filter_ok h
  set N := order.toNat with hN
  have hlen : a.length = N + 1 := by rw [ha]; simp
  have e : poly a w = ∑ k ∈ range (N + 1),
      (((N.choose k : ℝ) * rise delay (delay + N + 1) k : ℝ) : ℂ) * (-w) ^ k := by
    unfold poly
    rw [hlen]
    refine sum_congr rfl fun k hk => ?_
    rw [ha, getD_coeffs N _ k (mem_range.mp hk), coeff_eq N delay hd, neg_pow w]
    push_cast
    ring
  rw [e]
  have hrpos : ∀ k, 0 < rise delay (delay + N + 1) k := fun k => prod_pos fun i _ => by positivity
  refine kakeya N _ (by have := hrpos N; simpa using this) (fun k hk => ?_) (-w) (by rwa [norm_neg])
  rw [rise_succ]
  have hch : ((N.choose (k + 1) : ℕ) : ℝ) * ((k : ℝ) + 1) = (N.choose k : ℝ) * ((N : ℝ) - k) := by
    have := Nat.choose_succ_right_eq N k
    have h2 : ((N.choose (k + 1) * (k + 1) : ℕ) : ℝ) = ((N.choose k * (N - k) : ℕ) : ℝ) := by rw [this]
    push_cast [Nat.cast_sub hk.le] at h2
    exact h2
  have hkN : (k : ℝ) < N := by exact_mod_cast hk
  have hcp : (0 : ℝ) < (N.choose k : ℝ) := by exact_mod_cast Nat.choose_pos hk.le
  have hk0 : (0 : ℝ) ≤ k := Nat.cast_nonneg k
  have hden : 0 < delay + N + 1 + (k : ℝ) := by positivity
  have hval : ((N.choose (k + 1) : ℕ) : ℝ) = (N.choose k : ℝ) * ((N : ℝ) - k) / ((k : ℝ) + 1) := by
    rw [eq_div_iff (by positivity)]
    exact hch
  rw [hval]
  have hlt : ((N : ℝ) - k) / ((k : ℝ) + 1) * ((delay + k) / (delay + N + 1 + k)) < 1 := by
    rw [div_mul_div_comm, div_lt_one (by positivity)]
    nlinarith
  have := hrpos k
  calc (N.choose k : ℝ) * ((N : ℝ) - k) / ((k : ℝ) + 1) *
        (rise delay (delay + N + 1) k * ((delay + k) / (delay + N + 1 + k)))
      = ((N.choose k : ℝ) * rise delay (delay + N + 1) k) *
        (((N : ℝ) - k) / ((k : ℝ) + 1) * ((delay + k) / (delay + N + 1 + k))) := by ring
    _ < (N.choose k : ℝ) * rise delay (delay + N + 1) k * 1 :=
        mul_lt_mul_of_pos_left hlt (by positivity)
    _ = _ := mul_one _

theorem poly_reverse (a : List ℝ) (w : ℂ) (hw : ‖w‖ = 1) :
    poly a.reverse w = w ^ (a.length - 1) * (starRingEnd ℂ) (poly a w) := by
  have hconj : w * (starRingEnd ℂ) w = 1 := by
    rw [Complex.mul_conj, Complex.normSq_eq_norm_sq, hw]
    simp
  unfold poly
  rw [List.length_reverse, map_sum, mul_sum, ← sum_range_reflect]
  refine sum_congr rfl fun m hm => ?_
  have hm' := mem_range.mp hm
  have hg : a.reverse.getD (a.length - 1 - m) 0 = a.getD m 0 := by
    rw [List.getD_eq_getElem _ _ (by rw [List.length_reverse]; omega),
      List.getD_eq_getElem _ _ hm', List.getElem_reverse]
    congr 1
    omega
  rw [hg, map_mul, map_pow, Complex.conj_ofReal]
  have : w ^ (a.length - 1) = w ^ (a.length - 1 - m) * w ^ m := by
    rw [← pow_add]
    congr 1
    omega
  rw [this]
  have h2 : w ^ m * (starRingEnd ℂ) w ^ m = 1 := by rw [← mul_pow, hconj, one_pow]
  linear_combination (-((a.getD m 0 : ℂ) * w ^ (a.length - 1 - m))) * h2

/-- **C95**, lossless: the magnitude of the response is 1 at every frequency. -/
theorem C95_allpass (delay : ℝ) (order : ℤ) (b a : List ℝ) (h : filter delay order = .ok (b, a))
    (w : ℂ) (hw : ‖w‖ = 1) : ‖poly b w / poly a w‖ = 1 := by
  obtain ⟨-, -, -, hb, -⟩ := filter_ok h
  have hne := C95_stable delay order b a h w hw.le
  rw [hb, poly_reverse a w hw, norm_div, norm_mul, norm_pow, hw, one_pow, one_mul, RCLike.norm_conj,
    div_self (norm_ne_zero_iff.mpr hne)]

theorem poly_deriv (a : List ℝ) (w : ℂ) : HasDerivAt (poly a)
    (∑ n ∈ range a.length, (a.getD n 0 : ℂ) * (n * w ^ (n - 1))) w := by
  unfold poly
  exact HasDerivAt.fun_sum fun n _ => (hasDerivAt_pow n w).const_mul _

/-- **C95**, delay: at frequency zero the response is 1 and its derivative is that of a delay by
`order + delay` samples. -/
theorem C95_delay (delay : ℝ) (order : ℤ) (b a : List ℝ) (h : filter delay order = .ok (b, a)) :
    poly b 1 / poly a 1 = 1 ∧
    HasDerivAt (fun omega : ℝ => poly b (Complex.exp (-(omega * Complex.I))) /
      poly a (Complex.exp (-(omega * Complex.I)))) (-(((order : ℝ) + delay : ℝ) * Complex.I)) 0 := by
  obtain ⟨h1, hd, hd1, hb, ha⟩ := filter_ok h
  obtain ⟨M, hM⟩ : ∃ M : ℕ, order.toNat = M + 1 := ⟨order.toNat - 1, by omega⟩
  have hord : (order : ℝ) = (M : ℝ) + 1 := by
    have : order = ((M + 1 : ℕ) : ℤ) := by omega
    rw [this]
    push_cast
    rfl
  rw [hM] at ha
  have hlen : a.length = M + 1 + 1 := by rw [ha]; simp
  obtain ⟨hS, hW⟩ := sums M delay hd
  set S := ∑ k ∈ range (M + 1 + 1), coeff (M + 1) (((M + 1 : ℕ) : ℝ) + delay) k with hSdef
  have hga : ∀ n ∈ range (M + 1 + 1), a.getD n 0 = coeff (M + 1) (((M + 1 : ℕ) : ℝ) + delay) n := by
    intro n hn
    rw [ha, getD_coeffs _ _ n (mem_range.mp hn)]
  have hgb : ∀ n ∈ range (M + 1 + 1), b.getD n 0 = a.getD (M + 1 - n) 0 := by
    intro n hn
    have := mem_range.mp hn
    rw [hb, List.getD_eq_getElem _ _ (by rw [List.length_reverse]; omega),
      List.getD_eq_getElem _ _ (by omega), List.getElem_reverse]
    congr 1
    omega
  have hblen : b.length = M + 1 + 1 := by rw [hb, List.length_reverse, hlen]
  have hA1 : poly a 1 = (S : ℂ) := by
    unfold poly
    rw [hlen, hSdef]
    push_cast
    refine sum_congr rfl fun n hn => ?_
    rw [hga n hn]
    simp
  have hB1 : poly b 1 = (S : ℂ) := by
    rw [← hA1]
    unfold poly
    rw [hlen, hblen, ← sum_range_reflect]
    refine sum_congr rfl fun n hn => ?_
    have := mem_range.mp hn
    rw [hgb _ (mem_range.mpr (by omega)), show M + 1 - (M + 1 + 1 - 1 - n) = n by omega]
    simp
  have hAd : ∑ n ∈ range a.length, (a.getD n 0 : ℂ) * (n * 1 ^ (n - 1)) =
      ((-(delay / 2) * S : ℝ) : ℂ) := by
    rw [hlen, ← hW]
    push_cast
    refine sum_congr rfl fun n hn => ?_
    rw [hga n hn]
    push_cast
    ring
  have hBd : ∑ n ∈ range b.length, (b.getD n 0 : ℂ) * (n * 1 ^ (n - 1)) =
      (((M + 1) * S + delay / 2 * S : ℝ) : ℂ) := by
    have e : ∑ n ∈ range b.length, (b.getD n 0 : ℂ) * (n * 1 ^ (n - 1)) =
        ∑ n ∈ range (M + 1 + 1), (((M : ℂ) + 1) * (a.getD n 0 : ℂ) -
          (a.getD n 0 : ℂ) * (n * 1 ^ (n - 1))) := by
      rw [hblen, ← sum_range_reflect]
      refine sum_congr rfl fun n hn => ?_
      have hn' := mem_range.mp hn
      rw [hgb _ (mem_range.mpr (by omega)), show M + 1 - (M + 1 + 1 - 1 - n) = n by omega,
        show M + 1 + 1 - 1 - n = M + 1 - n by omega, Nat.cast_sub (by omega)]
      push_cast
      ring
    rw [e, sum_sub_distrib, ← mul_sum]
    rw [hlen] at hAd
    rw [hAd]
    have e2 : ∑ n ∈ range (M + 1 + 1), (a.getD n 0 : ℂ) = (S : ℂ) := by
      rw [← hA1]
      unfold poly
      rw [hlen]
      simp
    rw [e2]
    push_cast
    ring
  have hSne : (S : ℂ) ≠ 0 := by exact_mod_cast hS.ne'
  refine ⟨by rw [hA1, hB1, div_self hSne], ?_⟩
  have hexp : HasDerivAt (fun omega : ℝ => Complex.exp (-(omega * Complex.I))) (-Complex.I) 0 := by
    have h1 : HasDerivAt (fun omega : ℝ => -((omega : ℂ) * Complex.I)) (-(1 * Complex.I)) 0 :=
      ((Complex.ofRealCLM.hasDerivAt (x := (0 : ℝ))).mul_const Complex.I).neg
    have h2 := h1.cexp
    simpa using h2
  have hq : HasDerivAt (fun w => poly b w / poly a w) ((M + 1 + delay : ℝ) : ℂ) 1 := by
    have h2 := (poly_deriv b 1).div (poly_deriv a 1) (by rw [hA1]; exact hSne)
    refine h2.congr_deriv ?_
    rw [hA1, hB1, hAd, hBd]
    push_cast
    field_simp
    ring
  have h0 : Complex.exp (-(((0 : ℝ) : ℂ) * Complex.I)) = 1 := by simp
  have hcomp := HasDerivAt.comp (0 : ℝ) (h₂ := fun w => poly b w / poly a w)
    (h := fun omega : ℝ => Complex.exp (-(omega * Complex.I))) (by rw [h0]; exact hq) hexp
  refine hcomp.congr_deriv ?_
  rw [hord]
  push_cast
  ring

/-- Product over all indices but one. -/
theorem prod_erase_range (f : ℕ → ℝ) (N k : ℕ) (hk : k ≤ N) :
    ∏ l ∈ (range (N + 1)).erase k, f l =
      (∏ l ∈ range k, f l) * ∏ j ∈ range (N - k), f (k + 1 + j) := by
  have e : (range (N + 1)).erase k = range k ∪ (range (N - k)).map (addLeftEmbedding (k + 1)) := by
    ext x
    simp only [mem_erase, mem_range, mem_union, mem_map, addLeftEmbedding_apply]
    constructor
    · intro ⟨h1, h2⟩
      rcases Nat.lt_or_ge x k with h | h
      · exact Or.inl h
      · exact Or.inr ⟨x - (k + 1), by omega, by omega⟩
    · rintro (h | ⟨y, h1, h2⟩) <;> omega
  rw [e, prod_union, prod_map]
  · rfl
  · rw [disjoint_left]
    intro x h1 h2
    simp only [mem_range, mem_map, addLeftEmbedding_apply] at h1 h2
    obtain ⟨y, -, h2⟩ := h2
    omega

theorem prod_diff (N k : ℕ) (hk : k ≤ N) :
    ∏ l ∈ (range (N + 1)).erase k, ((k : ℝ) - l) =
      (-1) ^ (N - k) * (k.factorial : ℝ) * ((N - k).factorial : ℝ) := by
  rw [prod_erase_range _ N k hk]
  have h1 : ∏ l ∈ range k, ((k : ℝ) - l) = (k.factorial : ℝ) := by
    rw [← prod_range_add_one_eq_factorial, ← prod_range_reflect]
    push_cast
    refine prod_congr rfl fun j hj => ?_
    have := mem_range.mp hj
    rw [show k - 1 - j = k - (j + 1) by omega, Nat.cast_sub (by omega)]
    push_cast
    ring
  have h2 : ∏ j ∈ range (N - k), ((k : ℝ) - ((k + 1 + j : ℕ) : ℝ)) =
      (-1) ^ (N - k) * ((N - k).factorial : ℝ) := by
    rw [← prod_range_add_one_eq_factorial]
    push_cast
    have e : ((-1 : ℝ)) ^ (N - k) = ∏ _j ∈ range (N - k), (-1 : ℝ) := by
      rw [prod_const, card_range]
    rw [e, ← prod_mul_distrib]
    exact prod_congr rfl fun j _ => by ring
  rw [h1, h2]
  ring

/-- The odd moments of the coefficients about `-delay / 2` vanish. -/
theorem moments (N : ℕ) (d : ℝ) (hd : 0 < d) (m : ℕ) (hm : m < N) :
    ∑ k ∈ range (N + 1), coeff N ((N : ℝ) + d) k * ((k : ℝ) + d / 2) ^ (2 * m + 1) = 0 := by
  have hinj : Set.InjOn (fun k : ℕ => ((k : ℝ) + d / 2) ^ 2) (range (N + 1) : Finset ℕ) := by
    intro x _ y _ hxy
    dsimp only at hxy
    have hx : 0 < (x : ℝ) + d / 2 := by positivity
    have hy : 0 < (y : ℝ) + d / 2 := by positivity
    have := (sq_eq_sq₀ hx.le hy.le).mp hxy
    exact_mod_cast (add_right_cancel this)
  have hlag := Lagrange.coeff_eq_sum (s := range (N + 1)) hinj
    (P := (Polynomial.X : Polynomial ℝ) ^ m) (by
      rw [Polynomial.degree_X_pow, card_range]
      exact_mod_cast (by omega : m < N + 1))
  rw [card_range, Polynomial.coeff_X_pow, if_neg (by omega)] at hlag
  simp only [Polynomial.eval_pow, Polynomial.eval_X] at hlag
  have key : ∀ k ∈ range (N + 1), coeff N ((N : ℝ) + d) k * ((k : ℝ) + d / 2) ^ (2 * m + 1) =
      (-1) ^ N * (N.factorial : ℝ) / 2 * (∏ i ∈ range (N + 1), (d + (i : ℝ))) *
        ((((k : ℝ) + d / 2) ^ 2) ^ m / ∏ j ∈ (range (N + 1)).erase k,
          (((k : ℝ) + d / 2) ^ 2 - ((j : ℝ) + d / 2) ^ 2)) := by
    intro k hk
    have hkN : k ≤ N := by have := mem_range.mp hk; omega
    have hprod : ∏ j ∈ (range (N + 1)).erase k, (((k : ℝ) + d / 2) ^ 2 - ((j : ℝ) + d / 2) ^ 2) =
        (-1) ^ (N - k) * (k.factorial : ℝ) * ((N - k).factorial : ℝ) *
          ∏ j ∈ (range (N + 1)).erase k, (d + k + (j : ℝ)) := by
      rw [← prod_diff N k hkN, ← prod_mul_distrib]
      exact prod_congr rfl fun j _ => by ring
    have hT : ∏ i ∈ range (N + 1), (d + k + (i : ℝ)) =
        2 * ((k : ℝ) + d / 2) * ∏ j ∈ (range (N + 1)).erase k, (d + k + (j : ℝ)) := by
      rw [← mul_prod_erase (range (N + 1)) (fun i : ℕ => d + k + (i : ℝ)) hk]
      ring
    have hE : 0 < ∏ j ∈ (range (N + 1)).erase k, (d + k + (j : ℝ)) :=
      prod_pos fun i _ => by positivity
    have hu : 0 < (k : ℝ) + d / 2 := by positivity
    rw [coeff_prod, prod_div_distrib, hT, hprod, Nat.cast_choose ℝ hkN, ← pow_mul, pow_succ]
    have hsg : (-1 : ℝ) ^ N = (-1) ^ (N - k) * (-1) ^ k := by
      rw [← pow_add]
      congr 1
      omega
    have hsq : ((-1 : ℝ) ^ (N - k)) * (-1) ^ (N - k) = 1 := by
      rw [← mul_pow]
      simp
    have hf1 : (0 : ℝ) < (k.factorial : ℝ) := by exact_mod_cast Nat.factorial_pos k
    have hf2 : (0 : ℝ) < ((N - k).factorial : ℝ) := by exact_mod_cast Nat.factorial_pos _
    have hsne : ((-1 : ℝ) ^ (N - k)) ≠ 0 := pow_ne_zero _ (by norm_num)
    rw [hsg]
    field_simp
  rw [sum_congr rfl key, ← mul_sum, ← hlag, mul_zero]

/-- **C95**, flatness: on the whole range of frequencies the response differs from that of an ideal
delay by `order + delay` samples at most by a multiple of the power `2 * order + 1` of the
frequency. -/
theorem C95_flat (delay : ℝ) (order : ℤ) (b a : List ℝ) (h : filter delay order = .ok (b, a)) :
    ∃ C : ℝ, ∀ omega : ℝ, |omega| ≤ Real.pi →
      ‖poly b (Complex.exp (-(omega * Complex.I))) / poly a (Complex.exp (-(omega * Complex.I))) -
        Complex.exp (-(((order : ℝ) + delay : ℝ) * omega * Complex.I))‖ ≤
          C * |omega| ^ (2 * order.toNat + 1) := by
  obtain ⟨h1, hd, hd1, hb, ha⟩ := filter_ok h
  set N := order.toNat with hN
  have hord : (order : ℝ) = N := by
    have : order = ((N : ℕ) : ℤ) := by omega
    rw [this]
    simp
  have hlen : a.length = N + 1 := by rw [ha]; simp
  have hg : ∀ n ∈ range (N + 1), a.getD n 0 = coeff N ((N : ℝ) + delay) n := by
    intro n hn
    rw [ha, getD_coeffs _ _ n (mem_range.mp hn)]
  -- lower bound of the denominator
  obtain ⟨z0, hz0, hmin⟩ := (isCompact_closedBall (0 : ℂ) 1).exists_isMinOn ⟨0, by simp⟩
    (f := fun w => ‖poly a w‖)
    (continuous_norm.comp (continuous_iff_continuousAt.mpr fun w =>
      (poly_deriv a w).continuousAt)).continuousOn
  have hc0 : 0 < ‖poly a z0‖ := norm_pos_iff.mpr
    (C95_stable delay order b a h z0 (by simpa using hz0))
  set u : ℕ → ℝ := fun k => (k : ℝ) + delay / 2 with hu
  set B := ∑ k ∈ range (N + 1), |coeff N ((N : ℝ) + delay) k| *
    (2 * (u k ^ (2 * N + 1) * Real.exp (Real.pi * u k))) with hB
  refine ⟨B / ‖poly a z0‖, fun omega hom => ?_⟩
  set w := Complex.exp (-(omega * Complex.I)) with hw
  have hwn : ‖w‖ = 1 := by
    rw [hw, show -((omega : ℂ) * Complex.I) = ((-omega : ℝ) : ℂ) * Complex.I by push_cast; ring]
    exact Complex.norm_exp_ofReal_mul_I _
  have hne := C95_stable delay order b a h w hwn.le
  have hupos : ∀ k, 0 ≤ u k := fun k => by rw [hu]; positivity
  -- the difference as a sum of sines
  have hdiff : poly b w - Complex.exp (-(((order : ℝ) + delay : ℝ) * omega * Complex.I)) * poly a w =
      Complex.exp (-((N + delay / 2 : ℝ) * omega * Complex.I)) * ∑ k ∈ range (N + 1),
        ((coeff N ((N : ℝ) + delay) k : ℝ) : ℂ) *
          (Complex.exp ((omega * u k : ℝ) * Complex.I) -
            Complex.exp (-((omega * u k : ℝ) * Complex.I))) := by
    rw [hb, poly_reverse a w hwn, hlen]
    unfold poly
    rw [hlen, map_sum, mul_sum, mul_sum, mul_sum, ← sum_sub_distrib]
    refine sum_congr rfl fun k hk => ?_
    have hconj : (starRingEnd ℂ) w = Complex.exp (omega * Complex.I) := by
      rw [hw, ← Complex.exp_conj]
      simp
    rw [hg k hk, map_mul, map_pow, Complex.conj_ofReal, hconj, hord, hw, hu,
      ← Complex.exp_nat_mul, ← Complex.exp_nat_mul, ← Complex.exp_nat_mul]
    have e1 : Complex.exp (((N + 1 - 1 : ℕ) : ℂ) * -(omega * Complex.I)) *
        Complex.exp (k * (omega * Complex.I)) =
        Complex.exp (-((N + delay / 2 : ℝ) * omega * Complex.I)) *
          Complex.exp ((omega * ((k : ℝ) + delay / 2) : ℝ) * Complex.I) := by
      rw [← Complex.exp_add, ← Complex.exp_add]
      congr 1
      push_cast [Nat.add_sub_cancel]
      ring
    have e2 : Complex.exp (-(((N : ℝ) + delay : ℝ) * omega * Complex.I)) *
        Complex.exp (k * -(omega * Complex.I)) =
        Complex.exp (-((N + delay / 2 : ℝ) * omega * Complex.I)) *
          Complex.exp (-((omega * ((k : ℝ) + delay / 2) : ℝ) * Complex.I)) := by
      rw [← Complex.exp_add, ← Complex.exp_add]
      congr 1
      push_cast
      ring
    linear_combination ((coeff N ((N : ℝ) + delay) k : ℝ) : ℂ) * (e1 - e2)
  -- Taylor polynomials of the exponentials
  have htay : ∑ k ∈ range (N + 1), ((coeff N ((N : ℝ) + delay) k : ℝ) : ℂ) *
      ((∑ m ∈ range (2 * N + 1), ((omega * u k : ℝ) * Complex.I) ^ m / (m.factorial : ℂ)) -
        ∑ m ∈ range (2 * N + 1), (-((omega * u k : ℝ) * Complex.I)) ^ m / (m.factorial : ℂ)) = 0 := by
    have e : ∀ k ∈ range (N + 1), ((coeff N ((N : ℝ) + delay) k : ℝ) : ℂ) *
      ((∑ m ∈ range (2 * N + 1), ((omega * u k : ℝ) * Complex.I) ^ m / (m.factorial : ℂ)) -
        ∑ m ∈ range (2 * N + 1), (-((omega * u k : ℝ) * Complex.I)) ^ m / (m.factorial : ℂ)) =
      ∑ m ∈ range (2 * N + 1), (omega * Complex.I) ^ m * (1 - (-1) ^ m) / (m.factorial : ℂ) *
        ((coeff N ((N : ℝ) + delay) k * u k ^ m : ℝ) : ℂ) := by
      intro k _
      rw [← sum_sub_distrib, mul_sum]
      refine sum_congr rfl fun m _ => ?_
      rw [neg_pow ((omega * u k : ℝ) * Complex.I)]
      push_cast
      rw [mul_pow, mul_pow, mul_pow]
      ring
    rw [sum_congr rfl e, sum_comm]
    refine sum_eq_zero fun m hm => ?_
    rw [← mul_sum]
    rcases Nat.even_or_odd m with hev | hodd
    · rw [hev.neg_one_pow]
      simp
    · obtain ⟨j, hj⟩ := hodd
      have hmm := mem_range.mp hm
      have hz := moments N delay hd j (by omega)
      rw [← hj] at hz
      rw [← Complex.ofReal_sum, hz]
      simp
  have hbound : ‖∑ k ∈ range (N + 1), ((coeff N ((N : ℝ) + delay) k : ℝ) : ℂ) *
      (Complex.exp ((omega * u k : ℝ) * Complex.I) -
        Complex.exp (-((omega * u k : ℝ) * Complex.I)))‖ ≤ B * |omega| ^ (2 * N + 1) := by
    have hsplit : ∑ k ∈ range (N + 1), ((coeff N ((N : ℝ) + delay) k : ℝ) : ℂ) *
        (Complex.exp ((omega * u k : ℝ) * Complex.I) -
          Complex.exp (-((omega * u k : ℝ) * Complex.I))) =
        ∑ k ∈ range (N + 1), ((coeff N ((N : ℝ) + delay) k : ℝ) : ℂ) *
          ((Complex.exp ((omega * u k : ℝ) * Complex.I) -
            ∑ m ∈ range (2 * N + 1), ((omega * u k : ℝ) * Complex.I) ^ m / (m.factorial : ℂ)) -
          (Complex.exp (-((omega * u k : ℝ) * Complex.I)) -
            ∑ m ∈ range (2 * N + 1), (-((omega * u k : ℝ) * Complex.I)) ^ m / (m.factorial : ℂ))) := by
      rw [← sub_zero (∑ k ∈ range (N + 1), ((coeff N ((N : ℝ) + delay) k : ℝ) : ℂ) *
        (Complex.exp ((omega * u k : ℝ) * Complex.I) -
          Complex.exp (-((omega * u k : ℝ) * Complex.I)))), ← htay, ← sum_sub_distrib]
      exact sum_congr rfl fun k _ => by ring
    rw [hsplit, hB, sum_mul]
    refine (norm_sum_le _ _).trans (sum_le_sum fun k _ => ?_)
    rw [norm_mul, Complex.norm_real, Real.norm_eq_abs, mul_assoc]
    refine mul_le_mul_of_nonneg_left ?_ (abs_nonneg _)
    have hx : ‖((omega * u k : ℝ) : ℂ) * Complex.I‖ = |omega| * u k := by
      rw [norm_mul, Complex.norm_I, mul_one, Complex.norm_real, Real.norm_eq_abs, abs_mul,
        abs_of_nonneg (hupos k)]
    have hexp : ‖((omega * u k : ℝ) : ℂ) * Complex.I‖ ^ (2 * N + 1) *
        Real.exp ‖((omega * u k : ℝ) : ℂ) * Complex.I‖ ≤
        u k ^ (2 * N + 1) * Real.exp (Real.pi * u k) * |omega| ^ (2 * N + 1) := by
      rw [hx, mul_pow]
      have h3 : Real.exp (|omega| * u k) ≤ Real.exp (Real.pi * u k) :=
        Real.exp_le_exp.mpr (mul_le_mul_of_nonneg_right hom (hupos k))
      have h4 : 0 ≤ |omega| ^ (2 * N + 1) * u k ^ (2 * N + 1) :=
        mul_nonneg (pow_nonneg (abs_nonneg _) _) (pow_nonneg (hupos k) _)
      nlinarith [mul_le_mul_of_nonneg_left h3 h4]
    have h5 := Complex.norm_exp_sub_sum_le_norm_mul_exp (((omega * u k : ℝ) : ℂ) * Complex.I)
      (2 * N + 1)
    have h6 := Complex.norm_exp_sub_sum_le_norm_mul_exp (-(((omega * u k : ℝ) : ℂ) * Complex.I))
      (2 * N + 1)
    rw [norm_neg] at h6
    refine (norm_sub_le _ _).trans ?_
    linarith
  have hle : ‖poly a z0‖ ≤ ‖poly a w‖ := hmin (by simpa using hwn.le)
  have hquot : poly b w / poly a w - Complex.exp (-(((order : ℝ) + delay : ℝ) * omega * Complex.I)) =
      (poly b w - Complex.exp (-(((order : ℝ) + delay : ℝ) * omega * Complex.I)) * poly a w) /
        poly a w := by
    field_simp
  have hone : ‖Complex.exp (-((N + delay / 2 : ℝ) * omega * Complex.I))‖ = 1 := by
    rw [show -(((N + delay / 2 : ℝ) : ℂ) * omega * Complex.I) =
      ((-((N + delay / 2) * omega) : ℝ) : ℂ) * Complex.I by push_cast; ring]
    exact Complex.norm_exp_ofReal_mul_I _
  rw [hquot, norm_div, hdiff, norm_mul, hone, one_mul, div_mul_eq_mul_div]
  have hBp : 0 ≤ B * |omega| ^ (2 * N + 1) := (norm_nonneg _).trans hbound
  exact div_le_div₀ hBp hbound hc0 hle

/-- Concrete case: order 1 and half a sample. -/
example : ∃ b a, filter (1 / 2 : ℝ) 1 = .ok (b, a) ∧ ∀ w : ℂ, ‖w‖ ≤ 1 → poly a w ≠ 0 := by
  obtain ⟨b, a, h⟩ := ((C95_accepts (1 / 2 : ℝ) 1).1).mpr ⟨by norm_num, by norm_num, by norm_num⟩
  exact ⟨b, a, h, fun w hw => C95_stable _ _ b a h w hw⟩

example : filter (1 / 2 : ℚ) 1 = .ok ([-1 / 5, 1], [1, -1 / 5]) := by decide +kernel

end Verif.Thiran

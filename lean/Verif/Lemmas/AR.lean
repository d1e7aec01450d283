import Verif.Model.AR
import Mathlib.Algebra.BigOperators.Intervals
import Mathlib.Algebra.BigOperators.Ring.Finset
import Mathlib.Algebra.BigOperators.Field
import Mathlib.Algebra.Order.BigOperators.Ring.Finset
import Mathlib.Data.List.GetD
import Mathlib.Tactic.Ring
import Mathlib.Tactic.Positivity
import Mathlib.Tactic.Linarith
import Mathlib.Tactic.FieldSimp
import Mathlib.Tactic.LinearCombination

/-! Lemmas about the autoregressive estimators. -/

set_option linter.unusedSectionVars false

namespace Verif.AR

variable {K : Type} [Field K] [LinearOrder K]

theorem foldl_sum (f : ℕ → K) (a : K) : ∀ n : ℕ,
    (List.range n).foldl (fun q i => q + f i) a = a + ∑ i ∈ Finset.range n, f i
  | 0 => by simp
  | n + 1 => by
    rw [List.range_succ, List.foldl_append, foldl_sum f a n, Finset.sum_range_succ]
    simp [add_assoc]

/-- The in-place update of the coefficients is a simultaneous one. -/
theorem swap_fold (p : ℕ) (k : K) (ar : ℕ → K) : ∀ t : ℕ, t ≤ (p + 1) / 2 → ∀ j,
    (List.range t).foldl (swapStep p k) ar j =
      if j < p ∧ (j < t ∨ p ≤ j + t) then ar j + k * ar (p - 1 - j) else ar j
  | 0, _, j => by
    rw [if_neg (by omega)]
    rfl
  | t + 1, ht, j => by
    have ih := swap_fold p k ar t (by omega)
    rw [List.range_succ, List.foldl_append]
    simp only [List.foldl_cons, List.foldl_nil]
    set cur := (List.range t).foldl (swapStep p k) ar with hcur
    have h1 : cur t = ar t := by rw [ih t, if_neg (by omega)]
    have h2 : cur (p - t - 1) = ar (p - t - 1) := by
      rw [ih, if_neg (by omega)]
    unfold swapStep
    by_cases hrev : t = p - t - 1
    · rw [if_neg (by simpa using hrev)]
      by_cases hj : j = t
      · subst hj
        rw [Function.update_self, if_pos (by omega), h1, h2]
        have : p - j - 1 = p - 1 - j := by omega
        rw [this]
      · rw [Function.update_of_ne hj, ih j]
        by_cases hc : j < p ∧ (j < t ∨ p ≤ j + t)
        · rw [if_pos hc, if_pos (by omega)]
        · rw [if_neg hc, if_neg (by omega)]
    · rw [if_pos hrev]
      by_cases hj : j = p - t - 1
      · subst hj
        rw [Function.update_self, Function.update_of_ne (by omega), if_pos (by omega), h1, h2]
        have : p - 1 - (p - t - 1) = t := by omega
        rw [this]
      · rw [Function.update_of_ne hj]
        by_cases hj2 : j = t
        · subst hj2
          rw [Function.update_self, if_pos (by omega), h1, h2]
          have : p - j - 1 = p - 1 - j := by omega
          rw [this]
        · rw [Function.update_of_ne hj2, ih j]
          by_cases hc : j < p ∧ (j < t ∨ p ≤ j + t)
          · rw [if_pos hc, if_pos (by omega)]
          · rw [if_neg hc, if_neg (by omega)]

/-- Autocorrelation with lag 0 in front. -/
def lagOf (r0 : K) (c : ℕ → K) : ℕ → K
  | 0 => r0
  | j + 1 => c j

/-- Coefficients with the leading 1. -/
def withOne (ar : ℕ → K) : ℕ → K
  | 0 => 1
  | j + 1 => ar j

/-- `∑ j ≤ p, A_j R_|i - j|` -/
def normalSum (R A : ℕ → K) (p i : ℕ) : K :=
  ∑ j ∈ Finset.range (p + 1), A j * R (max i j - min i j)

/-- Invariant of the recursion after `p` orders. -/
structure Inv (r0 : K) (c : ℕ → K) (p : ℕ) (s : (ℕ → K) × K) : Prop where
  zero : ∀ j, p ≤ j → s.1 j = 0
  normal : ∀ i, 1 ≤ i → i ≤ p → normalSum (lagOf r0 c) (withOne s.1) p i = 0
  error : normalSum (lagOf r0 c) (withOne s.1) p 0 = s.2

theorem inv_init (r0 : K) (c : ℕ → K) : Inv r0 c 0 (fun _ => 0, r0) :=
  ⟨fun _ _ => rfl, fun i h1 h2 => by omega, by simp [normalSum, withOne, lagOf]⟩

/-- The new coefficients as a formula. -/
theorem step_coeff (p : ℕ) (k : K) (ar : ℕ → K) (hz : ∀ j, p ≤ j → ar j = 0) (j : ℕ) :
    newCoeffs p k ar j = if j < p then ar j + k * ar (p - 1 - j) else if j = p then k else 0 := by
  unfold newCoeffs
  by_cases h0 : p = 0
  · rw [if_pos h0]
    by_cases h2 : j = p
    · rw [if_neg (by omega), if_pos h2, h2, Function.update_self]
    · rw [if_neg (by omega), if_neg h2, Function.update_of_ne h2]
      exact hz j (by omega)
  · rw [if_neg h0, swap_fold p k _ _ le_rfl]
    by_cases h1 : j < p
    · rw [if_pos (by omega), if_pos h1, Function.update_of_ne (by omega),
          Function.update_of_ne (by omega)]
    · rw [if_neg (by omega), if_neg h1]
      by_cases h2 : j = p
      · rw [if_pos h2, h2, Function.update_self]
      · rw [if_neg h2, Function.update_of_ne h2]
        exact hz j (by omega)

theorem step_withOne (p : ℕ) (k : K) (ar : ℕ → K) (hz : ∀ j, p ≤ j → ar j = 0) (j : ℕ)
    (hj : j ≤ p + 1) :
    withOne (newCoeffs p k ar) j = withOne ar j + k * withOne ar (p + 1 - j) := by
  cases j with
  | zero =>
    show (1 : K) = 1 + k * ar p
    rw [hz p le_rfl]
    ring
  | succ j =>
    show newCoeffs p k ar j = _
    rw [step_coeff p k ar hz]
    by_cases h1 : j < p
    · rw [if_pos h1]
      have : p + 1 - (j + 1) = (p - 1 - j) + 1 := by omega
      rw [this]
      rfl
    · have hj : j = p := by omega
      subst hj
      rw [if_neg (by omega), if_pos rfl]
      have : j + 1 - (j + 1) = 0 := by omega
      rw [this]
      simp only [withOne]
      rw [hz j le_rfl]
      ring

/-- Sums with the new coefficients. -/
theorem normalSum_step (R : ℕ → K) (p : ℕ) (k : K) (A A' : ℕ → K)
    (hA : A (p + 1) = 0)
    (hA' : ∀ j ≤ p + 1, A' j = A j + k * A (p + 1 - j)) (i : ℕ) (hi : i ≤ p + 1) :
    normalSum R A' (p + 1) i = normalSum R A p i + k * normalSum R A p (p + 1 - i) := by
  unfold normalSum
  have e1 : ∑ j ∈ Finset.range (p + 1 + 1), A' j * R (max i j - min i j) =
      ∑ j ∈ Finset.range (p + 1 + 1), (A j * R (max i j - min i j) +
        k * (A (p + 1 - j) * R (max i j - min i j))) := by
    refine Finset.sum_congr rfl fun j hj => ?_
    have := Finset.mem_range.mp hj
    rw [hA' j (by omega)]
    ring
  rw [e1, Finset.sum_add_distrib, ← Finset.mul_sum]
  congr 1
  · rw [Finset.sum_range_succ, hA, zero_mul, add_zero]
  · congr 1
    rw [← Finset.sum_range_reflect]
    rw [Finset.sum_range_succ]
    have h0 : p + 1 - (p + 1 + 1 - 1 - (p + 1)) = p + 1 := by omega
    rw [h0, hA, zero_mul, add_zero]
    refine Finset.sum_congr rfl fun j hj => ?_
    have := Finset.mem_range.mp hj
    have h1 : p + 1 - (p + 1 + 1 - 1 - j) = j := by omega
    rw [h1]
    congr 2
    omega

theorem reflSum_eq (r0 : K) (c ar : ℕ → K) (p : ℕ) :
    reflSum c ar p = normalSum (lagOf r0 c) (withOne ar) p (p + 1) := by
  unfold reflSum
  rw [foldl_sum]
  unfold normalSum
  rw [Finset.sum_range_succ', add_comm]
  congr 1
  · refine Finset.sum_congr rfl fun j hj => ?_
    have := Finset.mem_range.mp hj
    have h1 : max (p + 1) (j + 1) - min (p + 1) (j + 1) = (p - j - 1) + 1 := by omega
    rw [h1]
    rfl
  · simp [withOne, lagOf]

theorem step_ok_iff (c : ℕ → K) (p : ℕ) (s s' : (ℕ → K) × K) :
    step c s p = .ok s' ↔ s.2 ≠ 0 ∧
      ¬ s.2 * (1 - (-reflSum c s.1 p / s.2) ^ 2) ≤ 0 ∧
      s' = (newCoeffs p (-reflSum c s.1 p / s.2) s.1,
        s.2 * (1 - (-reflSum c s.1 p / s.2) ^ 2)) := by
  unfold step
  by_cases hE : s.2 = 0
  · simp [hE]
  · rw [if_neg hE]
    simp only
    by_cases hE' : s.2 * (1 - (-reflSum c s.1 p / s.2) ^ 2) ≤ 0
    · rw [if_pos hE']
      simp [hE']
    · rw [if_neg hE']
      constructor
      · intro h
        exact ⟨hE, hE', (Except.ok.inj h).symm⟩
      · rintro ⟨-, -, h⟩
        rw [h]

theorem inv_new (r0 : K) (c : ℕ → K) (p : ℕ) (s : (ℕ → K) × K) (hs : Inv r0 c p s)
    (hE : s.2 ≠ 0) :
    Inv r0 c (p + 1) (newCoeffs p (-reflSum c s.1 p / s.2) s.1,
        s.2 * (1 - (-reflSum c s.1 p / s.2) ^ 2)) := by
  set q := reflSum c s.1 p with hq
  set k := -q / s.2 with hk
  have hqval : q = normalSum (lagOf r0 c) (withOne s.1) p (p + 1) := reflSum_eq r0 c s.1 p
  have hkE : k * s.2 = -q := by rw [hk]; field_simp
  have hlast : withOne s.1 (p + 1) = 0 := hs.zero p le_rfl
  have hcoef := step_withOne p k s.1 hs.zero
  refine ⟨?_, ?_, ?_⟩
  · intro j hj
    show newCoeffs p k s.1 j = 0
    rw [step_coeff p k s.1 hs.zero, if_neg (by omega), if_neg (by omega)]
  · intro i h1 h2
    rw [normalSum_step _ p k _ _ hlast hcoef i h2]
    by_cases hi : i = p + 1
    · subst hi
      have h0 : p + 1 - (p + 1) = 0 := by omega
      rw [h0, hs.error, ← hqval, hkE]
      ring
    · rw [hs.normal i h1 (by omega), hs.normal (p + 1 - i) (by omega) (by omega)]
      ring
  · rw [normalSum_step _ p k _ _ hlast hcoef 0 (by omega), hs.error]
    have h0 : p + 1 - 0 = p + 1 := by omega
    rw [h0, ← hqval]
    linear_combination k * hkE

theorem inv_step (r0 : K) (c : ℕ → K) (p : ℕ) (s s' : (ℕ → K) × K) (hs : Inv r0 c p s)
    (h : step c s p = .ok s') :
    Inv r0 c (p + 1) s' ∧ ∃ k : K, s.2 ≠ 0 ∧ s'.2 = s.2 * (1 - k ^ 2) ∧ ¬ s'.2 ≤ 0 := by
  obtain ⟨h1, h2, h3⟩ := (step_ok_iff c p s s').mp h
  subst h3
  exact ⟨inv_new r0 c p s hs h1, _, h1, rfl, h2⟩

theorem loop_succ (c : ℕ → K) (r0 : K) (n : ℕ) :
    loop c r0 (n + 1) = (loop c r0 n).bind fun s => step c s n := by
  unfold loop
  rw [List.range_succ, List.foldlM_append]
  simp only [List.foldlM_cons, List.foldlM_nil]
  cases (List.range n).foldlM (step c) (fun _ => 0, r0) with
  | error e => rfl
  | ok s =>
    show (step c s n >>= pure) = step c s n
    cases step c s n <;> rfl

theorem inv_loop (r0 : K) (c : ℕ → K) : ∀ n s, loop c r0 n = .ok s → Inv r0 c n s
  | 0, s, h => by
    have : s = (fun _ => 0, r0) := (Except.ok.inj h).symm
    subst this
    exact inv_init r0 c
  | n + 1, s, h => by
    rw [loop_succ] at h
    cases hl : loop c r0 n with
    | error e => rw [hl] at h; exact absurd h (by simp [Except.bind])
    | ok s0 =>
      rw [hl] at h
      exact (inv_step r0 c n s0 s (inv_loop r0 c n s0 hl) h).1

theorem step_congr (c c' : ℕ → K) (s : (ℕ → K) × K) (p : ℕ) (h : ∀ j ≤ p, c j = c' j) :
    step c s p = step c' s p := by
  have hr : reflSum c s.1 p = reflSum c' s.1 p := by
    unfold reflSum
    rw [foldl_sum, foldl_sum, h p le_rfl]
    congr 1
    refine Finset.sum_congr rfl fun j hj => ?_
    rw [h _ (by omega)]
  unfold step
  rw [hr]

theorem loop_congr (c c' : ℕ → K) (r0 : K) : ∀ n, (∀ j < n, c j = c' j) →
    loop c r0 n = loop c' r0 n
  | 0, _ => rfl
  | n + 1, h => by
    rw [loop_succ, loop_succ, loop_congr c c' r0 n fun j hj => h j (by omega)]
    congr 1
    funext s
    exact step_congr c c' s n fun j hj => h j (by omega)

/-- Delayed copy of a signal. -/
def delayed (x : List K) (j n : ℕ) : K := if j ≤ n then x.getD (n - j) 0 else 0

theorem corr_sum (x : List K) (m i j : ℕ) (hij : i ≤ j) (hj : j ≤ m) :
    ∑ n ∈ Finset.range (x.length + m), delayed x i n * delayed x j n =
      ∑ n ∈ Finset.range x.length, x.getD n 0 * x.getD (n + (j - i)) 0 := by
  have hsplit : x.length + m = j + (x.length + (m - j)) := by omega
  rw [hsplit, Finset.sum_range_add]
  have h0 : ∑ n ∈ Finset.range j, delayed x i n * delayed x j n = 0 := by
    refine Finset.sum_eq_zero fun n hn => ?_
    have := Finset.mem_range.mp hn
    rw [delayed, delayed, if_neg (by omega : ¬ j ≤ n), mul_zero]
  rw [h0, zero_add, Finset.sum_range_add]
  have h1 : ∑ n ∈ Finset.range (m - j), delayed x i (j + (x.length + n)) *
      delayed x j (j + (x.length + n)) = 0 := by
    refine Finset.sum_eq_zero fun n _ => ?_
    have : delayed x j (j + (x.length + n)) = 0 := by
      rw [delayed, if_pos (by omega)]
      exact List.getD_eq_default _ _ (by omega)
    rw [this, mul_zero]
  rw [h1, add_zero]
  refine Finset.sum_congr rfl fun n _ => ?_
  rw [delayed, delayed, if_pos (by omega), if_pos (by omega)]
  have e1 : j + n - i = n + (j - i) := by omega
  have e2 : j + n - j = n := by omega
  rw [e1, e2, mul_comm]

section Ordered
variable [IsStrictOrderedRing K]

theorem corr_autocorr (x : List K) (hx : x ≠ []) (m i j : ℕ) (hi : i ≤ m) (hj : j ≤ m) :
    ∑ n ∈ Finset.range (x.length + m), delayed x i n * delayed x j n =
      x.length * autocorr x (max i j - min i j) := by
  have hN : (x.length : K) ≠ 0 := by
    have : x.length ≠ 0 := by simpa using hx
    exact_mod_cast this
  have hval : (x.length : K) * autocorr x (max i j - min i j) =
      ∑ n ∈ Finset.range x.length, x.getD n 0 * x.getD (n + (max i j - min i j)) 0 := by
    unfold autocorr
    field_simp
  rw [hval]
  rcases le_total i j with h | h
  · rw [corr_sum x m i j h hj, max_eq_right h, min_eq_left h]
  · rw [max_eq_left h, min_eq_right h, ← corr_sum x m j i h hi]
    exact Finset.sum_congr rfl fun n _ => mul_comm _ _

/-- The quadratic form of the autocorrelation is the energy of the filtered signal. -/
theorem quad_form (x : List K) (hx : x ≠ []) (m : ℕ) (A : ℕ → K) :
    ∑ n ∈ Finset.range (x.length + m), (∑ j ∈ Finset.range (m + 1), A j * delayed x j n) ^ 2 =
      x.length * ∑ i ∈ Finset.range (m + 1), A i * normalSum (autocorr x) A m i := by
  have e1 : ∀ n, (∑ j ∈ Finset.range (m + 1), A j * delayed x j n) ^ 2 =
      ∑ i ∈ Finset.range (m + 1), ∑ j ∈ Finset.range (m + 1),
        A i * A j * (delayed x i n * delayed x j n) := by
    intro n
    rw [sq, Finset.sum_mul_sum]
    refine Finset.sum_congr rfl fun i _ => Finset.sum_congr rfl fun j _ => by ring
  simp only [e1]
  rw [Finset.sum_comm, Finset.mul_sum]
  refine Finset.sum_congr rfl fun i hi => ?_
  rw [Finset.sum_comm]
  unfold normalSum
  rw [Finset.mul_sum, Finset.mul_sum]
  refine Finset.sum_congr rfl fun j hj => ?_
  have hi' := Finset.mem_range.mp hi
  have hj' := Finset.mem_range.mp hj
  rw [← Finset.mul_sum, corr_autocorr x hx m i j (by omega) (by omega)]
  ring

/-- A filter with leading coefficient 1 does not map a signal with a non-zero sample to
silence. -/
theorem filtered_pos (x : List K) (hx : ∃ n, x.getD n 0 ≠ 0) (m : ℕ) (A : ℕ → K)
    (hA : A 0 = 1) :
    0 < ∑ n ∈ Finset.range (x.length + m),
      (∑ j ∈ Finset.range (m + 1), A j * delayed x j n) ^ 2 := by
  classical
  have hmin := Nat.find_spec hx
  have hlt : ∀ n < Nat.find hx, x.getD n 0 = 0 := fun n hn => by
    have := Nat.find_min hx hn
    simpa using this
  generalize Nat.find hx = n0 at hmin hlt
  have hn0 : n0 < x.length := by
    by_contra h
    exact hmin (List.getD_eq_default _ _ (by omega))
  refine Finset.sum_pos' (fun n _ => sq_nonneg _) ⟨n0, Finset.mem_range.mpr (by omega), ?_⟩
  rw [Finset.sum_range_succ']
  have h0 : ∑ j ∈ Finset.range m, A (j + 1) * delayed x (j + 1) n0 = 0 := by
    refine Finset.sum_eq_zero fun j _ => ?_
    have : delayed x (j + 1) n0 = 0 := by
      unfold delayed
      split_ifs with h
      · exact hlt _ (by omega)
      · rfl
    rw [this, mul_zero]
  rw [h0, zero_add, hA, one_mul]
  have : delayed x 0 n0 = x.getD n0 0 := by simp [delayed]
  rw [this]
  positivity

end Ordered

end Verif.AR

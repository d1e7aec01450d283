import Verif.Lemmas.DFT
import Mathlib.Analysis.Complex.Basic
import Mathlib.Tactic.FieldSimp
import Mathlib.Tactic.LinearCombination

/-! Parseval's theorem for the transforms of `Model/DFT`. -/

namespace Verif.DFT

open Finset Complex

theorem parseval (N : ℕ) (hN : N ≠ 0) (x : ℕ → ℂ) :
    ∑ k ∈ range N, ‖dft N x k‖ ^ 2 = N * ∑ n ∈ range N, ‖x n‖ ^ 2 := by
  have h1 : ∀ k : ℕ, ((‖dft N x k‖ ^ 2 : ℝ) : ℂ) =
      ∑ n ∈ range N, ∑ m ∈ range N, x n * (starRingEnd ℂ) (x m) * e N (k * ((m : ℤ) - n)) := by
    intro k
    have : ((‖dft N x k‖ ^ 2 : ℝ) : ℂ) = dft N x k * (starRingEnd ℂ) (dft N x k) := by
      rw [Complex.mul_conj, Complex.normSq_eq_norm_sq]
    rw [this]
    unfold dft
    rw [map_sum, Finset.sum_mul_sum]
    refine Finset.sum_congr rfl fun n _ => Finset.sum_congr rfl fun m _ => ?_
    rw [map_mul, e_conj]
    have : (k : ℤ) * ((m : ℤ) - n) = -(k * n) + -(-(k * m)) := by ring
    rw [this, e_add]
    ring
  have h2 : ((∑ k ∈ range N, ‖dft N x k‖ ^ 2 : ℝ) : ℂ) =
      ((N * ∑ n ∈ range N, ‖x n‖ ^ 2 : ℝ) : ℂ) := by
    rw [Complex.ofReal_sum]
    simp_rw [h1]
    rw [Finset.sum_comm]
    have h3 : ∀ n ∈ range N, ∑ k ∈ range N, ∑ m ∈ range N,
        x n * (starRingEnd ℂ) (x m) * e N (k * ((m : ℤ) - n)) = N * ((‖x n‖ ^ 2 : ℝ) : ℂ) := by
      intro n hn
      rw [Finset.sum_comm]
      have h4 : ∀ m ∈ range N, ∑ k ∈ range N,
          x n * (starRingEnd ℂ) (x m) * e N (k * ((m : ℤ) - n)) =
          if m = n then N * ((‖x n‖ ^ 2 : ℝ) : ℂ) else 0 := by
        intro m hm
        rw [← Finset.mul_sum, sum_e N hN]
        have hn' := Finset.mem_range.mp hn
        have hm' := Finset.mem_range.mp hm
        by_cases hmn : m = n
        · subst hmn
          rw [if_pos (by simp), if_pos rfl, Complex.mul_conj, Complex.normSq_eq_norm_sq]
          ring
        · rw [if_neg, if_neg hmn, mul_zero]
          intro hd
          obtain ⟨c, hc⟩ := hd
          have hlt : (N : ℤ) * c < N * 1 := by omega
          have hgt : (N : ℤ) * (-1) < N * c := by omega
          have hNp : (0 : ℤ) < N := by omega
          have c1 : c < 1 := lt_of_mul_lt_mul_left hlt hNp.le
          have c2 : -1 < c := lt_of_mul_lt_mul_left hgt hNp.le
          have : c = 0 := by omega
          subst this
          omega
      rw [Finset.sum_congr rfl h4, Finset.sum_ite_eq' (range N) n, if_pos hn]
    rw [Finset.sum_congr rfl h3, ← Finset.mul_sum]
    push_cast
    rfl
  exact_mod_cast h2

/-- A symmetric sequence summed over one side. -/
theorem one_sided (N : ℕ) (hN : N ≠ 0) (g : ℕ → ℝ) (hg : ∀ k ≤ N, g (N - k) = g k) :
    ∑ k ∈ range N, g k =
      2 * ∑ k ∈ range (rfftBins N), g k - g 0 - (if N % 2 = 0 then g (N / 2) else 0) := by
  unfold rfftBins
  rcases Nat.even_or_odd' N with ⟨m, rfl | rfl⟩
  · have hm : m ≠ 0 := by omega
    have h1 : 2 * m / 2 = m := by omega
    rw [if_pos (by omega), h1]
    have h2 : 2 * m = m + 1 + (m - 1) := by omega
    have h3 : ∑ k ∈ range (m - 1), g (m + 1 + k) = ∑ k ∈ range (m - 1), g (k + 1) := by
      rw [← Finset.sum_range_reflect]
      refine Finset.sum_congr rfl fun k hk => ?_
      have := Finset.mem_range.mp hk
      have h4 : m + 1 + (m - 1 - 1 - k) = 2 * m - (k + 1) := by omega
      rw [h4, hg _ (by omega)]
    have h5 : ∑ k ∈ range (m + 1), g k = g 0 + ∑ k ∈ range (m - 1), g (k + 1) + g m := by
      rw [Finset.sum_range_succ]
      congr 1
      obtain ⟨m', rfl⟩ := Nat.exists_eq_succ_of_ne_zero hm
      rw [Nat.succ_eq_add_one, Finset.sum_range_succ', add_comm]
      rfl
    have h6 : ∑ k ∈ range (2 * m), g k = ∑ k ∈ range (m + 1), g k +
        ∑ k ∈ range (m - 1), g (m + 1 + k) := by
      conv_lhs => rw [h2]
      rw [Finset.sum_range_add]
    rw [h6, h3]
    linarith
  · have h1 : (2 * m + 1) / 2 = m := by omega
    rw [if_neg (by omega), h1]
    have h2 : 2 * m + 1 = m + 1 + m := by omega
    have h3 : ∑ k ∈ range m, g (m + 1 + k) = ∑ k ∈ range m, g (k + 1) := by
      rw [← Finset.sum_range_reflect]
      refine Finset.sum_congr rfl fun k hk => ?_
      have := Finset.mem_range.mp hk
      have h4 : m + 1 + (m - 1 - k) = 2 * m + 1 - (k + 1) := by omega
      rw [h4, hg _ (by omega)]
    have h5 : ∑ k ∈ range (m + 1), g k = g 0 + ∑ k ∈ range m, g (k + 1) := by
      rw [Finset.sum_range_succ', add_comm]
    have h6 : ∑ k ∈ range (2 * m + 1), g k = ∑ k ∈ range (m + 1), g k +
        ∑ k ∈ range m, g (m + 1 + k) := by
      conv_lhs => rw [h2]
      rw [Finset.sum_range_add]
    rw [h6, h3]
    linarith

end Verif.DFT

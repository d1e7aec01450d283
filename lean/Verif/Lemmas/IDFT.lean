import Verif.Model.Transforms
import Verif.Lemmas.DFT
import Mathlib.Tactic.FieldSimp

/-! The inverse discrete Fourier transform. -/

namespace Verif.Transforms

open Complex Finset DFT

theorem dvd_sub_iff (N : ℕ) (a b : ℕ) (ha : a < N) (hb : b < N) :
    (N : ℤ) ∣ ((a : ℤ) - b) ↔ a = b := by
  constructor
  · rintro ⟨c, hc⟩
    have hNp : (0 : ℤ) < N := by omega
    have c1 : c < 1 := lt_of_mul_lt_mul_left (by omega : (N : ℤ) * c < N * 1) hNp.le
    have c2 : -1 < c := lt_of_mul_lt_mul_left (by omega : (N : ℤ) * (-1) < N * c) hNp.le
    have : c = 0 := by omega
    subst this
    omega
  · rintro rfl
    simp

/-- `ifft(fft(x)) = x` -/
theorem ifft_dft (N : ℕ) (x : ℕ → ℂ) (j : ℕ) (hj : j < N) : ifft N (dft N x) j = x j := by
  have hN : N ≠ 0 := by omega
  have hN' : (N : ℂ) ≠ 0 := by exact_mod_cast hN
  unfold ifft dft
  simp_rw [Finset.sum_mul]
  rw [Finset.sum_comm, Finset.sum_div, Finset.sum_eq_single j]
  · have : ∀ k ∈ range N, x j * e N (-((k : ℤ) * j)) * e N (k * j) = x j := by
      intro k _
      rw [mul_assoc, ← e_add, neg_add_cancel, e_zero, mul_one]
    rw [Finset.sum_congr rfl this]
    simp [hN']
  · intro n hn hne
    have : ∀ k ∈ range N, x n * e N (-((k : ℤ) * n)) * e N (k * j)
        = x n * e N (k * ((j : ℤ) - n)) := by
      intro k _
      rw [mul_assoc, ← e_add]
      congr 2
      ring
    rw [Finset.sum_congr rfl this, ← Finset.mul_sum, sum_e N hN, if_neg]
    · simp
    · rw [dvd_sub_iff N j n hj (Finset.mem_range.1 hn)]
      exact fun h => hne h.symm
  · intro h
    exact absurd (Finset.mem_range.2 hj) h

/-- `fft(ifft(X)) = X` -/
theorem dft_ifft (N : ℕ) (X : ℕ → ℂ) (k : ℕ) (hk : k < N) : dft N (ifft N X) k = X k := by
  have hN : N ≠ 0 := by omega
  have hN' : (N : ℂ) ≠ 0 := by exact_mod_cast hN
  unfold ifft dft
  have : ∀ n ∈ range N, (∑ i ∈ range N, X i * e N (i * n)) / N * e N (-((k : ℤ) * n))
      = ∑ i ∈ range N, X i / N * e N (n * ((i : ℤ) - k)) := by
    intro n _
    rw [Finset.sum_div, Finset.sum_mul]
    refine Finset.sum_congr rfl fun i _ => ?_
    have : (n : ℤ) * ((i : ℤ) - k) = i * n + -(k * n) := by ring
    rw [this, e_add]
    ring
  rw [Finset.sum_congr rfl this, Finset.sum_comm, Finset.sum_eq_single k]
  · rw [← Finset.mul_sum, sum_e N hN, if_pos (by simp)]
    field_simp
  · intro i hi hne
    rw [← Finset.mul_sum, sum_e N hN, if_neg, mul_zero]
    rw [dvd_sub_iff N i k (Finset.mem_range.1 hi) hk]
    exact hne
  · intro h
    exact absurd (Finset.mem_range.2 hk) h

theorem ifft_congr (N : ℕ) (X Y : ℕ → ℂ) (h : ∀ k < N, X k = Y k) (j : ℕ) :
    ifft N X j = ifft N Y j := by
  unfold ifft
  congr 1
  exact Finset.sum_congr rfl fun k hk => by rw [h k (Finset.mem_range.1 hk)]

theorem ifft_add (N : ℕ) (X Y : ℕ → ℂ) (j : ℕ) :
    ifft N (fun k => X k + Y k) j = ifft N X j + ifft N Y j := by
  unfold ifft
  rw [← add_div, ← Finset.sum_add_distrib]
  congr 1
  exact Finset.sum_congr rfl fun k _ => by ring

theorem ifft_mul (N : ℕ) (a : ℂ) (X : ℕ → ℂ) (j : ℕ) :
    ifft N (fun k => a * X k) j = a * ifft N X j := by
  unfold ifft
  rw [← mul_div_assoc, Finset.mul_sum]
  congr 1
  exact Finset.sum_congr rfl fun k _ => by ring

/-- The mirrored bin. -/
def mirror (N k : ℕ) : ℕ := if k = 0 then 0 else N - k

theorem sum_mirror (N : ℕ) {M : Type} [AddCommMonoid M] (f : ℕ → M) :
    ∑ k ∈ range N, f (mirror N k) = ∑ k ∈ range N, f k := by
  obtain _ | N := N
  · simp
  · rw [Finset.sum_range_succ', Finset.sum_range_succ' f]
    congr 1
    rw [← Finset.sum_range_reflect]
    refine Finset.sum_congr rfl fun k hk => ?_
    have := Finset.mem_range.1 hk
    congr 1
    unfold mirror
    rw [if_neg (by omega)]
    omega

/-- The conjugate of an inverse transform is the inverse transform of the mirrored conjugate. -/
theorem conj_ifft (N : ℕ) (X : ℕ → ℂ) (j : ℕ) :
    (starRingEnd ℂ) (ifft N X j) = ifft N (fun k => (starRingEnd ℂ) (X (mirror N k))) j := by
  unfold ifft
  rw [map_div₀, map_sum, ← sum_mirror]
  congr 1
  · refine Finset.sum_congr rfl fun k hk => ?_
    have hk' := Finset.mem_range.1 hk
    rw [map_mul, e_conj]
    congr 1
    unfold mirror
    split
    · rename_i h
      subst h
      simp
    · have hN : N ≠ 0 := by omega
      have : (-(((N - k : ℕ) : ℤ) * j)) = k * j + N * (-j) := by
        rw [Nat.cast_sub hk'.le]
        ring
      rw [this, e_period N hN]
  · simp

end Verif.Transforms

import Verif.Model.DFT
import Mathlib.Algebra.BigOperators.Ring.Finset
import Mathlib.Algebra.BigOperators.Field
import Mathlib.Algebra.Field.GeomSum
import Mathlib.Analysis.SpecialFunctions.Complex.Log
import Mathlib.Tactic.Ring
import Mathlib.Tactic.FieldSimp
import Mathlib.Tactic.Push

/-!
# Facts about the discrete Fourier transform
-/

namespace Verif.DFT

open Complex Finset

theorem e_zero (N : ℕ) : e N 0 = 1 := by simp [e]

theorem e_add (N : ℕ) (a b : ℤ) : e N (a + b) = e N a * e N b := by
  unfold e
  rw [← Complex.exp_add]
  congr 1
  push_cast
  ring

theorem e_mul_nat (N : ℕ) (d : ℤ) (k : ℕ) : e N (k * d) = e N d ^ k := by
  induction k with
  | zero => simp [e_zero]
  | succ k ih =>
    have : ((k + 1 : ℕ) : ℤ) * d = k * d + d := by push_cast; ring
    rw [this, e_add, ih, pow_succ]

theorem e_eq_one_iff (N : ℕ) (hN : N ≠ 0) (d : ℤ) : e N d = 1 ↔ (N : ℤ) ∣ d := by
  unfold e
  rw [Complex.exp_eq_one_iff]
  have hN' : (N : ℂ) ≠ 0 := by exact_mod_cast hN
  have hpi : (2 * Real.pi * I : ℂ) ≠ 0 := Complex.two_pi_I_ne_zero
  constructor
  · rintro ⟨n, hn⟩
    refine ⟨n, ?_⟩
    have h1 : (2 * Real.pi * I : ℂ) * (d / N) = (2 * Real.pi * I) * n := by rw [hn]; ring
    have h2 := mul_left_cancel₀ hpi h1
    rw [div_eq_iff hN'] at h2
    have h3 : (d : ℂ) = ((N * n : ℤ) : ℂ) := by rw [h2]; push_cast; ring
    exact_mod_cast h3
  · rintro ⟨n, rfl⟩
    refine ⟨n, ?_⟩
    push_cast
    field_simp

theorem e_conj (N : ℕ) (d : ℤ) : (starRingEnd ℂ) (e N d) = e N (-d) := by
  unfold e
  rw [← Complex.exp_conj]
  congr 1
  simp [Complex.conj_ofNat]
  ring

theorem e_period (N : ℕ) (hN : N ≠ 0) (d m : ℤ) : e N (d + N * m) = e N d := by
  rw [e_add, (e_eq_one_iff N hN (N * m)).2 ⟨m, rfl⟩, mul_one]

/-- Orthogonality. -/
theorem sum_e (N : ℕ) (hN : N ≠ 0) (d : ℤ) :
    ∑ k ∈ range N, e N (k * d) = if (N : ℤ) ∣ d then (N : ℂ) else 0 := by
  simp_rw [e_mul_nat]
  split
  · rename_i h
    rw [(e_eq_one_iff N hN d).2 h]
    simp
  · rename_i h
    have h1 : e N d ≠ 1 := fun h' => h ((e_eq_one_iff N hN d).1 h')
    rw [geom_sum_eq h1, ← e_mul_nat]
    have : e N (N * d) = 1 := (e_eq_one_iff N hN _).2 ⟨d, rfl⟩
    rw [this, sub_self, zero_div]

/-- Product of two transforms, transformed back: circular convolution. -/
theorem idft_mul (N : ℕ) (hN : N ≠ 0) (x h : ℕ → ℂ) (j : ℕ) :
    (∑ k ∈ range N, dft N x k * dft N h k * e N (k * j)) / N
      = ∑ m ∈ range N, h m * x ((j + N - m) % N) := by
  have hN' : (N : ℂ) ≠ 0 := by exact_mod_cast hN
  have h1 : ∀ k : ℕ, dft N x k * dft N h k * e N (k * j)
      = ∑ m ∈ range N, ∑ n ∈ range N, h m * x n * e N (k * ((j : ℤ) - m - n)) := by
    intro k
    unfold dft
    rw [Finset.sum_mul_sum, Finset.sum_comm, Finset.sum_mul]
    refine Finset.sum_congr rfl fun m _ => ?_
    rw [Finset.sum_mul]
    refine Finset.sum_congr rfl fun n _ => ?_
    have : (k : ℤ) * ((j : ℤ) - m - n) = -(k * n) + (-(k * m) + k * j) := by ring
    rw [this, e_add, e_add]
    ring
  simp_rw [h1]
  rw [Finset.sum_comm, Finset.sum_div]
  refine Finset.sum_congr rfl fun m hm => ?_
  rw [Finset.sum_comm, Finset.sum_div]
  have hm' := Finset.mem_range.1 hm
  rw [Finset.sum_eq_single ((j + N - m) % N)]
  · rw [← Finset.mul_sum, sum_e N hN, if_pos]
    · field_simp
    · have h2 := Nat.div_add_mod (j + N - m) N
      refine ⟨((j + N - m) / N : ℕ) - 1, ?_⟩
      have h3 : ((j + N - m : ℕ) : ℤ) = j + N - m := by omega
      have h4 : (N : ℤ) * ((j + N - m) / N : ℕ) + ((j + N - m) % N : ℕ) = j + N - m := by
        rw [← h3]; exact_mod_cast h2
      rw [mul_sub]
      omega
  · intro n hn hne
    rw [← Finset.mul_sum, sum_e N hN, if_neg]
    · simp
    · rintro ⟨q, hq⟩
      apply hne
      have hn' := Finset.mem_range.1 hn
      have h3 : ((j + N - m : ℕ) : ℤ) = j + N - m := by omega
      have h5 : ((j + N - m : ℕ) : ℤ) = n + N * (q + 1) := by rw [h3, mul_add]; omega
      have h6 : (((j + N - m) % N : ℕ) : ℤ) = n := by
        rw [Int.natCast_emod, h5, Int.add_mul_emod_self_left]
        exact Int.emod_eq_of_lt (by omega) (by omega)
      omega
  · intro h
    exact absurd (Finset.mem_range.2 (Nat.mod_lt _ (Nat.pos_of_ne_zero hN))) h

/-- Transform of a real signal: mirrored conjugate. -/
theorem rfft_mirror (N : ℕ) (hN : N ≠ 0) (x : ℕ → ℝ) (k : ℕ) (hk : k ≤ N) :
    rfft N x (N - k) = (starRingEnd ℂ) (rfft N x k) := by
  unfold rfft dft
  rw [map_sum]
  refine Finset.sum_congr rfl fun n _ => ?_
  rw [map_mul, e_conj, Complex.conj_ofReal]
  congr 1
  have : (-(((N - k : ℕ) : ℤ) * n)) = - -(k * n) + N * (-n) := by
    rw [Nat.cast_sub hk]; ring
  rw [this, e_period N hN]

theorem herm_of_mirror (n : ℕ) (he : Even n) (Y : ℕ → ℂ)
    (hY0 : (starRingEnd ℂ) (Y 0) = Y 0)
    (hY : ∀ k ≤ n, Y (n - k) = (starRingEnd ℂ) (Y k)) (k : ℕ) (hk : k < n) :
    herm n Y k = Y k := by
  obtain ⟨m, hm⟩ := he
  unfold herm
  split
  · rename_i h
    subst h
    exact Complex.conj_eq_iff_re.1 hY0
  · split
    · rfl
    · split
      · rename_i h1 h2 h3
        refine Complex.conj_eq_iff_re.1 ?_
        rw [← hY k hk.le]
        congr 1
        omega
      · have := hY (n - k) (by omega)
        rw [← this]
        congr 1
        omega

theorem rfft_zero_conj (N : ℕ) (x : ℕ → ℝ) : (starRingEnd ℂ) (rfft N x 0) = rfft N x 0 := by
  unfold rfft dft
  rw [map_sum]
  refine Finset.sum_congr rfl fun n _ => ?_
  rw [map_mul, e_conj, Complex.conj_ofReal]
  simp [e_zero]

/-- `irfft(rfft(x) * rfft(h))` is the circular convolution, for even length. -/
theorem irfft_mul (N : ℕ) (hN : N ≠ 0) (he : Even N) (x h : ℕ → ℝ) (j : ℕ) :
    irfft N (fun k => rfft N x k * rfft N h k) j
      = ∑ m ∈ range N, h m * x ((j + N - m) % N) := by
  unfold irfft
  have : ∀ k ∈ range N, herm N (fun k => rfft N x k * rfft N h k) k * e N (k * j)
      = rfft N x k * rfft N h k * e N (k * j) := by
    intro k hk
    rw [herm_of_mirror N he _ _ _ k (Finset.mem_range.1 hk)]
    · simp only [map_mul, rfft_zero_conj]
    · intro k hk
      simp only [map_mul, rfft_mirror N hN _ k hk]
  rw [Finset.sum_congr rfl this]
  unfold rfft
  rw [idft_mul N hN _ _ j]
  norm_cast

theorem irfft_sum (n : ℕ) {ι : Type} (s : Finset ι) (X : ι → ℕ → ℂ) (j : ℕ) :
    irfft n (fun k => ∑ i ∈ s, X i k) j = ∑ i ∈ s, irfft n (X i) j := by
  unfold irfft
  have hh : ∀ k, herm n (fun k => ∑ i ∈ s, X i k) k = ∑ i ∈ s, herm n (X i) k := by
    intro k
    unfold herm
    split
    · simp
    · split
      · rfl
      · split <;> simp
  simp_rw [hh, Finset.sum_mul]
  rw [Finset.sum_comm, Finset.sum_div, Complex.re_sum]

end Verif.DFT

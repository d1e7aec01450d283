import Verif.Lemmas.IDFT
import Mathlib.Tactic.FieldSimp
import Mathlib.Tactic.Linarith

/-!
# C68: the transform at arbitrary frequencies

`transforms.dft` evaluates the Fourier transform of the samples at each requested frequency, agrees
with the FFT at its bins, and knows nothing about the length of the signal.
-/

namespace Verif.Props.C68

open Complex Finset DFT Transforms

/-- The Fourier transform of the first `N` samples at the frequency `f` for the sampling rate
`fs`: the sample of number `n` is taken at the time `n / fs`. -/
noncomputable def fourier (N fs : ℕ) (x : ℕ → ℝ) (f : ℝ) : ℂ :=
  ∑ n ∈ range N, (x n : ℂ) * exp (-(2 * Real.pi * f * (n / fs : ℝ) : ℝ) * I)

/-- The result is the Fourier transform, for every length, sampling rate and frequency. -/
theorem C68_definition (N fs : ℕ) (x : ℕ → ℝ) (f : ℝ) : dftAt N fs x f = fourier N fs x f := by
  unfold dftAt fourier
  refine Finset.sum_congr rfl fun n hn => ?_
  have hN : (N : ℂ) ≠ 0 := by
    have := Finset.mem_range.1 hn
    exact_mod_cast (by omega : N ≠ 0)
  rw [mul_comm]
  congr 2
  push_cast
  field_simp

/-- At the frequencies of an FFT of length `M ≥ N` (zero padding), the result is the bin of that
FFT; `M = N` is the FFT of the signal itself. -/
theorem C68_fft_bins (N M fs : ℕ) (hM : 0 < M) (hNM : N ≤ M) (hfs : 0 < fs) (x : ℕ → ℝ)
    (hx : ∀ n, N ≤ n → x n = 0) (k : ℕ) :
    dftAt N fs x (k * (fs / M)) = rfft M x k := by
  rw [C68_definition]
  unfold fourier rfft dft
  have hM' : (M : ℂ) ≠ 0 := by exact_mod_cast hM.ne'
  have hf' : (fs : ℂ) ≠ 0 := by exact_mod_cast hfs.ne'
  rw [← Finset.sum_subset (Finset.range_subset_range.2 hNM)]
  · refine Finset.sum_congr rfl fun n _ => ?_
    dsimp only
    congr 1
    unfold e
    congr 1
    push_cast
    field_simp
  · intro n _ hn
    have : N ≤ n := by simpa using hn
    simp [hx n this]

/-- Padding with zeros does not change the result. -/
theorem C68_zero_padding (N M fs : ℕ) (hNM : N ≤ M) (x : ℕ → ℝ) (hx : ∀ n, N ≤ n → x n = 0)
    (f : ℝ) : dftAt M fs x f = dftAt N fs x f := by
  rw [C68_definition, C68_definition]
  unfold fourier
  symm
  refine Finset.sum_subset (Finset.range_subset_range.2 hNM) fun n _ hn => ?_
  have : N ≤ n := by simpa using hn
  simp [hx n this]

/-- Negative frequencies have the conjugate value. -/
theorem C68_negative (N fs : ℕ) (x : ℕ → ℝ) (f : ℝ) :
    dftAt N fs x (-f) = (starRingEnd ℂ) (dftAt N fs x f) := by
  rw [C68_definition, C68_definition]
  unfold fourier
  rw [map_sum]
  refine Finset.sum_congr rfl fun n _ => ?_
  rw [map_mul, Complex.conj_ofReal, ← Complex.exp_conj]
  congr 2
  rw [map_mul, map_neg, Complex.conj_ofReal, Complex.conj_I]
  push_cast
  ring

/-- The result is periodic with the sampling rate. -/
theorem C68_periodic (N fs : ℕ) (hfs : 0 < fs) (x : ℕ → ℝ) (f : ℝ) (m : ℤ) :
    dftAt N fs x (f + m * fs) = dftAt N fs x f := by
  rw [C68_definition, C68_definition]
  unfold fourier
  have hf' : (fs : ℂ) ≠ 0 := by exact_mod_cast hfs.ne'
  refine Finset.sum_congr rfl fun n _ => ?_
  congr 1
  rw [Complex.exp_eq_exp_iff_exists_int]
  refine ⟨-(m * n), ?_⟩
  push_cast
  field_simp
  ring

/-- Delaying a signal by `d` samples multiplies by the phase of this delay. -/
theorem C68_delay (N d fs : ℕ) (x : ℕ → ℝ) (f : ℝ) :
    dftAt (N + d) fs (fun n => if n < d then 0 else x (n - d)) f
      = exp (-(2 * Real.pi * f * (d / fs : ℝ) : ℝ) * I) * dftAt N fs x f := by
  rw [C68_definition, C68_definition]
  unfold fourier
  rw [add_comm N d, Finset.sum_range_add, Finset.sum_eq_zero, zero_add, Finset.mul_sum]
  · refine Finset.sum_congr rfl fun n _ => ?_
    dsimp only
    rw [if_neg (by omega), Nat.add_sub_cancel_left]
    rw [mul_left_comm, ← Complex.exp_add]
    congr 2
    push_cast
    ring
  · intro n hn
    dsimp only
    rw [if_pos (Finset.mem_range.1 hn)]
    simp

/-- Linear in the signal. -/
theorem C68_linear (N fs : ℕ) (x y : ℕ → ℝ) (a b f : ℝ) :
    dftAt N fs (fun n => a * x n + b * y n) f = a * dftAt N fs x f + b * dftAt N fs y f := by
  unfold dftAt
  rw [Finset.mul_sum, Finset.mul_sum, ← Finset.sum_add_distrib]
  refine Finset.sum_congr rfl fun n _ => ?_
  push_cast
  ring

/-- The hypotheses on the length and the sampling rate are met. -/
example : (0 : ℕ) < 16 ∧ 10 ≤ 16 ∧ 0 < 48000 ∧
    ∀ n, 10 ≤ n → (fun n : ℕ => if n < 10 then (1 : ℝ) else 0) n = 0 :=
  ⟨by norm_num, by norm_num, by norm_num, fun n hn => if_neg (by omega)⟩

end Verif.Props.C68

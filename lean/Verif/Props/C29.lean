import Verif.Model.Scaling
import Verif.Lemmas.Parseval
import Mathlib.Tactic.Positivity

/-!
# C29: the power spectral density integrates to the power of the signal

`rfft` is the documented formula, arithmetic is exact.
-/

namespace Verif.Scaling

open Finset Verif.DFT

theorem two_rpow_half_sq : ((2 : ℝ) ^ (0.5 : ℝ)) ^ 2 = 2 := by
  rw [← Real.rpow_natCast, ← Real.rpow_mul (by norm_num)]
  norm_num

theorem rpow_half_sq (y : ℝ) (hy : 0 ≤ y) : (y ^ (0.5 : ℝ)) ^ 2 = y := by
  rw [← Real.rpow_natCast, ← Real.rpow_mul hy]
  norm_num

/-- The halved bins. -/
noncomputable def weight (N k : ℕ) : ℝ :=
  if k = 0 ∨ (N % 2 = 0 ∧ k = N / 2) then 1 / 2 else 1

/-- The value of a bin after scaling: for every scaling and every bin. -/
theorem scaleSpectrum_value (N : ℕ) (hN : N ≠ 0) (X : ℕ → ℂ) (s : Scaling) (fs : ℕ)
    (w : Option (List ℝ)) :
    ∃ Y, scaleSpectrum (rfftBins N) X s N fs w = .ok Y ∧
      ∀ k < rfftBins N,
        (s.isAmplitude = true → ‖Y k‖ ^ 2 = weight N k * ‖X k‖ ^ 2 * (factor s N fs w) ^ 2) ∧
        (s.isAmplitude = false → Y k = (weight N k * ‖X k‖ ^ 2 * factor s N fs w : ℝ)) := by
  unfold scaleSpectrum
  have hbins : N = (rfftBins N - 1) * 2 ∨ N = rfftBins N * 2 - 1 := by
    unfold rfftBins
    omega
  rw [if_pos hbins]
  refine ⟨_, rfl, fun k hk => ?_⟩
  have hlast : rfftBins N - 1 = N / 2 := by unfold rfftBins; omega
  have h2 : ‖(((2 : ℝ) ^ (0.5 : ℝ) : ℝ) : ℂ)‖ ^ 2 = 2 := by
    rw [Complex.norm_real, Real.norm_eq_abs, sq_abs, two_rpow_half_sq]
  have key : ‖edgeFix (rfftBins N) X N k‖ ^ 2 = weight N k * ‖X k‖ ^ 2 := by
    unfold edgeFix weight
    rw [hlast]
    by_cases hk0 : k = 0
    · have hne : ¬ (N % 2 = 0 ∧ k = N / 2) := by omega
      simp only [if_neg hne, if_pos hk0, if_pos (Or.inl hk0 : k = 0 ∨ (N % 2 = 0 ∧ k = N / 2))]
      rw [norm_div, div_pow, h2]
      ring
    · by_cases hkl : N % 2 = 0 ∧ k = N / 2
      · simp only [if_pos hkl, if_neg hk0,
          if_pos (Or.inr hkl : k = 0 ∨ (N % 2 = 0 ∧ k = N / 2))]
        rw [norm_div, div_pow, h2]
        ring
      · have hno : ¬ (k = 0 ∨ (N % 2 = 0 ∧ k = N / 2)) := by
          rintro (h | h)
          · exact hk0 h
          · exact hkl h
        simp only [if_neg hkl, if_neg hk0, if_neg hno]
        ring
  constructor
  · intro hs
    rw [if_pos hs, norm_mul, mul_pow, key, Complex.norm_real, Real.norm_eq_abs, sq_abs]
  · intro hs
    rw [hs, if_neg (by simp), key]
    push_cast
    rfl

/-- Weighted one-sided energy of a spectrum. -/
theorem weighted_parseval (N : ℕ) (hN : N ≠ 0) (x : ℕ → ℝ) :
    ∑ k ∈ range (rfftBins N), weight N k * ‖rfft N x k‖ ^ 2 =
      N / 2 * ∑ n ∈ range N, x n ^ 2 := by
  have hp := parseval N hN (fun n => (x n : ℂ))
  have ho := one_sided N hN (fun k => ‖rfft N x k‖ ^ 2) (fun k hk => by
    rw [rfft_mirror N hN x k hk, Complex.norm_conj])
  have hx : ∀ n, ‖(x n : ℂ)‖ ^ 2 = x n ^ 2 := fun n => by
    rw [Complex.norm_real, Real.norm_eq_abs, sq_abs]
  simp_rw [hx] at hp
  have hsum : ∑ k ∈ range (rfftBins N), weight N k * ‖rfft N x k‖ ^ 2 =
      ∑ k ∈ range (rfftBins N), ‖rfft N x k‖ ^ 2 - 1 / 2 * ‖rfft N x 0‖ ^ 2 -
        (if N % 2 = 0 then 1 / 2 * ‖rfft N x (N / 2)‖ ^ 2 else 0) := by
    have h1 : ∀ k ∈ range (rfftBins N), weight N k * ‖rfft N x k‖ ^ 2 =
        ‖rfft N x k‖ ^ 2 - (if k = 0 then 1 / 2 * ‖rfft N x 0‖ ^ 2 else 0) -
          (if k = N / 2 then (if N % 2 = 0 then 1 / 2 * ‖rfft N x (N / 2)‖ ^ 2 else 0) else 0) := by
      intro k hk
      unfold weight
      by_cases hk0 : k = 0
      · subst hk0
        rw [if_pos (Or.inl rfl), if_pos rfl]
        by_cases h2 : 0 = N / 2
        · rw [if_pos h2, if_neg (by omega)]
          ring
        · rw [if_neg h2]
          ring
      · rw [if_neg hk0]
        by_cases h2 : k = N / 2
        · subst h2
          rw [if_pos rfl]
          by_cases he : N % 2 = 0
          · rw [if_pos he, if_pos (Or.inr ⟨he, rfl⟩)]
            ring
          · rw [if_neg he, if_neg (by omega)]
            ring
        · rw [if_neg h2, if_neg (by omega)]
          ring
    rw [Finset.sum_congr rfl h1, Finset.sum_sub_distrib, Finset.sum_sub_distrib,
      Finset.sum_ite_eq' _ 0, Finset.sum_ite_eq' _ (N / 2), if_pos, if_pos]
    · simp [rfftBins]
    · simp [rfftBins]
  rw [hsum]
  change ∑ k ∈ range N, ‖rfft N x k‖ ^ 2 = _ at hp
  rw [ho] at hp
  by_cases he : N % 2 = 0
  · rw [if_pos he] at hp ⊢
    linarith
  · rw [if_neg he] at hp ⊢
    linarith

/-- A spectrum is scaled exactly if the given time length fits to its number of bins: `M` bins
belong to `2 M - 2` or `2 M - 1` samples; any other length is rejected. -/
theorem C29_length_checked (M : ℕ) (hM : 0 < M) (X : ℕ → ℂ) (s : Scaling) (N fs : ℕ)
    (w : Option (List ℝ)) :
    (rfftBins N = M → ∃ Y, scaleSpectrum M X s N fs w = .ok Y) ∧
    (rfftBins N ≠ M → scaleSpectrum M X s N fs w = .error .assertionError) := by
  unfold scaleSpectrum rfftBins
  constructor
  · intro h
    exact ⟨_, if_pos (by omega)⟩
  · intro h
    exact if_neg (by omega)

/-- The one-sided power spectral density of a real signal of `N` samples (no window),
summed over its bins and multiplied by the bin width `fs / N`, is the mean squared value of
the signal; `N` may be even or odd. -/
theorem C29_psd_integrates_to_power (N fs : ℕ) (hN : N ≠ 0) (hfs : fs ≠ 0) (x : ℕ → ℝ) :
    ∃ P : ℕ → ℝ, scaleSpectrum (rfftBins N) (rfft N x) .powDensity N fs none =
        .ok (fun k => (P k : ℂ)) ∧
      ∑ k ∈ range (N / 2 + 1), P k * ((fs : ℝ) / N) = (∑ n ∈ range N, x n ^ 2) / N := by
  obtain ⟨Y, hY, hval⟩ := scaleSpectrum_value N hN (rfft N x) .powDensity fs none
  have hreal : ∀ k, Y k = ((Y k).re : ℂ) := by
    intro k
    unfold scaleSpectrum at hY
    rw [if_pos (by unfold rfftBins; omega)] at hY
    have hY' := (Except.ok.inj hY).symm
    have h1 : Y k = ((‖edgeFix (rfftBins N) (rfft N x) N k‖ ^ 2 *
        factor .powDensity N fs none : ℝ) : ℂ) := by
      rw [hY', Complex.ofReal_mul]
      rfl
    rw [h1, Complex.ofReal_re]
  refine ⟨fun k => (Y k).re, ?_, ?_⟩
  · rw [hY]
    congr 1
    funext k
    exact hreal k
  · have hN' : (N : ℝ) ≠ 0 := by exact_mod_cast hN
    have hfs' : (fs : ℝ) ≠ 0 := by exact_mod_cast hfs
    have hf : factor .powDensity N fs none = 2 / N / fs := by
      simp only [factor, Scaling.isDensity, Scaling.isAmplitude, if_true, Bool.false_eq_true,
        if_false]
      rw [show ((2 : ℝ)) = ((2 : ℕ) : ℝ) by norm_num, Real.rpow_natCast]
      exact rpow_half_sq _ (by positivity)
    have h1 : ∀ k ∈ range (rfftBins N), (Y k).re * ((fs : ℝ) / N) =
        2 / N ^ 2 * (weight N k * ‖rfft N x k‖ ^ 2) := by
      intro k hk
      rw [(hval k (Finset.mem_range.mp hk)).2 rfl, Complex.ofReal_re, hf]
      field_simp
    change ∑ k ∈ range (rfftBins N), _ = _
    rw [Finset.sum_congr rfl h1, ← Finset.mul_sum, weighted_parseval N hN]
    field_simp

/-- With a window: the energy of the windowed signal `x` over the energy of the window. -/
theorem C29_psd_windowed (N fs : ℕ) (hN : N ≠ 0) (hfs : fs ≠ 0) (x : ℕ → ℝ) (w : List ℝ)
    (hw : 0 < (w.map (· ^ 2)).sum) :
    ∃ Y : ℕ → ℂ, scaleSpectrum (rfftBins N) (rfft N x) .powDensity N fs (some w) = .ok Y ∧
      ∑ k ∈ range (N / 2 + 1), (Y k).re * ((fs : ℝ) / N) =
        (∑ n ∈ range N, x n ^ 2) / (w.map (· ^ 2)).sum := by
  obtain ⟨Y, hY, hval⟩ := scaleSpectrum_value N hN (rfft N x) .powDensity fs (some w)
  refine ⟨Y, hY, ?_⟩
  have hN' : (N : ℝ) ≠ 0 := by exact_mod_cast hN
  have hfs' : (fs : ℝ) ≠ 0 := by exact_mod_cast hfs
  have hf : factor .powDensity N fs (some w) = 2 / (w.map (· ^ 2)).sum / fs := by
    simp only [factor, Scaling.isDensity, Scaling.isAmplitude, if_true, Bool.false_eq_true,
      if_false]
    rw [show (((2 : ℝ) / (w.map (· ^ 2)).sum / fs) ^ (0.5 : ℝ)) ^ (2 : ℝ) =
      (((2 : ℝ) / (w.map (· ^ 2)).sum / fs) ^ (0.5 : ℝ)) ^ 2 by
        rw [← Real.rpow_natCast]; norm_num]
    exact rpow_half_sq _ (by positivity)
  have h1 : ∀ k ∈ range (rfftBins N), (Y k).re * ((fs : ℝ) / N) =
      2 / (N * (w.map (· ^ 2)).sum) * (weight N k * ‖rfft N x k‖ ^ 2) := by
    intro k hk
    rw [(hval k (Finset.mem_range.mp hk)).2 rfl, Complex.ofReal_re, hf]
    field_simp
  change ∑ k ∈ range (rfftBins N), _ = _
  rw [Finset.sum_congr rfl h1, ← Finset.mul_sum, weighted_parseval N hN]
  field_simp

/-- The amplitude spectral density is the square root of the power spectral density. -/
theorem C29_asd_squared_integrates (N fs : ℕ) (hN : N ≠ 0) (hfs : fs ≠ 0) (x : ℕ → ℝ) :
    ∃ Y : ℕ → ℂ, scaleSpectrum (rfftBins N) (rfft N x) .ampDensity N fs none = .ok Y ∧
      ∑ k ∈ range (N / 2 + 1), ‖Y k‖ ^ 2 * ((fs : ℝ) / N) = (∑ n ∈ range N, x n ^ 2) / N := by
  obtain ⟨Y, hY, hval⟩ := scaleSpectrum_value N hN (rfft N x) .ampDensity fs none
  refine ⟨Y, hY, ?_⟩
  have hN' : (N : ℝ) ≠ 0 := by exact_mod_cast hN
  have hfs' : (fs : ℝ) ≠ 0 := by exact_mod_cast hfs
  have hf : (factor .ampDensity N fs none) ^ 2 = 2 / N / fs := by
    simp only [factor, Scaling.isDensity, Scaling.isAmplitude, if_true]
    exact rpow_half_sq _ (by positivity)
  have h1 : ∀ k ∈ range (rfftBins N), ‖Y k‖ ^ 2 * ((fs : ℝ) / N) =
      2 / N ^ 2 * (weight N k * ‖rfft N x k‖ ^ 2) := by
    intro k hk
    rw [(hval k (Finset.mem_range.mp hk)).1 rfl, hf]
    field_simp
  change ∑ k ∈ range (rfftBins N), _ = _
  rw [Finset.sum_congr rfl h1, ← Finset.mul_sum, weighted_parseval N hN]
  field_simp

/-- The power spectrum of a signal sums to its mean squared value as well. -/
theorem C29_power_spectrum_sums (N fs : ℕ) (hN : N ≠ 0) (x : ℕ → ℝ) :
    ∃ Y : ℕ → ℂ, scaleSpectrum (rfftBins N) (rfft N x) .powSpectrum N fs none = .ok Y ∧
      ∑ k ∈ range (N / 2 + 1), (Y k).re = (∑ n ∈ range N, x n ^ 2) / N := by
  obtain ⟨Y, hY, hval⟩ := scaleSpectrum_value N hN (rfft N x) .powSpectrum fs none
  refine ⟨Y, hY, ?_⟩
  have hN' : (N : ℝ) ≠ 0 := by exact_mod_cast hN
  have hf : factor .powSpectrum N fs none = 2 / N ^ 2 := by
    simp only [factor, Scaling.isDensity, Scaling.isAmplitude, Bool.false_eq_true, if_false]
    rw [show ((2 : ℝ) ^ (0.5 : ℝ) / N) ^ (2 : ℝ) = ((2 : ℝ) ^ (0.5 : ℝ) / N) ^ 2 by
      rw [← Real.rpow_natCast]; norm_num]
    rw [div_pow, two_rpow_half_sq]
  have h1 : ∀ k ∈ range (rfftBins N), (Y k).re =
      2 / N ^ 2 * (weight N k * ‖rfft N x k‖ ^ 2) := by
    intro k hk
    rw [(hval k (Finset.mem_range.mp hk)).2 rfl, Complex.ofReal_re, hf]
    ring
  change ∑ k ∈ range (rfftBins N), _ = _
  rw [Finset.sum_congr rfl h1, ← Finset.mul_sum, weighted_parseval N hN]
  field_simp

theorem rfft_cosine (N k : ℕ) (hk : 0 < k) (hkN : 2 * k < N) (A φ : ℝ) :
    rfft N (fun n => A * Real.cos (2 * Real.pi * k * n / N + φ)) k =
      A / 2 * N * Complex.exp (φ * Complex.I) := by
  have hN : N ≠ 0 := by omega
  have hN' : (N : ℂ) ≠ 0 := by exact_mod_cast hN
  have hterm : ∀ n : ℕ, ((A * Real.cos (2 * Real.pi * k * n / N + φ) : ℝ) : ℂ) * e N (-(k * n)) =
      A / 2 * Complex.exp (φ * Complex.I) +
        A / 2 * Complex.exp (-(φ * Complex.I)) * e N (n * (-(2 * k : ℤ))) := by
    intro n
    have h1 : ((A * Real.cos (2 * Real.pi * k * n / N + φ) : ℝ) : ℂ) =
        A / 2 * (e N (k * n) * Complex.exp (φ * Complex.I) +
          e N (-(k * n)) * Complex.exp (-(φ * Complex.I))) := by
      push_cast
      rw [Complex.cos, e, e, ← Complex.exp_add, ← Complex.exp_add]
      have e1 : (2 * (Real.pi : ℂ) * k * n / N + φ) * Complex.I =
          2 * Real.pi * Complex.I * ((((k : ℤ) * (n : ℤ) : ℤ) : ℂ) / N) + φ * Complex.I := by
        push_cast
        ring
      have e2 : -(2 * (Real.pi : ℂ) * k * n / N + φ) * Complex.I =
          2 * Real.pi * Complex.I * (((-((k : ℤ) * (n : ℤ)) : ℤ) : ℂ) / N) +
            -(φ * Complex.I) := by
        push_cast
        ring
      rw [e1, e2]
      ring
    rw [h1]
    have h2 : e N (k * n) * e N (-(k * n)) = 1 := by
      rw [← e_add]
      simp [e_zero]
    have h3 : e N (-(k * n)) * e N (-(k * n)) = e N (n * (-(2 * k : ℤ))) := by
      rw [← e_add]
      congr 1
      ring
    linear_combination (A / 2 * Complex.exp (φ * Complex.I)) * h2 +
      (A / 2 * Complex.exp (-(φ * Complex.I))) * h3
  unfold rfft dft
  rw [Finset.sum_congr rfl fun n _ => hterm n, Finset.sum_add_distrib,
    ← Finset.mul_sum (range N) (fun n : ℕ => e N (n * (-(2 * k : ℤ)))), sum_e N hN, if_neg]
  · simp
    ring
  · intro hd
    rw [dvd_neg] at hd
    have h4 : N ∣ 2 * k := by exact_mod_cast hd
    have := Nat.le_of_dvd (by omega) h4
    omega

/-- The amplitude spectrum shows the RMS value of each frequency: a cosine of amplitude `A`
that completes `k` periods has the value `|A| / √2` in bin `k`. -/
theorem C29_amplitude_spectrum_is_rms (N k fs : ℕ) (hk : 0 < k) (hkN : 2 * k < N) (A φ : ℝ) :
    ∃ Y : ℕ → ℂ, scaleSpectrum (rfftBins N)
        (rfft N fun n => A * Real.cos (2 * Real.pi * k * n / N + φ)) .ampSpectrum N fs none = .ok Y ∧
      ‖Y k‖ = |A| / Real.sqrt 2 := by
  have hN : N ≠ 0 := by omega
  obtain ⟨Y, hY, hval⟩ := scaleSpectrum_value N hN
    (rfft N fun n => A * Real.cos (2 * Real.pi * k * n / N + φ)) .ampSpectrum fs none
  refine ⟨Y, hY, ?_⟩
  have h1 := (hval k (by unfold rfftBins; omega)).1 rfl
  have hw : weight N k = 1 := by
    unfold weight
    rw [if_neg (by omega)]
  have hN' : (N : ℝ) ≠ 0 := by exact_mod_cast hN
  have hnorm : ‖rfft N (fun n => A * Real.cos (2 * Real.pi * k * n / N + φ)) k‖ = |A| / 2 * N := by
    rw [rfft_cosine N k hk hkN, norm_mul, Complex.norm_exp_ofReal_mul_I, mul_one]
    have : ((A : ℂ) / 2 * N) = ((A / 2 * N : ℝ) : ℂ) := by push_cast; rfl
    rw [this, Complex.norm_real, Real.norm_eq_abs, abs_mul, abs_div, abs_of_nonneg
      (by positivity : (0 : ℝ) ≤ N), abs_of_nonneg (by norm_num : (0 : ℝ) ≤ 2)]
  have hf : (factor .ampSpectrum N fs none) ^ 2 = 2 / N ^ 2 := by
    simp only [factor, Scaling.isDensity, Scaling.isAmplitude, if_true, Bool.false_eq_true,
      if_false]
    rw [div_pow, two_rpow_half_sq]
  rw [hw, hnorm, hf] at h1
  have h2 : ‖Y k‖ ^ 2 = (|A| / Real.sqrt 2) ^ 2 := by
    rw [h1, div_pow, Real.sq_sqrt (by norm_num)]
    field_simp
  exact (sq_eq_sq₀ (norm_nonneg _) (by positivity)).mp h2

/-- The default of `get_spectrum` pads the signal of `L` samples to a longer transform length
`N` and scales with `N` (`signal.py`, lines 899-937): whenever `N > L` and the signal is not
silent, the density integrates to less than the power of the signal. -/
theorem C29_padding_loses_power (L N fs : ℕ) (hL : 0 < L) (hLN : L < N) (hfs : fs ≠ 0)
    (x : ℕ → ℝ) (hx : ∀ n, L ≤ n → x n = 0) (hne : ∃ n < L, x n ≠ 0) :
    ∃ P : ℕ → ℝ, scaleSpectrum (rfftBins N) (rfft N x) .powDensity N fs none =
        .ok (fun k => (P k : ℂ)) ∧
      ∑ k ∈ range (N / 2 + 1), P k * ((fs : ℝ) / N) < (∑ n ∈ range L, x n ^ 2) / L := by
  obtain ⟨P, hP, hsum⟩ := C29_psd_integrates_to_power N fs (by omega) hfs x
  refine ⟨P, hP, ?_⟩
  rw [hsum]
  have h1 : ∑ n ∈ range N, x n ^ 2 = ∑ n ∈ range L, x n ^ 2 := by
    have : N = L + (N - L) := by omega
    rw [this, Finset.sum_range_add]
    have h0 : ∑ n ∈ range (N - L), x (L + n) ^ 2 = 0 :=
      Finset.sum_eq_zero fun n _ => by rw [hx _ (by omega)]; ring
    rw [h0, add_zero]
  rw [h1]
  obtain ⟨n0, hn0, hx0⟩ := hne
  have hpos : 0 < ∑ n ∈ range L, x n ^ 2 :=
    Finset.sum_pos' (fun n _ => sq_nonneg _) ⟨n0, Finset.mem_range.mpr hn0, by positivity⟩
  have hL' : (0 : ℝ) < L := by exact_mod_cast hL
  have hLN' : (L : ℝ) < N := by exact_mod_cast hLN
  exact div_lt_div_of_pos_left hpos hL' hLN'

/-- Concrete case: the theorem applies to an odd length. -/
example : ∃ P : ℕ → ℝ, scaleSpectrum (rfftBins 3) (rfft 3 fun n => (n : ℝ)) .powDensity 3 8 none =
      .ok (fun k => (P k : ℂ)) ∧ ∑ k ∈ range (3 / 2 + 1), P k * (((8 : ℕ) : ℝ) / (3 : ℕ)) = 5 / 3 := by
  obtain ⟨P, h1, h2⟩ := C29_psd_integrates_to_power 3 8 (by norm_num) (by norm_num)
    fun n => (n : ℝ)
  refine ⟨P, h1, ?_⟩
  rw [h2]
  norm_num [Finset.sum_range_succ]

end Verif.Scaling

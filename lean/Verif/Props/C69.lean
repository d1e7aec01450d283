import Verif.Lemmas.IDFT
import Verif.Lemmas.SignalData
import Mathlib.Tactic.LinearCombination
import Mathlib.Tactic.Linarith
import Mathlib.Tactic.NormNum

/-!
# C69: cepstra

The signal is recovered from its complex cepstrum; the real cepstrum is real, even and turns
circular convolution into a sum.  The recovered signal is always one of constrained amplitude.
-/

namespace Verif.Props.C69

open Complex Finset DFT Transforms SignalData

/-- No bin of the spectrum vanishes. -/
def NoZeroBin (N : ℕ) (x : ℕ → ℝ) : Prop := ∀ k < N, rfft N x k ≠ 0

/-- A cepstrum exists exactly if no bin vanishes. -/
theorem C69_defined (N : ℕ) (x : ℕ → ℝ) :
    ((complexCepstrum N x).isSome ↔ NoZeroBin N x) ∧
      ((realCepstrum N x).isSome ↔ NoZeroBin N x) := by
  classical
  unfold complexCepstrum realCepstrum NoZeroBin
  by_cases h : ∃ k < N, rfft N x k = 0
  · rw [if_pos h, if_pos h]
    obtain ⟨k, hk, hk'⟩ := h
    refine ⟨⟨fun h => absurd h (by simp), fun h => absurd hk' (h k hk)⟩,
      ⟨fun h => absurd h (by simp), fun h => absurd hk' (h k hk)⟩⟩
  · rw [if_neg h, if_neg h]
    push Not at h
    exact ⟨⟨fun _ => h, fun _ => rfl⟩, ⟨fun _ => h, fun _ => rfl⟩⟩

theorem complexCepstrum_eq (N : ℕ) (x : ℕ → ℝ) (c : ℕ → ℂ) (h : complexCepstrum N x = some c) :
    NoZeroBin N x ∧ c = ifft N fun k => Complex.log (rfft N x k) := by
  have hz := (C69_defined N x).1.1 (by rw [h]; rfl)
  refine ⟨hz, ?_⟩
  unfold complexCepstrum at h
  rw [if_neg] at h
  · exact (Option.some.inj h).symm
  · rintro ⟨k, hk, hk'⟩
    exact hz k hk hk'

theorem realCepstrum_eq (N : ℕ) (x : ℕ → ℝ) (c : ℕ → ℂ) (h : realCepstrum N x = some c) :
    NoZeroBin N x ∧ c = ifft N fun k => ((Real.log ‖rfft N x k‖ : ℝ) : ℂ) := by
  have hz := (C69_defined N x).2.1 (by rw [h]; rfl)
  refine ⟨hz, ?_⟩
  unfold realCepstrum at h
  rw [if_neg] at h
  · exact (Option.some.inj h).symm
  · rintro ⟨k, hk, hk'⟩
    exact hz k hk hk'

/-- The samples computed from the complex cepstrum are the ones of the signal. -/
theorem C69_round_trip (N : ℕ) (x : ℕ → ℝ) (c : ℕ → ℂ) (h : complexCepstrum N x = some c)
    (j : ℕ) (hj : j < N) : cepstrumSamples N c j = x j := by
  obtain ⟨hz, rfl⟩ := complexCepstrum_eq N x c h
  unfold cepstrumSamples
  rw [ifft_congr N _ (rfft N x)]
  · unfold rfft
    rw [ifft_dft N _ j hj, Complex.ofReal_re]
  · intro k hk
    rw [dft_ifft N _ k hk, Complex.exp_log (hz k hk)]

/-- The signal returned by `from_complex_cepstrum` for the cepstra of several channels: it has the
samples of the original if these lie in the range, and never otherwise. -/
theorem C69_signal_partial (N n : ℕ) (hN : 2 ≤ N) (hn : 1 ≤ n) (hnN : n ≤ N) (x : ℕ → ℕ → ℝ)
    (c : ℕ → ℕ → ℂ) (h : ∀ ch < n, complexCepstrum N (x ch) = some (c ch)) :
    ∃ y, fromCepstrum N n c = .ok y ∧ y.HasShape N n ∧ y.constrain = true ∧ 0 < y.scale ∧
      (∀ r < N, ∀ ch < n, y.sample r ch = y.scale * x ch r ∧ |y.sample r ch| ≤ 1) ∧
      ((∀ r < N, ∀ ch < n, |x ch r| ≤ 1) → y.scale = 1) := by
  set w : Input ℝ := ⟨N, n, fun r ch => cepstrumSamples N (c ch) r, none⟩ with hw
  obtain ⟨y, hy, hyc, hysh, hysc, hre, -, -⟩ := setData_scaled
    (⟨⟨0, 0, fun _ _ => 0⟩, none, true, 1⟩ : State ℝ) w hnN (by simp only [hw]; omega) hn
  obtain ⟨pre, -, -⟩ := C14_peak_is_largest w
  have hpos : 0 < y.scale := by
    rw [hysc]
    split
    · rename_i hp
      exact one_div_pos.2 (lt_trans one_pos hp.2)
    · exact one_pos
  have hval : ∀ r < N, ∀ ch < n, w.re r ch = x ch r := fun r hr ch hch =>
    C69_round_trip N (x ch) (c ch) (h ch hch) r hr
  refine ⟨y, hy, hysh, hyc, hpos, fun r hr ch hch => ⟨?_, ?_⟩, fun hall => ?_⟩
  · rw [hre r hr ch hch, hval r hr ch hch]
  · have hp : y.scale * peak w ≤ 1 := by
      rw [hysc]
      split
      · rename_i hp
        rw [one_div, inv_mul_cancel₀ (by linarith [hp.2])]
      · rename_i hp
        have : ¬ 1 < peak w := fun h => hp ⟨rfl, h⟩
        linarith
    rw [hre r hr ch hch, abs_mul, abs_of_pos hpos]
    exact le_trans (mul_le_mul_of_nonneg_left (pre r hr ch hch) hpos.le) hp
  · rw [hysc, if_neg]
    rintro ⟨-, h2⟩
    refine absurd h2 (not_lt.2 (peak_le_one w (fun r hr ch hch => ?_) fun f hf => ?_))
    · rw [hval r hr ch hch]
      exact hall r hr ch hch
    · exact absurd hf (by simp [hw])

/-- The unit impulse, scaled. -/
noncomputable def impulse (a : ℝ) (n : ℕ) : ℝ := if n = 0 then a else 0

theorem rfft_impulse (N : ℕ) (hN : 0 < N) (a : ℝ) (k : ℕ) : rfft N (impulse a) k = a := by
  unfold rfft dft impulse
  rw [Finset.sum_eq_single 0]
  · simp [e_zero]
  · intro n _ hn
    simp [hn]
  · intro h
    exact absurd (Finset.mem_range.2 hN) h

theorem impulse_noZero (N : ℕ) (hN : 0 < N) (a : ℝ) (ha : a ≠ 0) : NoZeroBin N (impulse a) := by
  intro k _
  rw [rfft_impulse N hN]
  exact_mod_cast ha

example : NoZeroBin 4 (impulse 2) := impulse_noZero 4 (by norm_num) 2 (by norm_num)

/-- A signal above full scale does not come back: an impulse of height 2 has a cepstrum, and the
signal computed from it has a height of at most 1. -/
theorem C69_level_lost :
    ∃ c y, complexCepstrum 4 (impulse 2) = some c ∧ fromCepstrum 4 1 (fun _ => c) = .ok y ∧
      impulse 2 0 = 2 ∧ y.sample 0 0 ≤ 1 := by
  have h := (C69_defined 4 (impulse 2)).1.2 (impulse_noZero 4 (by norm_num) 2 (by norm_num))
  obtain ⟨c, hc⟩ := Option.isSome_iff_exists.1 h
  obtain ⟨y, hy, -, -, -, hval, -⟩ := C69_signal_partial 4 1 (by norm_num) le_rfl (by norm_num)
    (fun _ => impulse 2) (fun _ => c) (fun _ _ => hc)
  exact ⟨c, y, hc, hy, by simp [impulse], (abs_le.1 (hval 0 (by norm_num) 0 one_pos).2).2⟩

/-- The real cepstrum is real. -/
theorem C69_real (N : ℕ) (x : ℕ → ℝ) (c : ℕ → ℂ) (h : realCepstrum N x = some c) (j : ℕ) :
    (c j).im = 0 := by
  obtain ⟨hz, rfl⟩ := realCepstrum_eq N x c h
  rw [← Complex.conj_eq_iff_im, conj_ifft]
  refine ifft_congr N _ _ (fun k hk => ?_) j
  rw [Complex.conj_ofReal]
  unfold mirror
  split
  · rename_i h0
    rw [h0]
  · rw [rfft_mirror N (by omega) x k hk.le, RCLike.norm_conj]

/-- The real cepstrum is even. -/
theorem C69_even (N : ℕ) (x : ℕ → ℝ) (c : ℕ → ℂ) (h : realCepstrum N x = some c) (j : ℕ)
    (hj : j ≤ N) (hN : 0 < N) : c (N - j) = c j := by
  obtain ⟨hz, rfl⟩ := realCepstrum_eq N x c h
  unfold ifft
  congr 1
  rw [← sum_mirror]
  refine Finset.sum_congr rfl fun k hk => ?_
  have hk' := Finset.mem_range.1 hk
  have hnorm : ‖rfft N x (mirror N k)‖ = ‖rfft N x k‖ := by
    unfold mirror
    split
    · rename_i h0
      rw [h0]
    · rw [rfft_mirror N (by omega) x k hk'.le, RCLike.norm_conj]
  dsimp only
  rw [hnorm]
  congr 1
  unfold mirror
  split
  · rename_i h0
    subst h0
    simp
  · have : (((N - k : ℕ) : ℤ) * ((N - j : ℕ) : ℤ)) = k * j + N * (N - k - j) := by
      rw [Nat.cast_sub hk'.le, Nat.cast_sub hj]
      ring
    rw [this, e_period N hN.ne']

/-- Circular convolution of two signals of length `N`. -/
noncomputable def circular (N : ℕ) (x h : ℕ → ℝ) (j : ℕ) : ℝ :=
  ∑ m ∈ range N, h m * x ((j + N - m) % N)

theorem rfft_circular (N : ℕ) (x h : ℕ → ℝ) (k : ℕ) (hk : k < N) :
    rfft N (circular N x h) k = rfft N x k * rfft N h k := by
  have hN : N ≠ 0 := by omega
  have h1 : ∀ j < N, ((circular N x h j : ℝ) : ℂ)
      = ifft N (fun k => rfft N x k * rfft N h k) j := by
    intro j _
    unfold ifft rfft
    rw [idft_mul N hN]
    unfold circular
    push_cast
    rfl
  rw [← dft_ifft N (fun k => rfft N x k * rfft N h k) k hk]
  unfold rfft dft
  refine Finset.sum_congr rfl fun n hn => ?_
  dsimp only
  rw [h1 n (Finset.mem_range.1 hn)]
  rfl

/-- Convolution becomes addition in the real cepstrum. -/
theorem C69_convolution (N : ℕ) (x h : ℕ → ℝ) (cx ch : ℕ → ℂ) (hx : realCepstrum N x = some cx)
    (hh : realCepstrum N h = some ch) :
    ∃ c, realCepstrum N (circular N x h) = some c ∧ ∀ j, c j = cx j + ch j := by
  obtain ⟨zx, rfl⟩ := realCepstrum_eq N x cx hx
  obtain ⟨zh, rfl⟩ := realCepstrum_eq N h ch hh
  have hz : NoZeroBin N (circular N x h) := by
    intro k hk
    rw [rfft_circular N x h k hk]
    exact mul_ne_zero (zx k hk) (zh k hk)
  obtain ⟨c, hc⟩ := Option.isSome_iff_exists.1 ((C69_defined N (circular N x h)).2.2 hz)
  refine ⟨c, hc, fun j => ?_⟩
  obtain ⟨-, rfl⟩ := realCepstrum_eq N _ c hc
  rw [← ifft_add]
  refine ifft_congr N _ _ (fun k hk => ?_) j
  rw [rfft_circular N x h k hk, norm_mul,
    Real.log_mul (norm_ne_zero_iff.2 (zx k hk)) (norm_ne_zero_iff.2 (zh k hk))]
  push_cast
  ring

/-- The complex cepstrum does not turn convolution into addition, because of the principal value
of the phase: the impulse of height -1, convolved with itself, is the unit impulse. -/
theorem C69_complex_not_additive :
    ∃ c c2, complexCepstrum 2 (impulse (-1)) = some c ∧
      complexCepstrum 2 (circular 2 (impulse (-1)) (impulse (-1))) = some c2 ∧
      c2 0 ≠ c 0 + c 0 := by
  have z1 := impulse_noZero 2 (by norm_num) (-1) (by norm_num)
  have z2 : NoZeroBin 2 (circular 2 (impulse (-1)) (impulse (-1))) := by
    intro k hk
    rw [rfft_circular 2 _ _ k hk]
    exact mul_ne_zero (z1 k hk) (z1 k hk)
  obtain ⟨c, hc⟩ := Option.isSome_iff_exists.1 ((C69_defined 2 _).1.2 z1)
  obtain ⟨c2, hc2⟩ := Option.isSome_iff_exists.1 ((C69_defined 2 _).1.2 z2)
  refine ⟨c, c2, hc, hc2, ?_⟩
  obtain ⟨-, rfl⟩ := complexCepstrum_eq 2 _ c hc
  obtain ⟨-, rfl⟩ := complexCepstrum_eq 2 _ c2 hc2
  have hlog : Complex.log ((-1 : ℝ) : ℂ) = Real.pi * I := by
    rw [Complex.ofReal_neg, Complex.ofReal_one, Complex.log_neg_one]
  unfold ifft
  simp only [Finset.sum_range_succ, Finset.sum_range_zero, rfft_circular 2 _ _ 0 (by norm_num),
    rfft_circular 2 _ _ 1 (by norm_num), rfft_impulse 2 (by norm_num), hlog]
  have h1 : Complex.log (((-1 : ℝ) : ℂ) * ((-1 : ℝ) : ℂ)) = 0 := by
    have : ((-1 : ℝ) : ℂ) * ((-1 : ℝ) : ℂ) = 1 := by push_cast; ring
    rw [this, Complex.log_one]
  rw [h1]
  simp only [Nat.cast_zero, mul_zero, e_zero]
  have hp : (Real.pi : ℂ) ≠ 0 := by exact_mod_cast Real.pi_ne_zero
  intro h
  have : (Real.pi : ℂ) * I = 0 := by
    push_cast at h
    linear_combination -h / 2
  exact mul_ne_zero hp I_ne_zero this

end Verif.Props.C69

import Verif.Lemmas.IDFT
import Verif.Lemmas.SignalData
import Mathlib.Analysis.SpecialFunctions.Trigonometric.Basic
import Mathlib.Tactic.LinearCombination
import Mathlib.Tactic.Linarith
import Mathlib.Tactic.NormNum
import Mathlib.Analysis.Real.Sqrt

/-!
# C66: the analytic signal

`hilbert` keeps the signal as real part, and the spectrum of the complex signal has no negative
frequencies.  A signal of constrained amplitude is the exception: it may be rescaled.
-/

namespace Verif.Props.C66

open Complex Finset DFT Transforms SignalData

/-- Frequency `k` of a transform of length `N` is negative. -/
def Negative (N k : ℕ) : Prop := N < 2 * k ∧ k < N

/-- Frequency `k` of a transform of length `N` is positive and not the one of Nyquist. -/
def Positive (N k : ℕ) : Prop := 0 < k ∧ 2 * k < N

theorem analyticBin_negative (N : ℕ) (X : ℕ → ℂ) (k : ℕ) (h : Negative N k) :
    analyticBin N X k = 0 := by
  obtain ⟨h1, h2⟩ := h
  unfold analyticBin
  split
  · rw [if_neg (by omega), if_pos (by omega)]
  · rw [if_neg (by omega), if_pos (by omega)]

theorem analyticBin_positive (N : ℕ) (X : ℕ → ℂ) (k : ℕ) (h : Positive N k) :
    analyticBin N X k = 2 * X k := by
  obtain ⟨h1, h2⟩ := h
  unfold analyticBin
  split
  · rw [if_pos (by omega), mul_comm]
  · rw [if_pos (by omega), mul_comm]

theorem analyticBin_other (N : ℕ) (X : ℕ → ℂ) (k : ℕ) (h1 : ¬ Negative N k) (h2 : ¬ Positive N k)
    (hk : k < N) : analyticBin N X k = X k := by
  unfold Negative at h1
  unfold Positive at h2
  unfold analyticBin
  split
  · rw [if_neg (by omega), if_neg (by omega)]
  · rw [if_neg (by omega), if_neg (by omega)]

theorem analyticBin_mirror (N : ℕ) (x : ℕ → ℝ) (k : ℕ) (hk : k < N) :
    analyticBin N (rfft N x) k + (starRingEnd ℂ) (analyticBin N (rfft N x) (mirror N k))
      = 2 * rfft N x k := by
  have hN : N ≠ 0 := by omega
  have h0 := rfft_zero_conj N x
  unfold mirror
  split
  · rename_i h
    subst h
    have : analyticBin N (rfft N x) 0 = rfft N x 0 :=
      analyticBin_other N _ 0 (fun h => by have := h.1; omega) (fun h => by have := h.1; omega) hk
    rw [this, h0]
    ring
  · rename_i h
    have hm := rfft_mirror N hN x k hk.le
    rcases lt_trichotomy (2 * k) N with h1 | h1 | h1
    · rw [analyticBin_positive N _ k ⟨by omega, h1⟩,
        analyticBin_negative N _ (N - k) ⟨by omega, by omega⟩, map_zero]
      ring
    · have h2 : N - k = k := by omega
      rw [h2] at hm ⊢
      rw [analyticBin_other N _ k (fun h => by have := h.1; omega) (fun h => by have := h.2; omega) hk,
        ← hm]
      ring
    · rw [analyticBin_negative N _ k ⟨h1, hk⟩, analyticBin_positive N _ (N - k) ⟨by omega, by omega⟩,
        hm, map_mul, Complex.conj_conj, map_ofNat]
      ring

/-- The real part of the analytic signal is the signal, for every length. -/
theorem C66_real_part (N : ℕ) (x : ℕ → ℝ) (j : ℕ) (hj : j < N) : (analytic N x j).re = x j := by
  have h1 : analytic N x j + (starRingEnd ℂ) (analytic N x j) = 2 * (x j : ℂ) := by
    unfold analytic
    rw [conj_ifft, ← ifft_add]
    have : ifft N (fun k => analyticBin N (rfft N x) k
        + (starRingEnd ℂ) (analyticBin N (rfft N x) (mirror N k))) j
        = ifft N (fun k => 2 * rfft N x k) j :=
      ifft_congr N _ _ (fun k hk => analyticBin_mirror N x k hk) j
    have h2 : ifft N (fun k => 2 * rfft N x k) j = 2 * (x j : ℂ) := by
      rw [ifft_mul]
      congr 1
      exact ifft_dft N _ j hj
    exact this.trans h2
  rw [Complex.add_conj] at h1
  have h3 : (2 * (analytic N x j).re : ℝ) = 2 * x j := by exact_mod_cast h1
  linarith

/-- The spectrum of the analytic signal: nothing at negative frequencies, twice the spectrum of
the signal at positive ones, unchanged at zero and at the frequency of Nyquist. -/
theorem C66_one_sided (N : ℕ) (x : ℕ → ℝ) :
    (∀ k, Negative N k → dft N (analytic N x) k = 0) ∧
    (∀ k, Positive N k → dft N (analytic N x) k = 2 * rfft N x k) ∧
    (∀ k < N, ¬ Negative N k → ¬ Positive N k → dft N (analytic N x) k = rfft N x k) := by
  have h : ∀ k < N, dft N (analytic N x) k = analyticBin N (rfft N x) k := fun k hk => by
    unfold analytic
    exact dft_ifft N _ k hk
  refine ⟨fun k hk => ?_, fun k hk => ?_, fun k hk h1 h2 => ?_⟩
  · rw [h k hk.2, analyticBin_negative N _ k hk]
  · rw [h k (by have := hk.2; omega), analyticBin_positive N _ k hk]
  · rw [h k hk, analyticBin_other N _ k h1 h2 hk]

example : Negative 6 4 ∧ Positive 6 2 ∧ ¬ Negative 6 3 ∧ ¬ Positive 6 3 := by
  unfold Negative Positive; omega

/-- The analytic signal of a cosine at a bin is the complex oscillation: the imaginary part is
the sine and the envelope is constant. -/
theorem C66_cosine (N k : ℕ) (hk : Positive N k) (j : ℕ) (hj : j < N) :
    analytic N (fun n => Real.cos (2 * Real.pi * k * n / N)) j
      = exp (I * (2 * Real.pi * k * j / N : ℝ)) := by
  obtain ⟨hk0, hk2⟩ := hk
  have hN : N ≠ 0 := by omega
  have hN' : (N : ℂ) ≠ 0 := by exact_mod_cast hN
  have hcos : ∀ n : ℕ, ((Real.cos (2 * Real.pi * k * n / N) : ℝ) : ℂ)
      = (e N (n * k) + e N (n * (-k : ℤ))) / 2 := by
    intro n
    rw [Complex.ofReal_cos, Complex.cos]
    unfold e
    congr 2
    · congr 1
      push_cast
      ring
    · congr 1
      push_cast
      ring
  have hbin : ∀ m < N, rfft N (fun n => Real.cos (2 * Real.pi * k * n / N)) m
      = if m = k ∨ m = N - k then (N : ℂ) / 2 else 0 := by
    intro m hm
    unfold rfft dft
    have : ∀ n ∈ range N, ((Real.cos (2 * Real.pi * k * n / N) : ℝ) : ℂ) * e N (-((m : ℤ) * n))
        = e N (n * ((k : ℤ) - m)) / 2 + e N (n * (-(k : ℤ) - m)) / 2 := by
      intro n _
      rw [hcos n]
      have h1 : (n : ℤ) * ((k : ℤ) - m) = n * k + -(m * n) := by ring
      have h2 : (n : ℤ) * (-(k : ℤ) - m) = n * (-(k : ℤ)) + -(m * n) := by ring
      rw [h1, h2, e_add, e_add]
      ring
    rw [Finset.sum_congr rfl this, Finset.sum_add_distrib, ← Finset.sum_div, ← Finset.sum_div,
      sum_e N hN, sum_e N hN]
    have d1 : (N : ℤ) ∣ ((k : ℤ) - m) ↔ m = k := by
      rw [dvd_sub_iff N k m (by omega) hm]
      exact eq_comm
    have d2 : (N : ℤ) ∣ (-(k : ℤ) - m) ↔ m = N - k := by
      have : (-(k : ℤ) - m) = ((N - k : ℕ) : ℤ) - m + N * (-1) := by
        rw [Nat.cast_sub (by omega)]; ring
      rw [this, dvd_add_left (Dvd.intro _ rfl), dvd_sub_iff N (N - k) m (by omega) hm]
      exact eq_comm
    by_cases c1 : m = k
    · rw [if_pos (d1.2 c1), if_neg (fun h => by have := d2.1 h; omega), if_pos (Or.inl c1)]
      ring
    · by_cases c2 : m = N - k
      · rw [if_neg (fun h => c1 (d1.1 h)), if_pos (d2.2 c2), if_pos (Or.inr c2)]
        ring
      · rw [if_neg (fun h => c1 (d1.1 h)), if_neg (fun h => c2 (d2.1 h)), if_neg (by tauto)]
        ring
  unfold analytic
  rw [ifft_congr N _ (fun m => if m = k then (N : ℂ) else 0)]
  · unfold ifft
    dsimp only
    rw [Finset.sum_eq_single k]
    · rw [if_pos rfl, mul_div_assoc, mul_div_cancel₀ _ hN']
      unfold e
      congr 1
      push_cast
      ring
    · intro m _ hm
      rw [if_neg hm, zero_mul]
    · intro h
      exact absurd (Finset.mem_range.2 (by omega)) h
  · intro m hm
    have hb := hbin m hm
    unfold rfft at hb
    unfold analyticBin
    rw [hb]
    by_cases c1 : m = k
    · subst c1
      rw [if_pos (Or.inl rfl), if_pos rfl]
      split
      · rw [if_pos (by omega)]
        ring
      · rw [if_pos (by omega)]
        ring
    · rw [if_neg c1]
      by_cases c2 : m = N - k
      · split
        · rw [if_neg (by omega), if_pos (by omega)]
        · rw [if_neg (by omega), if_pos (by omega)]
      · have h0 : (if m = k ∨ m = N - k then (N : ℂ) / 2 else 0) = 0 := if_neg (by tauto)
        rw [h0]
        simp

example : Positive 8 3 ∧ 5 < 8 := by unfold Positive; omega

/-- The arrays that a signal can hold: at least two samples, not more channels than samples. -/
def Shaped (s : State ℝ) : Prop := 2 ≤ s.re.rows ∧ 1 ≤ s.re.cols ∧ s.re.cols ≤ s.re.rows

/-- The imaginary part that belongs to a channel of a signal. -/
noncomputable def imagPart (s : State ℝ) (r c : ℕ) : ℝ :=
  (analytic s.re.rows (fun n => s.re.val n c) r).im

/-- `hilbert` never fails and keeps the shape.  Up to one common factor for all samples and
channels, the real part of the result is the signal and the imaginary part the one of the analytic
signal.  The factor is 1 unless the amplitude is constrained and the imaginary part leaves the
range. -/
theorem C66_signal_partial (s : State ℝ) (hs : Shaped s) :
    ∃ y, hilbert s = .ok y ∧ y.constrain = s.constrain ∧ y.HasShape s.re.rows s.re.cols ∧
      y.im.isSome = true ∧ 0 < y.scale ∧
      (∀ r < s.re.rows, ∀ c < s.re.cols, y.sample r c = y.scale * s.sample r c ∧
        y.sampleIm r c = y.scale * imagPart s r c) ∧
      (s.constrain = true → ∀ r < s.re.rows, ∀ c < s.re.cols,
        |y.sample r c| ≤ 1 ∧ |y.sampleIm r c| ≤ 1) ∧
      (s.constrain = false → y.scale = 1) ∧
      ((∀ r < s.re.rows, ∀ c < s.re.cols, |s.re.val r c| ≤ 1 ∧ |imagPart s r c| ≤ 1) →
        y.scale = 1) := by
  obtain ⟨h1, h2, h3⟩ := hs
  set w : Input ℝ := ⟨s.re.rows, s.re.cols,
    fun r c => (analytic s.re.rows (fun n => s.re.val n c) r).re,
    some fun r c => imagPart s r c⟩ with hw
  obtain ⟨y, hy, hyc, hysh, hysc, hre, him, hiss⟩ := setData_scaled
    (⟨⟨0, 0, fun _ _ => 0⟩, none, s.constrain, 1⟩ : State ℝ) w h3 (by simp only [hw]; omega) h2
  obtain ⟨pre, pim, -⟩ := C14_peak_is_largest w
  have hpos : 0 < y.scale := by
    rw [hysc]
    split
    · rename_i hp
      exact one_div_pos.2 (lt_trans one_pos hp.2)
    · exact one_pos
  have hsample : ∀ r < s.re.rows, ∀ c < s.re.cols, w.re r c = s.sample r c := by
    intro r hr c hc
    simp only [hw, State.sample, hr, hc, and_self, if_true]
    exact C66_real_part _ _ r hr
  refine ⟨y, hy, hyc, hysh, hiss, hpos, fun r hr c hc => ⟨?_, ?_⟩, fun hcon r hr c hc => ?_,
    fun hcon => ?_, fun hall => ?_⟩
  · rw [hre r hr c hc, hsample r hr c hc]
  · rw [him r hr c hc]
    rfl
  · have hp : y.scale * peak w ≤ 1 := by
      rw [hysc]
      split
      · rename_i hp
        rw [one_div, inv_mul_cancel₀ (by linarith [hp.2])]
      · rename_i hp
        have : ¬ 1 < peak w := fun h => hp ⟨hcon, h⟩
        linarith
    constructor
    · rw [hre r hr c hc, abs_mul, abs_of_pos hpos]
      exact le_trans (mul_le_mul_of_nonneg_left (pre r hr c hc) hpos.le) hp
    · rw [him r hr c hc, abs_mul, abs_of_pos hpos]
      exact le_trans (mul_le_mul_of_nonneg_left (pim _ rfl r hr c hc) hpos.le) hp
  · rw [hysc, if_neg]
    rintro ⟨h, -⟩
    exact absurd (hcon.symm.trans h) (by simp)
  · rw [hysc, if_neg]
    rintro ⟨-, h⟩
    refine absurd h (not_lt.2 (peak_le_one w (fun r hr c hc => ?_) ?_))
    · rw [hsample r hr c hc]
      simp only [State.sample, show r < s.re.rows from hr, show c < s.re.cols from hc, and_self,
        if_true]
      exact (hall r hr c hc).1
    · intro f hf r hr c hc
      have := (Option.some.inj hf).symm
      subst this
      exact (hall r hr c hc).2

/-- A signal of six samples with constrained amplitude. -/
noncomputable def demoSignal : State ℝ :=
  ⟨⟨6, 1, fun r _ => if r = 1 then -1 else if r = 5 then 1 else 0⟩, none, true, 1⟩

example : Shaped demoSignal := by simp [Shaped, demoSignal]

theorem demo_bin (k : ℕ) (x : ℕ → ℝ) (hx : ∀ r, x r = if r = 1 then -1 else if r = 5 then 1 else 0) :
    rfft 6 x k = 2 * I * (Real.sin (k * (Real.pi / 3)) : ℝ) := by
  unfold rfft dft
  simp only [Finset.sum_range_succ, Finset.sum_range_zero, hx]
  norm_num
  have h5 : e 6 (-((k : ℤ) * 5)) = e 6 k := by
    have := e_period 6 (by norm_num) (k : ℤ) (-k)
    rw [← this]
    congr 1
    push_cast
    ring
  rw [h5]
  unfold e
  have a1 : (2 * Real.pi * I * (((-(k : ℤ) : ℤ) : ℂ) / (6 : ℕ)) : ℂ)
      = -(((k * (Real.pi / 3) : ℝ) : ℂ)) * I := by
    push_cast; ring
  have a2 : (2 * Real.pi * I * (((k : ℤ) : ℂ) / (6 : ℕ)) : ℂ)
      = ((k * (Real.pi / 3) : ℝ) : ℂ) * I := by
    push_cast; ring
  rw [a1, a2, ← Complex.ofReal_neg, Complex.exp_mul_I, Complex.exp_mul_I]
  push_cast
  rw [Complex.cos_neg, Complex.sin_neg]
  ring

/-- With constrained amplitude the real part need not be the signal: the imaginary part of this
signal exceeds 1, so everything is scaled down. -/
theorem C66_rescaled :
    ∃ y, hilbert demoSignal = .ok y ∧ demoSignal.sample 5 0 = 1 ∧ y.sample 5 0 < 1 := by
  obtain ⟨y, hy, -, -, -, hpos, hval, hb, -, -⟩ :=
    C66_signal_partial demoSignal (by simp [Shaped, demoSignal])
  have hs : demoSignal.sample 5 0 = 1 := by simp [State.sample, demoSignal]
  refine ⟨y, hy, hs, ?_⟩
  have h5 := (hval 5 (by simp [demoSignal]) 0 (by simp [demoSignal])).1
  have h0 := (hval 0 (by simp [demoSignal]) 0 (by simp [demoSignal])).2
  have hb0 := (hb rfl 0 (by simp [demoSignal]) 0 (by simp [demoSignal])).2
  have him : imagPart demoSignal 0 0 = 2 * √3 / 3 := by
    unfold imagPart analytic ifft
    have hb : ∀ k, dft demoSignal.re.rows (fun n => ((demoSignal.re.val n 0 : ℝ) : ℂ)) k
        = 2 * I * (Real.sin (k * (Real.pi / 3)) : ℝ) := fun k =>
      demo_bin k (fun n => demoSignal.re.val n 0) fun r => rfl
    change ((∑ k ∈ range 6, analyticBin 6 _ k * e 6 (k * (0 : ℕ))) / (6 : ℕ)).im = _
    simp only [Finset.sum_range_succ, Finset.sum_range_zero]
    rw [analyticBin_other 6 _ 0 (by unfold Negative; omega) (by unfold Positive; omega) (by omega),
      analyticBin_positive 6 _ 1 (by unfold Positive; omega),
      analyticBin_positive 6 _ 2 (by unfold Positive; omega),
      analyticBin_other 6 _ 3 (by unfold Negative; omega) (by unfold Positive; omega) (by omega),
      analyticBin_negative 6 _ 4 (by unfold Negative; omega),
      analyticBin_negative 6 _ 5 (by unfold Negative; omega), hb, hb, hb, hb]
    have s1 : Real.sin (((1 : ℕ) : ℝ) * (Real.pi / 3)) = √3 / 2 := by
      rw [Nat.cast_one, one_mul, Real.sin_pi_div_three]
    have s2 : Real.sin (((2 : ℕ) : ℝ) * (Real.pi / 3)) = √3 / 2 := by
      have : ((2 : ℕ) : ℝ) * (Real.pi / 3) = Real.pi - Real.pi / 3 := by push_cast; ring
      rw [this, Real.sin_pi_sub, Real.sin_pi_div_three]
    have s3 : Real.sin (((3 : ℕ) : ℝ) * (Real.pi / 3)) = 0 := by
      have : ((3 : ℕ) : ℝ) * (Real.pi / 3) = Real.pi := by push_cast; ring
      rw [this, Real.sin_pi]
    rw [s1, s2, s3]
    have hz : (2 * (2 * I * ((√3 / 2 : ℝ) : ℂ)) * 1 + 2 * (2 * I * ((√3 / 2 : ℝ) : ℂ)) * 1) / 6
        = ((2 * √3 / 3 : ℝ) : ℂ) * I := by
      push_cast
      ring
    have he : ∀ k : ℕ, e 6 ((k : ℤ) * ((0 : ℕ) : ℤ)) = 1 := fun k => by
      rw [Nat.cast_zero, mul_zero, e_zero]
    simp only [he]
    have : (0 + 2 * I * ((Real.sin (((0 : ℕ) : ℝ) * (Real.pi / 3)) : ℝ) : ℂ) * 1
        + 2 * (2 * I * ((√3 / 2 : ℝ) : ℂ)) * 1 + 2 * (2 * I * ((√3 / 2 : ℝ) : ℂ)) * 1
        + 2 * I * ((0 : ℝ) : ℂ) * 1 + 0 * 1 + 0 * 1) / ((6 : ℕ) : ℂ)
        = ((2 * √3 / 3 : ℝ) : ℂ) * I := by
      rw [← hz]
      simp
    rw [this]
    simp
  have hbig : 1 < imagPart demoSignal 0 0 := by
    rw [him]
    have : (1.6 : ℝ) < √3 := by
      rw [show (1.6 : ℝ) = √(1.6 ^ 2) from (Real.sqrt_sq (by norm_num)).symm]
      exact Real.sqrt_lt_sqrt (by norm_num) (by norm_num)
    linarith
  rw [h5, hs, mul_one]
  rw [h0, abs_of_pos (mul_pos hpos (by linarith))] at hb0
  nlinarith

end Verif.Props.C66

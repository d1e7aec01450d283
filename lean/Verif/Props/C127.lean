import Verif.Lemmas.SpectralSubtraction
import Verif.Lemmas.Peak
import Mathlib.Tactic.LinearCombination

/-!
# C127: spectral subtraction
-/

namespace Verif.Props.C127

open SpectralSubtraction SignalData Framing Complex
open Verif.LFilter (getD_map_range ext_getD)

/-! ## What the effect is meant to do -/

/-- Sample `i` of the signal between twice `W` zeros. -/
def surrounded (x : List ℝ) (W i : ℕ) : ℝ := if W ≤ i ∧ i < W + x.length then x.getD (i - W) 0 else 0

/-- The number of blocks: they begin every `step` samples of the surrounded signal. -/
def blocks (L W step : ℕ) : ℕ := (L + W + W + step - 1) / step

/-- Bins of the windowed block `k`. -/
noncomputable def bins (x w : List ℝ) (step k : ℕ) : ℕ → ℂ :=
  DFT.rfft w.length fun i => surrounded x w.length (k * step + i) * w.getD i 0

/-- Level of the block `k` in dB: the power without the mean. -/
noncomputable def blockLevel (x : List ℝ) (W step k : ℕ) : ℝ :=
  10 * Real.logb 10 (max ((∑ i ∈ Finset.range W, (surrounded x W (k * step + i) -
    (∑ i ∈ Finset.range W, surrounded x W (k * step + i)) / W) ^ 2) / W) Level.tiny)

/-- `Y` is `X` with the same phase and a magnitude that is not larger: `amount` is taken from its power
`expo`, down to zero. -/
def Reduced (expo amount : ℝ) (X Y : ℂ) : Prop :=
  (∃ g : ℝ, 0 ≤ g ∧ g ≤ 1 ∧ Y = g * X) ∧ ‖Y‖ ^ expo = max (‖X‖ ^ expo - amount) 0

/-- Overlapping blocks with the spectra `Y k`, weighted with the window and divided by the sum of the
squared windows (at least `thr`). -/
noncomputable def overlapped (w : List ℝ) (step n : ℕ) (thr : ℝ) (Y : ℕ → ℕ → ℂ) (i : ℕ) : ℝ :=
  (∑ k ∈ Finset.range n, if k * step ≤ i ∧ i < k * step + w.length then
    DFT.irfft w.length (Y k) (i - k * step) * w.getD (i - k * step) 0 else 0) /
    max (∑ k ∈ Finset.range n, if k * step ≤ i ∧ i < k * step + w.length then
      w.getD (i - k * step) 0 ^ 2 else 0) thr

open Classical in
/-- Weighted mean of the magnitudes `A 0 … A k` of the blocks that are noise: with each later block of
noise, the weight of an earlier one is multiplied by `forget`. -/
noncomputable def estimate (forget : ℝ) (noisy : ℕ → Prop) (A : ℕ → ℝ) (k : ℕ) : ℝ :=
  ∑ i ∈ Finset.range (k + 1), if noisy i then
    (1 - forget) * forget ^ ((Finset.range (k + 1)).filter fun m => i < m ∧ noisy m).card * A i else 0

/-- The settings that pass the checks of the setters. -/
structure Valid (s : Settings) : Prop where
  overlap : s.overlap < 100
  forget : 0 < s.forget ∧ s.forget ≤ 1
  factor : 0 < s.factor
  expo : 0 < s.expo

/-! ## Channels -/

theorem frames_facts (x : List ℝ) (W step : ℕ) (hs : 0 < step) :
    ∃ frames, framed (padded x W) W step true = .ok frames ∧ frames.length = blocks x.length W step ∧
      x.length + W + W ≤ frames.length * step ∧
      ∀ k < frames.length, (frames.getD k []).length = W ∧
        ∀ i < W, (frames.getD k []).getD i 0 = surrounded x W (k * step + i) := by
  obtain ⟨frames, hfr, hof, -, hk, hL⟩ := Framing.C21_keep (padded x W) W step hs
  rw [padded_length] at hL hk
  refine ⟨frames, hfr, ?_, hL, fun k hk' => ⟨(hof k hk').1, fun i hi => ?_⟩⟩
  · unfold blocks
    refine le_antisymm ?_ ?_
    · rw [Nat.le_div_iff_mul_le hs]
      by_cases h0 : frames.length = 0
      · rw [h0]; omega
      · have := hk (frames.length - 1) (by omega)
        have h2 : frames.length * step = (frames.length - 1) * step + step := by
          rw [← Nat.succ_mul]; congr 1; omega
        omega
    · rw [← Nat.lt_succ_iff, Nat.div_lt_iff_lt_mul hs, Nat.succ_mul]
      omega
  · rw [(hof k hk').2 i hi, padded_getD]; rfl

theorem frameSpectrum_eq (w frame x : List ℝ) (step k : ℕ)
    (h : ∀ i < w.length, frame.getD i 0 = surrounded x w.length (k * step + i)) :
    frameSpectrum w frame = bins x w step k := by
  funext b
  unfold frameSpectrum bins DFT.rfft DFT.dft
  refine Finset.sum_congr rfl fun n hn => ?_
  simp only [h n (Finset.mem_range.1 hn)]

theorem list_sum_eq (l : List ℝ) (f : ℝ → ℝ) :
    (l.map f).sum = ∑ i ∈ Finset.range l.length, f (l.getD i 0) := by
  induction l with
  | nil => simp
  | cons a l ih => rw [List.map_cons, List.sum_cons, ih, List.length_cons, Finset.sum_range_succ']; simp [add_comm]

theorem levelDb_eq (frame x : List ℝ) (W step k : ℕ) (hl : frame.length = W)
    (h : ∀ i < W, frame.getD i 0 = surrounded x W (k * step + i)) :
    levelDb frame = blockLevel x W step k := by
  have h1 : frame.sum = ∑ i ∈ Finset.range W, surrounded x W (k * step + i) := by
    have := list_sum_eq frame id
    rw [List.map_id, hl] at this
    rw [this]
    exact Finset.sum_congr rfl fun i hi => h i (Finset.mem_range.1 hi)
  unfold levelDb variance blockLevel
  simp only
  rw [list_sum_eq, hl, h1, abs_of_nonneg (div_nonneg (Finset.sum_nonneg fun _ _ => sq_nonneg _) (Nat.cast_nonneg _))]
  congr 3
  congr 1
  exact Finset.sum_congr rfl fun i hi => by rw [h i (Finset.mem_range.1 hi)]

theorem estimate_succ (forget : ℝ) (noisy : ℕ → Prop) (A : ℕ → ℝ) (k : ℕ) [Decidable (noisy (k + 1))] :
    estimate forget noisy A (k + 1) = if noisy (k + 1) then
      estimate forget noisy A k * forget + A (k + 1) * (1 - forget) else estimate forget noisy A k := by
  classical
  unfold estimate
  rw [Finset.sum_range_succ]
  have hlast : ((Finset.range (k + 1 + 1)).filter fun m => k + 1 < m ∧ noisy m).card = 0 := by
    rw [Finset.card_eq_zero, Finset.filter_eq_empty_iff]
    intro m hm h
    have := Finset.mem_range.1 hm
    omega
  rw [hlast, pow_zero, mul_one]
  by_cases hn : noisy (k + 1)
  · rw [if_pos hn, if_pos hn, Finset.sum_mul, mul_comm (1 - forget)]
    congr 1
    refine Finset.sum_congr rfl fun i hi => ?_
    have hi' := Finset.mem_range.1 hi
    by_cases h : noisy i
    · rw [if_pos h, if_pos h]
      have : ((Finset.range (k + 1 + 1)).filter fun m => i < m ∧ noisy m).card =
          ((Finset.range (k + 1)).filter fun m => i < m ∧ noisy m).card + 1 := by
        rw [Finset.range_add_one (n := k + 1), Finset.filter_insert, if_pos ⟨hi', hn⟩,
          Finset.card_insert_of_notMem (by simp)]
      rw [this, pow_succ]
      ring
    · rw [if_neg h, if_neg h, zero_mul]
  · rw [if_neg hn, if_neg hn, add_zero]
    refine Finset.sum_congr rfl fun i hi => ?_
    have : ((Finset.range (k + 1 + 1)).filter fun m => i < m ∧ noisy m).card =
        ((Finset.range (k + 1)).filter fun m => i < m ∧ noisy m).card := by
      rw [Finset.range_add_one (n := k + 1), Finset.filter_insert, if_neg (by tauto)]
    rw [this]

theorem estimate_zero (forget : ℝ) (noisy : ℕ → Prop) (A : ℕ → ℝ) [Decidable (noisy 0)] :
    estimate forget noisy A 0 = if noisy 0 then 0 * forget + A 0 * (1 - forget) else 0 := by
  classical
  unfold estimate
  rw [Finset.sum_range_one]
  have : ((Finset.range (0 + 1)).filter fun m => 0 < m ∧ noisy m).card = 0 := by
    rw [Finset.card_eq_zero, Finset.filter_eq_empty_iff]
    intro m hm h
    have := Finset.mem_range.1 hm
    omega
  rw [this]
  split_ifs <;> ring

theorem noiseAfter_eq (s : Settings) (w x : List ℝ) (step : ℕ) (frames : List (List ℝ))
    (hf : ∀ k < frames.length, (frames.getD k []).length = w.length ∧
      ∀ i < w.length, (frames.getD k []).getD i 0 = surrounded x w.length (k * step + i))
    (k : ℕ) (hk : k < frames.length) (b : ℕ) :
    noiseAfter s w frames (fun _ => 0) k b = estimate s.forget
      (fun i => blockLevel x w.length step i < s.threshold) (fun i => ‖bins x w step i b‖) k := by
  classical
  induction k with
  | zero =>
    rw [estimate_zero, noiseAfter]
    unfold updateNoise
    rw [levelDb_eq _ x _ step 0 (hf 0 hk).1 (hf 0 hk).2, frameSpectrum_eq w _ x step 0 (hf 0 hk).2]
    split_ifs <;> rfl
  | succ k ih =>
    have ih' := ih (by omega)
    rw [estimate_succ, noiseAfter]
    unfold updateNoise
    rw [levelDb_eq _ x _ step (k + 1) (hf _ hk).1 (hf _ hk).2, frameSpectrum_eq w _ x step (k + 1) (hf _ hk).2]
    split_ifs
    · beta_reduce
      rw [ih']
    · exact ih'

theorem tiny_pos : 0 < Level.tiny := by unfold Level.tiny; positivity

theorem tiny_lt : Level.tiny < 1 / 10 ^ 12 := by
  unfold Level.tiny
  have : (2 : ℝ) ^ (-1022 : ℤ) ≤ 2 ^ (-40 : ℤ) := zpow_le_zpow_right₀ (by norm_num) (by norm_num)
  refine lt_of_le_of_lt this ?_
  norm_num

theorem squaredWindows_nonneg (w : List ℝ) (step n i : ℕ) : 0 ≤ squaredWindows w step n i := by
  unfold squaredWindows
  refine Finset.sum_nonneg fun k _ => ?_
  split_ifs
  · positivity
  · exact le_rfl

/-- The adaptive mode: the result is made of the blocks of the signal, from whose spectra the multiple of
an estimate of the noise is subtracted.  Phases are kept and no magnitude grows.  The estimate is a weighted
mean over the blocks below the threshold so far. -/
theorem C127_adaptive (s : Settings) (hv : Valid s) (w x : List ℝ) (hw : 1 < w.length)
    (hs : 0 < stepSize s w.length) :
    ∃ y, adaptiveChannel s w x = .ok y ∧ y.length = x.length ∧ ∃ Y : ℕ → ℕ → ℂ,
      (∀ k < blocks x.length w.length (stepSize s w.length), ∀ b,
        Reduced s.expo (s.factor * estimate s.forget
          (fun i => blockLevel x w.length (stepSize s w.length) i < s.threshold)
          (fun i => ‖bins x w (stepSize s w.length) i b‖) k ^ s.expo)
          (bins x w (stepSize s w.length) k b) (Y k b)) ∧
      ∀ j < x.length, y.getD j 0 = overlapped w (stepSize s w.length)
        (blocks x.length w.length (stepSize s w.length)) (1 / 10 ^ 4) Y (w.length + j) := by
  set step := stepSize s w.length with hstep
  obtain ⟨frames, hfr, hn, hL, hf⟩ := frames_facts x w.length step hs
  have hn0 : 0 < frames.length := by
    by_contra h
    have : frames.length = 0 := by omega
    rw [this] at hL
    omega
  have hlen : (adaptiveFrames s w frames fun _ => 0).length = frames.length := adaptiveFrames_length _ _ _ _
  have hfl : ∀ k < (adaptiveFrames s w frames fun _ => 0).length,
      ((adaptiveFrames s w frames fun _ => 0).getD k []).length = w.length := by
    intro k hk
    rw [adaptiveFrames_getD s w frames _ k (by rw [← hlen]; exact hk), newFrame_length]
  obtain ⟨y, hy, hyl, hyv⟩ := finish_formula (adaptiveFrames s w frames fun _ => 0) w step x.length
    (some (1 / 10 ^ 4)) hfl hw (by rw [hlen]; exact hn0) (by rw [hstep]; exact stepSize_le s _) (by rw [hlen]; exact hL)
    (fun j _ => lt_of_lt_of_le (lt_of_lt_of_le tiny_lt (by norm_num)) (le_max_right _ _))
  refine ⟨y, ?_, hyl, fun k b => subtractBin s.factor s.expo
    (noiseAfter s w frames (fun _ => 0) k b ^ s.expo) (bins x w step k b), ?_, ?_⟩
  · unfold adaptiveChannel
    rw [← hstep, hfr, padded_length]
    simp only
    rw [if_neg (by omega)]
    exact hy
  · intro k hk b
    rw [← hn] at hk
    rw [← noiseAfter_eq s w x step frames hf k hk b]
    have h0 := noiseAfter_nonneg s hv.forget.1.le hv.forget.2 w frames k b
    exact ⟨subtractBin_gain _ _ _ hv.expo (mul_nonneg hv.factor.le (Real.rpow_nonneg h0 _)) _,
      subtractBin_norm _ _ _ hv.expo _⟩
  · intro j hj
    rw [hyv j hj, hlen, ← hn]
    unfold overlapped divisor squaredWindows
    congr 1
    refine Finset.sum_congr rfl fun k hk => ?_
    have hk' := Finset.mem_range.1 hk
    by_cases h : k * step ≤ w.length + j ∧ w.length + j < k * step + w.length
    · rw [if_pos h, if_pos h, adaptiveFrames_getD s w frames _ k hk', newFrame_getD _ _ _ _ _ (by omega),
        frameSpectrum_eq w _ x step k (hf k hk').2]
    · rw [if_neg h, if_neg h]

/-- The estimate of the noise is never above the largest magnitude among the blocks of noise. -/
theorem C127_estimate_bounded (forget : ℝ) (h0 : 0 ≤ forget) (h1 : forget ≤ 1) (noisy : ℕ → Prop)
    (A : ℕ → ℝ) (k : ℕ) (M : ℝ) (hM : 0 ≤ M) (hA : ∀ i ≤ k, 0 ≤ A i ∧ (noisy i → A i ≤ M)) :
    0 ≤ estimate forget noisy A k ∧ estimate forget noisy A k ≤ M := by
  classical
  induction k with
  | zero =>
    rw [estimate_zero]
    obtain ⟨a0, a1⟩ := hA 0 le_rfl
    split_ifs with h
    · have := a1 h
      constructor
      · nlinarith
      · nlinarith
    · exact ⟨le_rfl, hM⟩
  | succ k ih =>
    obtain ⟨i0, i1⟩ := ih fun i hi => hA i (by omega)
    obtain ⟨a0, a1⟩ := hA (k + 1) le_rfl
    rw [estimate_succ]
    split_ifs with h
    · have := a1 h
      constructor
      · exact add_nonneg (mul_nonneg i0 h0) (mul_nonneg a0 (by linarith))
      · nlinarith
    · exact ⟨i0, i1⟩

/-- Nothing is subtracted: reconstruction of the channel. -/
theorem overlapped_bins (w x : List ℝ) (step n : ℕ) (hw : Even w.length) (thr : ℝ) (i : ℕ)
    (h : thr ≤ squaredWindows w step n i) (h0 : squaredWindows w step n i ≠ 0) (Y : ℕ → ℕ → ℂ)
    (hY : ∀ k < n, ∀ b, Y k b = bins x w step k b) :
    overlapped w step n thr Y i = surrounded x w.length i := by
  unfold overlapped
  have hS : (∑ k ∈ Finset.range n, if k * step ≤ i ∧ i < k * step + w.length then
      w.getD (i - k * step) 0 ^ 2 else 0) = squaredWindows w step n i := rfl
  rw [hS, max_eq_left h, div_eq_iff h0]
  unfold squaredWindows
  rw [Finset.mul_sum]
  refine Finset.sum_congr rfl fun k hk => ?_
  by_cases hc : k * step ≤ i ∧ i < k * step + w.length
  · rw [if_pos hc, if_pos hc]
    have : Y k = DFT.rfft w.length fun i => surrounded x w.length (k * step + i) * w.getD i 0 := by
      funext b
      exact hY k (Finset.mem_range.1 hk) b
    rw [this, Verif.Props.C74.irfft_rfft w.length hw _ _ (by omega)]
    have hi : k * step + (i - k * step) = i := by omega
    rw [hi]
    ring
  · rw [if_neg hc, if_neg hc, mul_zero]

theorem reduced_zero (expo amount : ℝ) (he : 0 < expo) (ha : amount = 0) (X Y : ℂ)
    (h : Reduced expo amount X Y) : Y = X := by
  obtain ⟨⟨g, g0, g1, hg⟩, hn⟩ := h
  rw [ha, sub_zero, max_eq_left (Real.rpow_nonneg (norm_nonneg _) _)] at hn
  have hnn : ‖Y‖ = ‖X‖ := by
    have := congrArg (· ^ (1 / expo)) hn
    simp only [← Real.rpow_mul (norm_nonneg _), mul_one_div_cancel he.ne', Real.rpow_one] at this
    exact this
  by_cases hX : X = 0
  · rw [hg, hX, mul_zero]
  · have hX' : 0 < ‖X‖ := norm_pos_iff.mpr hX
    rw [hg, norm_mul, Complex.norm_real, Real.norm_of_nonneg g0] at hnn
    have : g = 1 := by
      have h2 : (g - 1) * ‖X‖ = 0 := by linarith
      rcases mul_eq_zero.1 h2 with h3 | h3
      · linarith
      · exact absurd h3 hX'.ne'
    rw [hg, this]
    simp

theorem bins_silent (x w : List ℝ) (step k : ℕ) (h : ∀ i < w.length, surrounded x w.length (k * step + i) = 0)
    (b : ℕ) : bins x w step k b = 0 := by
  unfold bins DFT.rfft DFT.dft
  refine Finset.sum_eq_zero fun n hn => ?_
  beta_reduce
  rw [h n (Finset.mem_range.1 hn)]
  simp

/-- In the adaptive mode, a channel comes back unchanged if every block is above the threshold or silent
and the squared windows sum up to at least `1e-4`. -/
theorem C127_unchanged (s : Settings) (hv : Valid s) (w x : List ℝ) (hw : 1 < w.length)
    (he : Even w.length) (hs : 0 < stepSize s w.length)
    (hb : ∀ k < blocks x.length w.length (stepSize s w.length),
      s.threshold ≤ blockLevel x w.length (stepSize s w.length) k ∨
      ∀ i < w.length, surrounded x w.length (k * stepSize s w.length + i) = 0)
    (hS : ∀ j < x.length, 1 / 10 ^ 4 ≤ squaredWindows w (stepSize s w.length)
      (blocks x.length w.length (stepSize s w.length)) (w.length + j)) :
    adaptiveChannel s w x = .ok x := by
  obtain ⟨y, hy, hyl, Y, hY, hval⟩ := C127_adaptive s hv w x hw hs
  rw [hy]
  congr 1
  refine ext_getD _ _ hyl fun j hj => ?_
  rw [hyl] at hj
  rw [hval j hj, overlapped_bins w x _ _ he _ _ (hS j hj) (by have := hS j hj; norm_num at this ⊢; linarith) Y]
  · unfold surrounded
    rw [if_pos (by omega)]
    congr 1
    omega
  · intro k hk b
    refine reduced_zero _ _ hv.expo ?_ _ _ (hY k hk b)
    have h0 : estimate s.forget (fun i => blockLevel x w.length (stepSize s w.length) i < s.threshold)
        (fun i => ‖bins x w (stepSize s w.length) i b‖) k = 0 := by
      have := C127_estimate_bounded s.forget hv.forget.1.le hv.forget.2
        (fun i => blockLevel x w.length (stepSize s w.length) i < s.threshold)
        (fun i => ‖bins x w (stepSize s w.length) i b‖) k 0 le_rfl (fun i hi => ⟨norm_nonneg _, fun hni => ?_⟩)
      · exact le_antisymm this.2 this.1
      · rcases hb i (by omega) with h | h
        · exact absurd hni (not_lt.2 h)
        · rw [bins_silent x w _ i h b, norm_zero]
    rw [h0, Real.zero_rpow hv.expo.ne', mul_zero]

/-- The threshold of `-3080` dB is below every level. -/
theorem blockLevel_ge (x : List ℝ) (W step k : ℕ) : -3080 ≤ blockLevel x W step k := by
  unfold blockLevel
  have h1 : Real.logb 10 Level.tiny ≤ Real.logb 10 (max ((∑ i ∈ Finset.range W, (surrounded x W (k * step + i) -
    (∑ i ∈ Finset.range W, surrounded x W (k * step + i)) / W) ^ 2) / W) Level.tiny) :=
    Real.logb_le_logb_of_le (by norm_num) tiny_pos (le_max_right _ _)
  have h2 : -308 ≤ Real.logb 10 Level.tiny := by
    rw [Real.le_logb_iff_rpow_le (by norm_num) tiny_pos]
    unfold Level.tiny
    rw [show ((-308 : ℝ)) = (((-308 : ℤ)) : ℝ) by norm_num, Real.rpow_intCast, zpow_neg, zpow_neg]
    refine inv_anti₀ (by positivity) ?_
    have e1 : (2 : ℝ) ^ (1022 : ℤ) = (2 ^ 73) ^ 14 := by
      rw [← pow_mul]
      exact zpow_natCast 2 1022
    have e2 : (10 : ℝ) ^ (308 : ℤ) = (10 ^ 22) ^ 14 := by
      rw [← pow_mul]
      exact zpow_natCast 10 308
    rw [e1, e2]
    exact pow_le_pow_left₀ (by positivity) (by norm_num) 14
  linarith

/-- With a threshold below every level, the adaptive mode returns every channel unchanged. -/
theorem C127_unchanged_low_threshold (s : Settings) (hv : Valid s) (ht : s.threshold ≤ -3080) (w x : List ℝ)
    (hw : 1 < w.length) (he : Even w.length) (hs : 0 < stepSize s w.length)
    (hS : ∀ j < x.length, 1 / 10 ^ 4 ≤ squaredWindows w (stepSize s w.length)
      (blocks x.length w.length (stepSize s w.length)) (w.length + j)) :
    adaptiveChannel s w x = .ok x :=
  C127_unchanged s hv w x hw he hs (fun _ _ => Or.inl (ht.trans (blockLevel_ge _ _ _ _))) hS

/-! ## Static mode -/

theorem clippedWindow_length (win : ℕ → List ℝ) (W : ℕ) (h : (win W).length = W) :
    (clippedWindow win W).length = W := by simp [clippedWindow, h]

theorem clippedWindow_ge (win : ℕ → List ℝ) (W i : ℕ) (hi : i < (clippedWindow win W).length) :
    1 / 10 ^ 6 ≤ (clippedWindow win W).getD i 0 := by
  rw [List.getD_eq_getElem _ _ hi]
  simp only [clippedWindow, List.getElem_map]
  exact le_max_right _ _

theorem squaredWindows_ge (w : List ℝ) (hw : ∀ i < w.length, 1 / 10 ^ 6 ≤ w.getD i 0) (step n i : ℕ)
    (hs : 0 < step) (hsw : step ≤ w.length) (hi : i < n * step) : 1 / 10 ^ 12 ≤ squaredWindows w step n i := by
  have hk : i / step < n := (Nat.div_lt_iff_lt_mul hs).2 hi
  have h1 : i / step * step ≤ i := Nat.div_mul_le_self _ _
  have h2 : i < i / step * step + step := by
    have := Nat.lt_div_mul_add hs (a := i)
    omega
  unfold squaredWindows
  have h3 := Finset.single_le_sum (f := fun k => if k * step ≤ i ∧ i < k * step + w.length then
    w.getD (i - k * step) 0 ^ 2 else 0) (fun k _ => by
      split_ifs
      · positivity
      · exact le_rfl) (Finset.mem_range.2 hk)
  refine le_trans ?_ h3
  rw [if_pos ⟨h1, by omega⟩]
  have := hw (i - i / step * step) (by omega)
  calc (1 : ℝ) / 10 ^ 12 = (1 / 10 ^ 6) ^ 2 := by norm_num
    _ ≤ _ := pow_le_pow_left₀ (by norm_num) this 2

/-- The static mode: the same amount is subtracted from all blocks, and the reconstruction divides by the
sum of the squared windows in any case. -/
theorem C127_static (s : Settings) (hv : Valid s) (win : ℕ → List ℝ) (W fs : ℕ) (constrain : Bool)
    (x : List ℝ) (hwin : (win W).length = W) (hw : 1 < W) (hs : 0 < stepSize s W) (noise : ℕ → ℝ)
    (hN : staticNoise s win W fs constrain x = .ok noise) (hpos : ∀ b, 0 ≤ noise b) :
    ∃ y, staticChannel s win W fs constrain x = .ok y ∧ y.length = x.length ∧ ∃ Y : ℕ → ℕ → ℂ,
      (∀ k < blocks x.length W (stepSize s W), ∀ b,
        Reduced s.expo (s.factor * noise b) (bins x (clippedWindow win W) (stepSize s W) k b) (Y k b)) ∧
      ∀ j < x.length, y.getD j 0 = overlapped (clippedWindow win W) (stepSize s W)
        (blocks x.length W (stepSize s W)) 0 Y (W + j) := by
  have hwl := clippedWindow_length win W hwin
  set w := clippedWindow win W with hwdef
  set step := stepSize s W with hstep
  obtain ⟨frames, hfr, hn, hL, hf⟩ := frames_facts x w.length step hs
  rw [hwl] at hn hL
  have hn0 : 0 < frames.length := by
    by_contra h
    have : frames.length = 0 := by omega
    rw [this] at hL
    omega
  have hsw : step ≤ w.length := by rw [hwl, hstep]; exact stepSize_le s _
  have hSge : ∀ j < x.length, 1 / 10 ^ 12 ≤ squaredWindows w step frames.length (w.length + j) := fun j hj =>
    squaredWindows_ge w (fun i hi => clippedWindow_ge win W i hi) step _ _ hs hsw (by rw [hwl]; omega)
  have hlen : (frames.map fun f => newFrame s w f noise).length = frames.length := by simp
  have hg : ∀ k < frames.length, (frames.map fun f => newFrame s w f noise).getD k [] =
      newFrame s w (frames.getD k []) noise := by
    intro k hk
    rw [List.getD_eq_getElem _ _ (by simpa using hk), List.getElem_map, List.getD_eq_getElem frames _ hk]
  obtain ⟨y, hy, hyl, hyv⟩ := finish_formula (frames.map fun f => newFrame s w f noise) w step x.length
    none (fun k hk => by rw [hlen] at hk; rw [hg k hk, newFrame_length]) (by omega) (by rw [hlen]; exact hn0)
    hsw (by rw [hlen, hwl]; exact hL)
    (fun j hj => by rw [hlen]; exact lt_of_lt_of_le tiny_lt (hSge j hj))
  refine ⟨y, ?_, hyl, fun k b => subtractBin s.factor s.expo (noise b) (bins x w step k b), ?_, ?_⟩
  · unfold staticChannel
    simp only
    rw [← hwdef, hwl, ← hstep]
    rw [hwl] at hfr
    rw [hfr]
    simp only
    rw [hN]
    simp only
    rw [padded_length]
    rw [hwl] at hy
    exact hy
  · intro k hk b
    exact ⟨subtractBin_gain _ _ _ hv.expo (mul_nonneg hv.factor.le (hpos b)) _,
      subtractBin_norm _ _ _ hv.expo _⟩
  · intro j hj
    rw [hyv j hj, hlen, ← hn, hwl]
    unfold overlapped divisor
    have h0 : max (∑ k ∈ Finset.range frames.length, if k * step ≤ W + j ∧ W + j < k * step + w.length then
        w.getD (W + j - k * step) 0 ^ 2 else 0) 0 = squaredWindows w step frames.length (W + j) :=
      max_eq_left (squaredWindows_nonneg w step frames.length (W + j))
    rw [h0]
    simp only
    congr 1
    refine Finset.sum_congr rfl fun k hk => ?_
    have hk' := Finset.mem_range.1 hk
    rw [hwl]
    by_cases h : k * step ≤ W + j ∧ W + j < k * step + W
    · rw [if_pos h, if_pos h, hg k hk', newFrame_getD _ _ _ _ _ (by omega),
        frameSpectrum_eq w _ x step k (hf k hk').2, hwl]
    · rw [if_neg h, if_neg h]

/-- If the noise of the static mode is silence, the channel comes back unchanged. -/
theorem C127_static_unchanged (s : Settings) (hv : Valid s) (win : ℕ → List ℝ) (W fs : ℕ) (constrain : Bool)
    (x : List ℝ) (hwin : (win W).length = W) (hw : 1 < W) (he : Even W) (hs : 0 < stepSize s W)
    (hN : staticNoise s win W fs constrain x = .ok fun _ => 0) :
    staticChannel s win W fs constrain x = .ok x := by
  obtain ⟨y, hy, hyl, Y, hY, hval⟩ := C127_static s hv win W fs constrain x hwin hw hs _ hN fun _ => le_rfl
  have hwl := clippedWindow_length win W hwin
  rw [hy]
  congr 1
  refine ext_getD _ _ hyl fun j hj => ?_
  rw [hyl] at hj
  obtain ⟨frames, -, hn, hL, -⟩ := frames_facts x W (stepSize s W) hs
  have hS : 1 / 10 ^ 12 ≤ squaredWindows (clippedWindow win W) (stepSize s W)
      (blocks x.length W (stepSize s W)) (W + j) :=
    squaredWindows_ge _ (fun i hi => clippedWindow_ge win W i hi) _ _ _ hs
      (by rw [hwl]; exact stepSize_le s _) (by rw [← hn]; omega)
  have hS0 : 0 < squaredWindows (clippedWindow win W) (stepSize s W)
      (blocks x.length W (stepSize s W)) (W + j) := lt_of_lt_of_le (by norm_num) hS
  rw [hval j hj, overlapped_bins _ x _ _ (by rw [hwl]; exact he) 0 _ hS0.le hS0.ne' Y, hwl]
  · unfold surrounded
    rw [if_pos (by omega)]
    congr 1
    omega
  · intro k hk b
    exact reduced_zero _ _ hv.expo (mul_zero _) _ _ (hY k hk b)

/-- A given spectrum of powers is subtracted as it is documented: its square roots to the exponent. -/
theorem C127_given_spectrum (s : Settings) (win : ℕ → List ℝ) (W fs : ℕ) (constrain : Bool) (x : List ℝ)
    (h : ∃ a ∈ s.spectrum, a ≠ 0) :
    ∃ noise, staticNoise s win W fs constrain x = .ok noise ∧
      ∀ b, noise b = Real.sqrt |s.spectrum.getD b 0| ^ s.expo := by
  have h' : anyNonzero s.spectrum := h
  refine ⟨fun k => |s.spectrum.getD k 0| ^ (s.expo / 2), by unfold staticNoise; rw [if_pos h'], fun b => ?_⟩
  rw [Real.sqrt_eq_rpow, ← Real.rpow_mul (abs_nonneg _)]
  beta_reduce
  congr 1
  ring

/-- Mean power of the blocks of the noise at a bin. -/
noncomputable def meanPower (p : CSM.Params) (y : List ℝ) (b : ℕ) : ℝ :=
  ((CSM.frames p y).map fun f => ‖DFT.rfft p.W (CSM.prepared p f) b‖ ^ 2).sum / (CSM.frames p y).length

theorem list_sum_cast (l : List (List ℝ)) (f : List ℝ → ℝ) :
    (l.map fun a => ((f a : ℝ) : ℂ)).sum = (((l.map f).sum : ℝ) : ℂ) := by
  induction l with
  | nil => simp
  | cons a l ih => simp only [List.map_cons, List.sum_cons, ih]; push_cast; ring

theorem welch_norm (p : CSM.Params) (hp : p.average = .mean) (y : List ℝ) (b : ℕ) :
    0 ≤ meanPower p y b ∧ ‖CSM.welch p .fftBackward y none b‖ = Real.sqrt (meanPower p y b) := by
  have h0 : 0 ≤ meanPower p y b := by
    unfold meanPower
    refine div_nonneg (List.sum_nonneg fun a ha => ?_) (Nat.cast_nonneg _)
    obtain ⟨f, -, rfl⟩ := List.mem_map.1 ha
    positivity
  refine ⟨h0, ?_⟩
  have hprod : CSM.averaged p.average (CSM.products p .fftBackward y none b) = ((meanPower p y b : ℝ) : ℂ) := by
    rw [hp]
    unfold CSM.averaged CSM.products meanPower
    simp only
    rw [list_sum_cast, List.length_map]
    push_cast
    congr 2
    refine congrArg List.sum (List.map_congr_left fun f _ => ?_)
    unfold CSM.frameBin CSM.fftNorm
    simp
  unfold CSM.welch CSM.welchScale
  rw [hprod]
  simp only [CSM.physical, Bool.false_eq_true, if_false, false_and, Scaling.Scaling.isAmplitude, if_true]
  unfold CSM.csqrt
  rw [show (1 / 2 : ℂ) = ((1 / 2 : ℝ) : ℂ) by push_cast; rfl, ← Complex.ofReal_cpow h0, Complex.norm_real,
    Real.norm_of_nonneg (Real.rpow_nonneg h0 _), Real.sqrt_eq_rpow]

/-- The noise found by the activity detector is subtracted with a wrong power: the mean power of its
blocks is raised to a quarter of the exponent, not to the half. -/
theorem C127_detected_noise_wrong (s : Settings) (hv : Valid s) (win : ℕ → List ℝ) (W fs : ℕ)
    (constrain : Bool) (x : List ℝ) (h : ¬ ∃ a ∈ s.spectrum, a ≠ 0) (noise : ℕ → ℝ)
    (hN : staticNoise s win W fs constrain x = .ok noise) :
    ∃ d n idx, Activity.activityDetector x constrain fs s.threshold true id s.attackMs s.releaseMs =
        .ok (d, n, idx) ∧
      ∀ b, let P := meanPower ⟨W, win W, s.overlap, true, .mean, fs⟩ (colOf n.re 0) b
        0 ≤ P ∧ noise b = P ^ (s.expo / 4) ∧ (P ≠ 0 → P ≠ 1 → noise b ≠ P ^ (s.expo / 2)) := by
  have h' : ¬ anyNonzero s.spectrum := h
  unfold staticNoise at hN
  rw [if_neg h'] at hN
  unfold detectedNoise at hN
  rcases hA : Activity.activityDetector x constrain fs s.threshold true id s.attackMs s.releaseMs with e | ⟨d, n, idx⟩
  · rw [hA] at hN
    cases hN
  · refine ⟨d, n, idx, rfl, fun b => ?_⟩
    rw [hA] at hN
    simp only at hN
    unfold CSM.welchSpectrum at hN
    cases hc : CSM.welchCheck ⟨W, win W, s.overlap, true, .mean, fs⟩ n.re.cols n.re.rows with
    | some e => rw [hc] at hN; cases hN
    | none =>
      rw [hc] at hN
      simp only at hN
      injection hN with hN
      obtain ⟨h0, h1⟩ := welch_norm ⟨W, win W, s.overlap, true, .mean, fs⟩ rfl (colOf n.re 0) b
      have hval : noise b = meanPower ⟨W, win W, s.overlap, true, .mean, fs⟩ (colOf n.re 0) b ^ (s.expo / 4) := by
        rw [← hN]
        beta_reduce
        rw [h1, Real.sqrt_eq_rpow, ← Real.rpow_mul h0]
        congr 1
        ring
      refine ⟨h0, hval, fun hP0 hP1 heq => ?_⟩
      rw [hval] at heq
      have hpos := lt_of_le_of_ne h0 (Ne.symm hP0)
      have := (Real.rpow_right_inj hpos hP1).1 heq
      have := hv.expo
      linarith

/-- A given spectrum decides on the window: its length is even and has as many bins as the spectrum.
Without a spectrum the length is the power of two closest to the block. -/
theorem C127_window (s : Settings) (fs W : ℕ) (h : windowLength s fs = .ok W) :
    ((∃ a ∈ s.spectrum, a ≠ 0) → Even W ∧ W / 2 + 1 = s.spectrum.length) ∧
    ((∀ a ∈ s.spectrum, a = 0) → Helpers.nextPower2 (s.block * fs) .closest = .ok W) := by
  unfold windowLength at h
  constructor
  · intro hs
    rw [if_pos (show anyNonzero s.spectrum from hs)] at h
    obtain ⟨a, ha, -⟩ := hs
    have := List.length_pos_of_mem ha
    injection h with h
    refine ⟨⟨s.spectrum.length - 1, by omega⟩, by omega⟩
  · intro hs
    rw [if_neg (by rintro ⟨a, ha, h0⟩; exact h0 (hs a ha))] at h
    exact h

example : windowLength ⟨false, -40, 0.1, [1, 2, 3], 50, 0.9, 2, 2, 0.5, 30⟩ 48000 = .ok 4 := by
  unfold windowLength
  rw [if_pos ⟨1, by simp, by norm_num⟩]
  rfl

/-- Blocks so short that the step rounds to zero samples are refused. -/
theorem C127_no_step (s : Settings) (w x : List ℝ) (h : stepSize s w.length = 0) :
    adaptiveChannel s w x = .error .zeroDivision := by
  unfold adaptiveChannel framed numberFrames
  rw [h]
  rfl

end Verif.Props.C127

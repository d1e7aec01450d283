import Verif.Props.C127Apply

/-!
# C127: a signal whose noise is subtracted with a wrong power
-/

namespace Verif.Props.C127

open SpectralSubtraction SignalData Framing Complex
open Verif.LFilter (getD_map_range ext_getD)

/-- One click and 15 samples that are 40 dB below it. -/
noncomputable def click : List ℝ := (List.range 16).map fun (i : ℕ) => if i = 0 then 1 else 1 / 100

/-- Static mode, threshold of `-20` dB, blocks of 8 samples without overlap. -/
noncomputable def clickSettings : Settings := ⟨false, -20, 1, [], 0, 0.9, 2, 2, 0, 0⟩

theorem click_getD (i : ℕ) (hi : i < 16) : click.getD i 0 = if i = 0 then 1 else 1 / 100 := by
  unfold click
  rw [getD_map_range, if_pos hi]

theorem click_length : click.length = 16 := by simp [click]

theorem click_maxAbs : Level.maxAbs click = 1 := by
  refine le_antisymm (Level.maxAbs_le _ _ zero_le_one fun v hv => ?_) ?_
  · unfold click at hv
    obtain ⟨i, -, rfl⟩ := List.mem_map.1 hv
    split_ifs <;> norm_num [abs_of_pos]
  · have : (1 : ℝ) ∈ click := by
      unfold click
      exact List.mem_map.2 ⟨0, by simp, by simp⟩
    simpa using Level.le_maxAbs _ _ this

theorem click_momentary (a : ℝ) (p : ℕ → ℝ) (hp : ∀ i < 16, p i = (click.getD i 0) ^ 2) (i : ℕ) (hi : i < 16) :
    Activity.momentary a 1 p i ≤ 1 / 10000 ∧ 0 ≤ Activity.momentary a 1 p i := by
  cases i with
  | zero => exact ⟨by norm_num [Activity.momentary], le_rfl⟩
  | succ i =>
    have h0 : 0 < p i := by
      rw [hp i (by omega), click_getD i (by omega)]
      split_ifs <;> norm_num
    have h1 : p (i + 1) = 1 / 10000 := by
      rw [hp _ hi, click_getD _ hi, if_neg (by omega)]
      norm_num
    unfold Activity.momentary
    dsimp only
    rw [if_neg (by linarith), if_pos h0, h1]
    norm_num

theorem logDb_lt (y : ℝ) (h0 : 0 ≤ y) (h1 : y ≤ 1 / 10000) : ¬ ((-20 : ℝ) : WithBot ℝ) < Level.logDb 10 y := by
  unfold Level.logDb
  split_ifs with h
  · exact not_lt_bot
  · rw [WithBot.coe_lt_coe, not_lt]
    have hpos : 0 < y := lt_of_le_of_ne h0 (Ne.symm h)
    have : Real.logb 10 y ≤ Real.logb 10 ((10 : ℝ) ^ (-4 : ℝ)) :=
      Real.logb_le_logb_of_le (by norm_num) hpos (h1.trans (by
        rw [show ((-4 : ℝ)) = (((-4 : ℤ)) : ℝ) by norm_num, Real.rpow_intCast]
        norm_num))
    rw [Real.logb_rpow (by norm_num) (by norm_num)] at this
    linarith

theorem click_detected : ∃ d n, Activity.activityDetector click false (8 : ℕ) (-20) true id 0 0 =
    .ok (d, n, List.replicate 16 false) ∧ n.re.rows = 16 ∧ n.re.cols = 1 ∧ colOf n.re 0 = click := by
  have hidx : Activity.indicesAbove click (-20) (Smoothing.factorOr (0 / 1000) (8 : ℕ))
      (Smoothing.factorOr (0 / 1000) (8 : ℕ)) true = .ok (List.replicate 16 false) := by
    have hf : Smoothing.factorOr (0 / 1000 : ℝ) ((8 : ℕ) : ℝ) = 1 := by
      unfold Smoothing.factorOr
      norm_num
    rw [hf]
    unfold Activity.indicesAbove
    rw [if_neg (by
      rintro ⟨-, h⟩
      have := congrArg List.length h
      rw [click_length] at this
      simp at this), if_neg (by rw [click_maxAbs]; norm_num)]
    simp only [if_true, click_maxAbs, div_one, List.map_id', click_length]
    congr 1
    have h16 : List.replicate 16 false = (List.range 16).map fun _ => false := by decide
    rw [h16]
    refine List.map_congr_left fun i hi => ?_
    obtain ⟨h1, h0⟩ := click_momentary 1 (fun i => (click.getD i 0) ^ 2) (fun _ _ => rfl) i (List.mem_range.1 hi)
    exact decide_eq_false (logDb_lt _ h0 h1)
  have hp1 : Activity.pick (List.replicate 16 false) click = [] := by
    unfold Activity.pick
    rw [List.filter_eq_nil_iff.2, List.map_nil]
    intro q hq
    have := (List.of_mem_zip hq).1
    rw [List.mem_replicate] at this
    rw [this.2]
    simp
  have hp2 : Activity.pick ((List.replicate 16 false).map not) click = click := by
    unfold Activity.pick
    rw [List.filter_eq_self.2, List.map_snd_zip (by rw [click_length]; decide)]
    intro q hq
    have := (List.of_mem_zip hq).1
    rw [List.map_replicate, List.mem_replicate] at this
    rw [this.2]
    rfl
  obtain ⟨d, hd⟩ : ∃ d, Activity.assign false [] = .ok d := ⟨_, rfl⟩
  have hn : Activity.assign false click = .ok ⟨⟨16, 1, fun r _ => click.getD r 0⟩, none, false, 1⟩ := by
    unfold Activity.assign setData standardForm
    rw [click_length]
    rfl
  refine ⟨d, ⟨⟨16, 1, fun r _ => click.getD r 0⟩, none, false, 1⟩, ?_, rfl, rfl, ?_⟩
  · unfold Activity.activityDetector
    rw [if_neg (by norm_num), if_neg (by norm_num), if_neg (by norm_num)]
    show (match Activity.indicesAbove click (-20) _ _ true with
      | .error e => _
      | .ok idx => _) = _
    rw [hidx]
    dsimp only
    rw [hp1, hd]
    dsimp only
    rw [hp2, hn]
  · have := range_getD click
    rw [click_length] at this
    exact this.symm

/-- The parameters of the periodogram for rectangular windows. -/
noncomputable def clickParams : CSM.Params := ⟨8, List.replicate 8 1, 0, true, .mean, 8⟩

theorem e_half (n : ℕ) : DFT.e 8 (-((4 : ℕ) * (n : ℤ))) = (-1) ^ n := by
  unfold DFT.e
  have : 2 * (Real.pi : ℂ) * I * (((-((4 : ℕ) * (n : ℤ)) : ℤ) : ℂ) / ((8 : ℕ) : ℂ)) = n * (-(Real.pi * I)) := by
    push_cast
    ring
  rw [this, Complex.exp_nat_mul, Complex.exp_neg, Complex.exp_pi_mul_I]
  norm_num

theorem nyquist (f : ℕ → ℝ) : DFT.rfft 8 f 4 =
    ((f 0 - f 1 + f 2 - f 3 + f 4 - f 5 + f 6 - f 7 : ℝ) : ℂ) := by
  unfold DFT.rfft DFT.dft
  rw [Finset.sum_congr rfl fun n _ => by rw [e_half n]]
  simp only [Finset.sum_range_succ, Finset.sum_range_zero]
  push_cast
  ring

theorem click_power : meanPower clickParams click 4 = 9801 / 20000 := by
  obtain ⟨frames, hfr, hof, -, hk, hL⟩ := Framing.C21_keep click 8 8 (by norm_num)
  rw [click_length] at hk hL
  have hl : frames.length = 2 := by
    have h1 : ¬ 2 < frames.length := fun h => by have := hk 2 h; omega
    omega
  have hf : CSM.frames clickParams click = frames := by
    unfold CSM.frames
    have : framed click clickParams.W clickParams.step true = .ok frames := hfr
    rw [this]
  obtain ⟨f0, f1, rfl⟩ : ∃ a b, frames = [a, b] := List.length_eq_two.1 hl
  have h0 := (hof 0 (by simp)).2
  have h1 := (hof 1 (by simp)).2
  simp only [List.getD_cons_zero, List.getD_cons_succ] at h0 h1
  have v0 : ∀ i < 8, f0.getD i 0 = if i = 0 then 1 else 1 / 100 := fun i hi => by
    rw [h0 i hi, zero_mul, zero_add, click_getD i (by omega)]
  have v1 : ∀ i < 8, f1.getD i 0 = 1 / 100 := fun i hi => by
    rw [h1 i hi, click_getD _ (by omega), if_neg (by omega)]
  have hprep : ∀ f : List ℝ, ∃ m : ℝ, ∀ i < 8, CSM.prepared clickParams f i = f.getD i 0 - m := by
    intro f
    refine ⟨(∑ j ∈ Finset.range clickParams.W, f.getD j 0 * clickParams.window.getD j 0) / clickParams.W,
      fun i hi => ?_⟩
    have hw : clickParams.window.getD i 0 = 1 := by
      unfold clickParams
      dsimp only
      rw [List.getD_eq_getElem _ _ (by simpa using hi), List.getElem_replicate]
    unfold CSM.prepared
    dsimp only
    rw [if_pos (by rfl), hw, mul_one]
  unfold meanPower
  rw [hf]
  simp only [List.map_cons, List.map_nil, List.sum_cons, List.sum_nil, List.length_cons, List.length_nil]
  have hW : clickParams.W = 8 := rfl
  rw [hW, nyquist, nyquist]
  obtain ⟨m0, e0⟩ := hprep f0
  obtain ⟨m1, e1⟩ := hprep f1
  simp only [e0 0 (by norm_num), e0 1 (by norm_num), e0 2 (by norm_num), e0 3 (by norm_num),
    e0 4 (by norm_num), e0 5 (by norm_num), e0 6 (by norm_num), e0 7 (by norm_num), e1 0 (by norm_num),
    e1 1 (by norm_num), e1 2 (by norm_num), e1 3 (by norm_num), e1 4 (by norm_num), e1 5 (by norm_num),
    e1 6 (by norm_num), e1 7 (by norm_num), v0 0 (by norm_num), v0 1 (by norm_num), v0 2 (by norm_num),
    v0 3 (by norm_num), v0 4 (by norm_num), v0 5 (by norm_num), v0 6 (by norm_num), v0 7 (by norm_num),
    v1 0 (by norm_num), v1 1 (by norm_num), v1 2 (by norm_num), v1 3 (by norm_num), v1 4 (by norm_num),
    v1 5 (by norm_num), v1 6 (by norm_num), v1 7 (by norm_num)]
  rw [Complex.norm_real, Complex.norm_real, Real.norm_eq_abs, Real.norm_eq_abs, sq_abs, sq_abs]
  norm_num

/-- A signal whose noise has the mean power 0.49 at a bin, of which 0.7 is subtracted (times the factor). -/
theorem C127_detected_noise_example_wrong :
    ∃ noise, staticNoise clickSettings (fun W => List.replicate W 1) 8 8 false click = .ok noise ∧
      noise 4 = Real.sqrt (9801 / 20000) ∧ noise 4 ≠ 9801 / 20000 := by
  obtain ⟨d, n, hA, hr, hc, hcol⟩ := click_detected
  have hchk : CSM.welchCheck clickParams 1 16 = none := by decide +kernel
  have hany : ¬ anyNonzero clickSettings.spectrum := by
    rintro ⟨a, ha, -⟩
    exact absurd ha (List.not_mem_nil)
  obtain ⟨noise, hN⟩ : ∃ noise, staticNoise clickSettings (fun W => List.replicate W 1) 8 8 false click =
      .ok noise := by
    unfold staticNoise
    rw [if_neg hany]
    unfold detectedNoise
    have hA' : Activity.activityDetector click false ((8 : ℕ) : ℝ) clickSettings.threshold true id
      clickSettings.attackMs clickSettings.releaseMs = _ := hA
    rw [hA']
    dsimp only
    unfold CSM.welchSpectrum
    rw [hr, hc]
    have hchk' : CSM.welchCheck ⟨8, List.replicate 8 1, clickSettings.overlap, true, .mean, 8⟩ 1 16 = none := hchk
    rw [hchk']
    exact ⟨_, rfl⟩
  refine ⟨noise, hN, ?_⟩
  obtain ⟨d', n', idx', hA2, hval⟩ := C127_detected_noise_wrong clickSettings
    ⟨by norm_num [clickSettings], by norm_num [clickSettings], by norm_num [clickSettings],
      by norm_num [clickSettings]⟩ _ _ _ _ _ hany noise hN
  have hA3 : Activity.activityDetector click false ((8 : ℕ) : ℝ) clickSettings.threshold true id
      clickSettings.attackMs clickSettings.releaseMs = _ := hA
  rw [hA3] at hA2
  injection hA2 with hA2
  have hnn : n = n' := congrArg (fun q => q.2.1) hA2
  subst hnn
  obtain ⟨-, h1, h2⟩ := hval 4
  rw [hcol] at h1 h2
  have hP : meanPower ⟨8, List.replicate 8 1, clickSettings.overlap, true, .mean, 8⟩ click 4 = 9801 / 20000 :=
    click_power
  rw [hP] at h1 h2
  have hx : clickSettings.expo = 2 := rfl
  rw [hx] at h1 h2
  refine ⟨by rw [h1, Real.sqrt_eq_rpow]; norm_num, ?_⟩
  have := h2 (by norm_num) (by norm_num)
  norm_num at this ⊢
  exact this

end Verif.Props.C127

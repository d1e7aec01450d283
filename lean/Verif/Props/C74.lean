import Verif.Model.STFT
import Verif.Props.C22
import Verif.Lemmas.DFT
import Verif.Lemmas.IDFT
import Verif.Lemmas.Deconvolution
import Mathlib.Tactic.LinearCombination

/-!
# C74: short-time Fourier transform and back
-/

namespace Verif.Props.C74

open STFT Framing Scaling DFT
open Verif.SignalData (padTrim padTrim_length padTrim_end)
open Verif.LFilter (getD_map_range ext_getD getD_take getD_drop)

theorem reconstruct_formula (frames : List (List ℝ)) (w : List ℝ) (step : ℕ)
    (hlen : ∀ k < frames.length, (frames.getD k []).length = w.length) (hw : 1 < w.length)
    (hn : 0 < frames.length) (thr tiny : ℝ) (ht : tiny < thr) :
    ∃ td, reconstruct frames w.length step (some w) none (some thr) tiny = .ok td ∧
      td.length = step * frames.length + w.length - step ∧
      ∀ j < td.length, td.getD j 0 = (∑ k ∈ Finset.range frames.length,
        if k * step ≤ j ∧ j < k * step + w.length then
          (frames.getD k []).getD (j - k * step) 0 * w.getD (j - k * step) 0 else 0) /
        max (squaredWindows w step frames.length j) thr := by
  have hs : step ≤ step * frames.length := Nat.le_mul_of_pos_right _ hn
  unfold reconstruct
  simp only
  rw [if_neg (by simp), if_neg (by omega), if_neg (by omega)]
  refine ⟨_, rfl, by simp, ?_⟩
  set total := step * frames.length + w.length - step with htotal
  intro j hj
  have hj' : j < total := by simpa using hj
  obtain ⟨henvlen, henv⟩ := envelope_eq w total step frames.length
  rw [getD_map_range, if_pos hj']
  have he : ((envelope w total step frames.length true).map fun e => max e thr).getD j 0 =
      max (squaredWindows w step frames.length j) thr := by
    rw [← henv j hj', List.getD_eq_getElem _ _ (by simpa [henvlen] using hj'),
      List.getD_eq_getElem _ _ (by simpa [henvlen] using hj')]
    simp
  rw [he, if_pos (lt_of_lt_of_le ht (le_max_right _ _))]
  congr 1
  have hfl : (frames.map (applyWindow w)).length = frames.length := by simp
  rw [hfl, (Framing.overlapAdd (fun k => (frames.map (applyWindow w)).getD k []) step total
    frames.length).2 j hj']
  refine Finset.sum_congr rfl fun k hk => ?_
  have hk' := Finset.mem_range.1 hk
  have hg : (frames.map (applyWindow w)).getD k [] = applyWindow w (frames.getD k []) := by
    rw [List.getD_eq_getElem _ _ (by simpa using hk'), List.getElem_map,
      List.getD_eq_getElem frames _ hk']
  have hal : (applyWindow w (frames.getD k [])).length = w.length := by
    unfold applyWindow
    rw [List.length_map, List.length_range, hlen k hk']
  rw [hg, hal]
  by_cases h : k * step ≤ j ∧ j < k * step + w.length
  · rw [if_pos h, if_pos h]
    unfold applyWindow
    rw [getD_map_range, hlen k hk', if_pos (by omega), if_neg (by omega)]
  · rw [if_neg h, if_neg h]

theorem irfft_rfft (F : ℕ) (he : Even F) (x : ℕ → ℝ) (j : ℕ) (hj : j < F) :
    irfft F (rfft F x) j = x j := by
  have hF : F ≠ 0 := by omega
  unfold irfft
  have : ∀ k ∈ Finset.range F, herm F (rfft F x) k * e F (k * j) =
      rfft F x k * e F (k * j) := by
    intro k hk
    rw [herm_of_mirror F he _ (rfft_zero_conj F x) (fun k hk => rfft_mirror F hF x k hk) k
      (Finset.mem_range.1 hk)]
  rw [Finset.sum_congr rfl this]
  have h2 := Transforms.ifft_dft F (fun n => (x n : ℂ)) j hj
  unfold Transforms.ifft at h2
  unfold rfft
  rw [h2, Complex.ofReal_re]

theorem irfft_scale (F M : ℕ) (X : ℕ → ℂ) (c : ℝ) (j : ℕ) :
    Deconv.irfft F M (fun k => X k * (c : ℂ)) j = Deconv.irfft F M X j * c := by
  unfold Deconv.irfft
  have : ∀ k, Deconv.herm F (fun k => if k < M then X k * (c : ℂ) else 0) k =
      Deconv.herm F (fun k => if k < M then X k else 0) k * c := by
    intro k
    have hY : (fun k => if k < M then X k * (c : ℂ) else 0) = fun k => (if k < M then X k else 0) * (c : ℂ) := by
      funext k
      split_ifs <;> simp
    rw [hY]
    unfold Deconv.herm
    by_cases h0 : k = 0
    · rw [if_pos h0, if_pos h0]; simp only [Complex.re_mul_ofReal, Complex.ofReal_mul]
    rw [if_neg h0, if_neg h0]
    by_cases h1 : 2 * k < F
    · rw [if_pos h1, if_pos h1]
    rw [if_neg h1, if_neg h1]
    by_cases h2 : 2 * k = F
    · rw [if_pos h2, if_pos h2]; simp only [Complex.re_mul_ofReal, Complex.ofReal_mul]
    rw [if_neg h2, if_neg h2]
    simp only [map_mul, Complex.conj_ofReal]
  simp only [this]
  have h2 : ∑ k ∈ Finset.range F, Deconv.herm F (fun k => if k < M then X k else 0) k * (c : ℂ) * e F (k * j) =
      (∑ k ∈ Finset.range F, Deconv.herm F (fun k => if k < M then X k else 0) k * e F (k * j)) * c := by
    rw [Finset.sum_mul]
    exact Finset.sum_congr rfl fun k _ => by ring
  rw [h2, mul_div_right_comm, Complex.re_mul_ofReal]

theorem norms (s : Scaling) (F : ℕ) (hF : 0 < F) : forwardNorm s F * inverseNorm s F = 1 := by
  have h1 : (F : ℝ) ≠ 0 := by exact_mod_cast hF.ne'
  have h2 : √(F : ℝ) ≠ 0 := (Real.sqrt_pos.2 (by exact_mod_cast hF)).ne'
  unfold forwardNorm inverseNorm
  cases s <;> simp [h1, h2]

/-- A frame comes back from its bins. -/
theorem frame_back (P : Params) (F fs fs' : ℕ) (hF : P.w.length ≤ F) (hw : 0 < F)
    (hs : physical P.scaling = false) (frame : List ℝ) (hl : frame.length = P.w.length) :
    recoverFrame P F fs' (F / 2 + 1) (frameSpectrum P F fs frame) = frame := by
  unfold recoverFrame
  rw [Nat.min_eq_right hF]
  refine ext_getD _ _ (by simp [hl]) fun i hi => ?_
  have hi' : i < P.w.length := by simpa using hi
  rw [getD_map_range, if_pos hi', hs]
  unfold frameSpectrum
  rw [hs]
  simp only [Bool.false_eq_true, if_false]
  rw [irfft_scale, Deconv.irfft_of_rfft F (F / 2 + 1) (by omega) (fun n => frame.getD n 0) _ (fun k _ => rfl) i
    (by omega), mul_assoc, norms _ _ hw, mul_one]

/-- The window of a supported length. -/
def ValidLength (W : ℕ) : Prop := ∃ n, 4 ≤ n ∧ n ≤ 16 ∧ W = 2 ^ n

theorem valid_mem {W : ℕ} (h : ValidLength W) :
    ¬ (W ∉ (List.range 13).map (fun n => 2 ^ (n + 4))) ∧ 16 ≤ W ∧ Even W := by
  obtain ⟨n, h1, h2, rfl⟩ := h
  refine ⟨fun h => h ?_, ?_, ?_⟩
  · rw [List.mem_map]
    exact ⟨n - 4, by rw [List.mem_range]; omega, by congr 1; omega⟩
  · calc 16 = 2 ^ 4 := by norm_num
      _ ≤ 2 ^ n := Nat.pow_le_pow_right (by norm_num) h1
  · exact (Nat.even_pow.2 ⟨even_two, by omega⟩)

/-- What the transform forgets nothing of: no detrending, no physical units, transform not shorter
than the window. -/
structure Lossless (P : Params) (F : ℕ) : Prop where
  valid : ValidLength P.w.length
  percent : 0 ≤ P.overlap ∧ P.overlap < 100
  noDetrend : P.detrend = false
  noUnits : physical P.scaling = false
  len : F = P.fftLen.getD P.w.length
  enough : P.w.length ≤ F

/-- The windowed frames that the inverse works with. -/
theorem frames_back {P : Params} {F : ℕ} (h : Lossless P F) (fs : ℕ) (fs' : Option ℕ) (x : List ℝ)
    (hstep : overlapSamples P.w.length P.overlap < P.w.length) :
    ∃ frames, framed (padded P x) P.w.length
        (P.w.length - overlapSamples P.w.length P.overlap) true = .ok frames ∧
      stft P fs x = .ok (frames.map fun f => frameSpectrum P F fs (prepareFrame P f)) ∧
      P.fftLen.getD (2 * (F / 2 + 1 - 1)) = F ∧
      (frames.map fun f => frameSpectrum P F fs (prepareFrame P f)).map
        (recoverFrame P F (fs'.getD 0) (F / 2 + 1)) = windowed P.w frames := by
  obtain ⟨hv, hW, hev⟩ := valid_mem h.valid
  obtain ⟨frames, hf, -⟩ := C21_keep (padded P x) P.w.length
    (P.w.length - overlapSamples P.w.length P.overlap) (by omega)
  refine ⟨frames, hf, ?_, ?_, ?_⟩
  · unfold stft
    rw [if_neg hv, if_neg (not_not.2 h.percent)]
    dsimp only
    rw [hf, ← h.len]
  · have h1 := h.len
    cases hP : P.fftLen with
    | none =>
      rw [hP, Option.getD_none] at h1
      rw [Option.getD_none]
      obtain ⟨m, hm⟩ := hev
      omega
    | some v =>
      rw [hP, Option.getD_some] at h1
      rw [Option.getD_some, h1]
  · rw [List.map_map]
    unfold windowed
    refine List.map_congr_left fun f _ => ?_
    simp only [Function.comp_apply]
    have hp : prepareFrame P f = (List.range P.w.length).map fun i => P.w.getD i 0 * f.getD i 0 := by
      unfold prepareFrame
      rw [h.noDetrend]
      simp
    rw [hp, frame_back P F fs _ h.enough (by have := h.enough; omega) h.noUnits _ (by simp)]

theorem windowed_length (w : List ℝ) (frames : List (List ℝ)) :
    (windowed w frames).length = frames.length := by simp [windowed]

theorem windowed_getD' (w : List ℝ) (frames : List (List ℝ)) (k : ℕ) (hk : k < frames.length) :
    (windowed w frames).getD k [] =
      (List.range w.length).map fun i => w.getD i 0 * (frames.getD k []).getD i 0 := by
  unfold windowed
  rw [List.getD_eq_getElem _ _ (by simpa using hk), List.getElem_map,
    List.getD_eq_getElem frames _ hk]

theorem not_density {s : Scaling} (h : physical s = false) : ¬ s.isDensity = true := by
  cases s <;> simp_all [physical, Scaling.isDensity]

theorem getD_padded (P : Params) (hp : P.padding = true) (x : List ℝ) (j : ℕ) :
    (padded P x).getD j 0 =
      if overlapSamples P.w.length P.overlap ≤ j then
        x.getD (j - overlapSamples P.w.length P.overlap) 0 else 0 := by
  unfold padded
  rw [hp]
  simp only [if_true]
  set o := overlapSamples P.w.length P.overlap
  by_cases h : o ≤ j
  · rw [if_pos h, List.append_assoc, List.getD_append_right _ _ _ _ (by simpa using h),
      List.length_replicate]
    rcases Nat.lt_or_ge (j - o) x.length with h1 | h1
    · rw [List.getD_append _ _ _ _ h1]
    · rw [List.getD_append_right _ _ _ _ h1, List.getD_eq_default x _ h1]
      rcases Nat.lt_or_ge (j - o - x.length) o with h2 | h2
      · rw [List.getD_eq_getElem _ _ (by simpa using h2)]
        simp
      · rw [List.getD_eq_default _ _ (by simpa using h2)]
  · rw [if_neg h, List.append_assoc, List.getD_append _ _ _ _ (by simp; omega),
      List.getD_eq_getElem _ _ (by simp; omega)]
    simp

/-- With padding and equal steps: the inverse gives the padded signal from the overlap of the
inverse on, weighted by the squared windows. -/
theorem padded_back {P : Params} {F : ℕ} (h : Lossless P F) (fs : ℕ) (fs' : Option ℕ) (x : List ℝ)
    (hx : x ≠ []) (hpad : P.padding = true)
    (ho : overlapSamples P.w.length P.overlap < P.w.length)
    (hstep : inverseStep P.w.length P.overlap =
      P.w.length - overlapSamples P.w.length P.overlap)
    (ho' : inverseOverlap P.w.length P.overlap ≤ overlapSamples P.w.length P.overlap)
    (h0 : 0 < inverseOverlap P.w.length P.overlap) :
    ∃ X y, stft P fs x = .ok X ∧ istft P fs' x.length (F / 2 + 1) X = .ok y ∧
      y.length = x.length ∧
      x.length + 2 * overlapSamples P.w.length P.overlap ≤
        X.length * (P.w.length - overlapSamples P.w.length P.overlap) ∧
      ∀ j < x.length, y.getD j 0 =
        (padded P x).getD (inverseOverlap P.w.length P.overlap + j) 0 *
          squaredWindows P.w (P.w.length - overlapSamples P.w.length P.overlap) X.length
            (inverseOverlap P.w.length P.overlap + j) /
          max (squaredWindows P.w (P.w.length - overlapSamples P.w.length P.overlap) X.length
            (inverseOverlap P.w.length P.overlap + j)) (1 / 10000) := by
  obtain ⟨-, hW, -⟩ := valid_mem h.valid
  obtain ⟨frames, hf, hst, hF, hb⟩ := frames_back h fs fs' x ho
  set o := overlapSamples P.w.length P.overlap with hodef
  set o' := inverseOverlap P.w.length P.overlap with ho'def
  set step := P.w.length - o with hstepdef
  have hpl : (padded P x).length = x.length + 2 * o := by
    unfold padded
    rw [hpad]
    simp [← hodef]
    omega
  obtain ⟨frames', hf', hfo, -, -, hL⟩ := C21_keep (padded P x) P.w.length step (by omega)
  obtain rfl : frames = frames' := by
    rw [hf] at hf'
    exact Except.ok.inj hf'
  have hxp := List.length_pos_of_ne_nil hx
  have hn : 0 < frames.length := by
    by_contra hc
    have : frames.length = 0 := by omega
    rw [this, hpl] at hL
    omega
  obtain ⟨td, ht, htl, htv⟩ := reconstruct_formula (windowed P.w frames) P.w step
    (fun k hk => by
      rw [windowed_length] at hk
      rw [windowed_getD' _ _ _ hk]
      simp) (by omega) (by rwa [windowed_length]) (1 / 10000) (1 / 2 ^ 1022) (by
        have : (10000 : ℝ) < 2 ^ 1022 := by
          calc (10000 : ℝ) < 2 ^ 14 := by norm_num
            _ ≤ 2 ^ 1022 := pow_le_pow_right₀ (by norm_num) (by norm_num)
        exact one_div_lt_one_div_of_lt (by norm_num) this)
  rw [windowed_length] at htl htv
  have hval : ∀ j < td.length, td.getD j 0 = (padded P x).getD j 0 *
      squaredWindows P.w step frames.length j /
        max (squaredWindows P.w step frames.length j) (1 / 10000) := by
    intro j hj
    rw [htv j hj]
    congr 1
    unfold squaredWindows
    rw [Finset.mul_sum]
    refine Finset.sum_congr rfl fun k hk => ?_
    have hk' := Finset.mem_range.1 hk
    by_cases hc : k * step ≤ j ∧ j < k * step + P.w.length
    · rw [if_pos hc, if_pos hc, windowed_getD' _ _ _ hk', getD_map_range, if_pos (by omega),
        (hfo k hk').2 _ (by omega), show k * step + (j - k * step) = j by omega]
      ring
    · rw [if_neg hc, if_neg hc, mul_zero]
  have hlen : x.length + 2 * o' ≤ td.length := by
    rw [htl]
    have h1 : frames.length * step = step * frames.length := Nat.mul_comm _ _
    rw [hpl] at hL
    omega
  refine ⟨_, padTrim (sliceBoth o' td) x.length true, hst, ?_, padTrim_length _ _ _, ?_, ?_⟩
  · unfold istft
    rw [if_neg (fun hc => not_density h.noUnits hc.1)]
    dsimp only
    rw [hF, hb, hpad, hstep]
    simp only [if_true]
    have hov : STFT.overlapAdd P (windowed P.w frames) step = .ok td := by
      unfold STFT.overlapAdd
      rw [if_neg, ht]
      rw [not_not]
      intro f hfm
      unfold windowed at hfm
      obtain ⟨g, _, rfl⟩ := List.mem_map.1 hfm
      simp
    rw [hov]
  · rw [List.length_map]
    rw [hpl] at hL
    exact hL
  · intro j hj
    rw [List.length_map, padTrim_end _ _ _ hj]
    unfold sliceBoth
    rw [if_neg (by omega), getD_take _ _ _ (by omega), getD_drop, hval _ (by omega)]

theorem floor_exact (W : ℕ) (p : ℚ) (o : ℕ) (h : p / 100 * W = o) (ho : o ≤ W) :
    overlapSamples W p = o ∧ inverseStep W p = W - o ∧ inverseOverlap W p = o := by
  unfold overlapSamples inverseStep inverseOverlap
  refine ⟨?_, ?_, ?_⟩
  · rw [h, Nat.floor_eq_iff (by positivity)]
    constructor <;> norm_num
  · rw [sub_mul, h, one_mul, ← Nat.cast_sub ho, Nat.floor_natCast]
  · rw [h, Nat.floor_natCast]

/-- With padding, and if the overlap in percent is a whole number of samples (at least one), the
inverse has the length of the signal and every sample is recovered at which the squared windows of
the frames reach the threshold; otherwise it is attenuated by the missing part. -/
theorem C74_reconstruction_partial {P : Params} {F : ℕ} (h : Lossless P F) (fs : ℕ)
    (fs' : Option ℕ) (x : List ℝ) (hx : x ≠ []) (hpad : P.padding = true) (o : ℕ)
    (ho : P.overlap / 100 * P.w.length = o) (h0 : 0 < o) :
    ∃ X y, stft P fs x = .ok X ∧ istft P fs' x.length (F / 2 + 1) X = .ok y ∧
      y.length = x.length ∧ x.length + 2 * o ≤ X.length * (P.w.length - o) ∧
      ∀ j < x.length,
        (1 / 10000 ≤ squaredWindows P.w (P.w.length - o) X.length (o + j) →
          y.getD j 0 = x.getD j 0) ∧
        y.getD j 0 = x.getD j 0 * (squaredWindows P.w (P.w.length - o) X.length (o + j) /
          max (squaredWindows P.w (P.w.length - o) X.length (o + j)) (1 / 10000)) := by
  obtain ⟨-, hW, -⟩ := valid_mem h.valid
  have hlt : o < P.w.length := by
    have h1 : (o : ℚ) < P.w.length := by
      rw [← ho]
      have h2 : (0 : ℚ) < P.w.length := by exact_mod_cast (by omega : 0 < P.w.length)
      have h3 : P.overlap / 100 < 1 := by
        rw [div_lt_one (by norm_num)]
        exact h.percent.2
      calc P.overlap / 100 * P.w.length < 1 * P.w.length := mul_lt_mul_of_pos_right h3 h2
        _ = P.w.length := one_mul _
    exact_mod_cast h1
  obtain ⟨e1, e2, e3⟩ := floor_exact P.w.length P.overlap o ho hlt.le
  obtain ⟨X, y, h1, h2, h3, h4, h5⟩ := padded_back h fs fs' x hx hpad (by omega) (by rw [e1, e2])
    (by rw [e1, e3]) (by omega)
  rw [e1] at h4 h5
  rw [e3] at h5
  have key : ∀ j < x.length, y.getD j 0 = x.getD j 0 *
      (squaredWindows P.w (P.w.length - o) X.length (o + j) /
          max (squaredWindows P.w (P.w.length - o) X.length (o + j)) (1 / 10000)) := by
    intro j hj
    rw [h5 j hj, getD_padded P hpad, e1, if_pos (by omega), show o + j - o = j by omega,
      mul_div_assoc]
  refine ⟨X, y, h1, h2, h3, h4, fun j hj => ⟨fun hs => ?_, key j hj⟩⟩
  rw [key j hj, max_eq_left hs, div_self, mul_one]
  intro hc
  rw [hc] at hs
  norm_num at hs

/-- The window `Window.Hann` for the transform: `scipy.signal.windows.hann(W, sym=False)`. -/
noncomputable def hann (W : ℕ) : List ℝ :=
  (List.range W).map fun i : ℕ => 1 / 2 - 1 / 2 * Real.cos (2 * Real.pi * i / W)

/-- With the default settings (Hann window, overlap of 50 percent, padding) the inverse returns the
signal exactly, for every signal. -/
theorem C74_default (W : ℕ) (hW : ValidLength W) (s : Scaling) (hs : physical s = false) (fs : ℕ)
    (fs' : Option ℕ) (x : List ℝ) (hx : x ≠ []) :
    ∃ X, stft ⟨hann W, 50, none, false, true, s⟩ fs x = .ok X ∧
      istft ⟨hann W, 50, none, false, true, s⟩ fs' x.length (W / 2 + 1) X = .ok x := by
  obtain ⟨-, hW16, heven⟩ := valid_mem hW
  have hwl : (hann W).length = W := by simp [hann]
  obtain ⟨o, hoo⟩ := heven
  have hl : Lossless ⟨hann W, 50, none, false, true, s⟩ W :=
    ⟨by rw [hwl]; exact hW, ⟨by norm_num, by norm_num⟩, rfl, hs, by simp [hwl], by
      simp [hwl]⟩
  obtain ⟨X, y, h1, h2, h3, h4, h5⟩ := C74_reconstruction_partial hl fs fs' x hx rfl o (by
    rw [hwl, hoo]
    push_cast
    ring) (by omega)
  refine ⟨X, h1, ?_⟩
  rw [h2]
  congr 1
  refine ext_getD _ _ h3 fun j hj => (h5 j (h3 ▸ hj)).1 ?_
  rw [h3] at hj
  simp only [hwl] at h4 ⊢
  have hst : W - o = o := by omega
  rw [hst] at h4 ⊢
  -- the two frames that contain the sample
  have ho0 : 0 < o := by omega
  set q := (o + j) / o with hq
  have hq1 : 1 ≤ q := by
    rw [hq, Nat.le_div_iff_mul_le ho0]
    omega
  have hmod := Nat.div_add_mod (o + j) o
  have hr := Nat.mod_lt (o + j) ho0
  rw [← hq] at hmod
  have hqn : q < X.length := by
    by_contra hc
    have : X.length * o ≤ q * o := Nat.mul_le_mul_right _ (by omega)
    have e1 : q * o = o * q := Nat.mul_comm _ _
    omega
  set r := (o + j) % o with hrdef
  have hqo : (q - 1) * o + o = q * o := by
    obtain ⟨m, hm⟩ := Nat.exists_eq_add_of_le hq1
    rw [hm, Nat.add_sub_cancel_left]
    ring
  have e1 : q * o = o * q := Nat.mul_comm _ _
  have hval : ∀ i < W, (hann W).getD i 0 = 1 / 2 - 1 / 2 * Real.cos (2 * Real.pi * i / W) := by
    intro i hi
    unfold hann
    rw [getD_map_range, if_pos hi]
  have hsub : ({q - 1, q} : Finset ℕ) ⊆ Finset.range X.length := by
    intro k hk
    rw [Finset.mem_insert, Finset.mem_singleton] at hk
    rw [Finset.mem_range]
    omega
  have hge : (∑ k ∈ ({q - 1, q} : Finset ℕ),
      if k * o ≤ o + j ∧ o + j < k * o + (hann W).length then
        (hann W).getD (o + j - k * o) 0 ^ 2 else 0) ≤
      squaredWindows (hann W) o X.length (o + j) := by
    unfold squaredWindows
    refine Finset.sum_le_sum_of_subset_of_nonneg hsub fun k _ _ => ?_
    split_ifs
    · exact sq_nonneg _
    · exact le_rfl
  refine le_trans ?_ hge
  rw [Finset.sum_pair (by omega), hwl, if_pos (by omega), if_pos (by omega),
    show o + j - (q - 1) * o = o + r by omega, show o + j - q * o = r by omega,
    hval _ (by omega), hval _ (by omega)]
  have hWR : (W : ℝ) = 2 * o := by rw [hoo]; push_cast; ring
  have hoR : (o : ℝ) ≠ 0 := by exact_mod_cast ho0.ne'
  have hc : Real.cos (2 * Real.pi * ((o + r : ℕ) : ℝ) / W) =
      -Real.cos (2 * Real.pi * (r : ℝ) / W) := by
    rw [← Real.cos_add_pi]
    congr 1
    rw [hWR]
    push_cast
    field_simp
    ring
  rw [hc]
  nlinarith [sq_nonneg (Real.cos (2 * Real.pi * (r : ℝ) / W))]

example : Lossless ⟨hann 1024, 75, some 4096, false, true, .fftOrthogonal⟩ 4096 :=
  ⟨⟨10, by norm_num, by norm_num, by simp [hann]⟩, ⟨by norm_num, by norm_num⟩, rfl, rfl, rfl,
    by simp [hann]⟩

/-- An odd length of the transform. -/
example : Lossless ⟨hann 1024, 75, some 4097, false, true, .fftOrthogonal⟩ 4097 :=
  ⟨⟨10, by norm_num, by norm_num, by simp [hann]⟩, ⟨by norm_num, by norm_num⟩, rfl, rfl, rfl,
    by simp [hann]⟩

example : ((75 : ℚ) / 100 * (1024 : ℕ)) = (768 : ℕ) := by norm_num

example : ValidLength 1024 := ⟨10, by norm_num, by norm_num, by norm_num⟩

/-! ### Without padding -/

/-- Without padding, samples that are not covered by the two empty frames added at the edges (and at
which the squared windows reach the threshold) are recovered; at the edges they are attenuated. -/
theorem C74_no_padding_partial {P : Params} {F : ℕ} (h : Lossless P F) (fs : ℕ)
    (fs' : Option ℕ) (x : List ℝ) (hpad : P.padding = false) (o : ℕ)
    (ho : P.overlap / 100 * P.w.length = o) :
    ∃ X y, stft P fs x = .ok X ∧ istft P fs' x.length (F / 2 + 1) X = .ok y ∧
      y.length = x.length ∧ ∀ j < x.length,
        y.getD j 0 = x.getD j 0 * (squaredWindows P.w (P.w.length - o) X.length j /
          max (squaredWindows P.w (P.w.length - o) (X.length + 2) (P.w.length - o + j))
            (1 / 10000)) := by
  obtain ⟨-, hW, -⟩ := valid_mem h.valid
  have hlt : o < P.w.length := by
    have h1 : (o : ℚ) < P.w.length := by
      rw [← ho]
      have h2 : (0 : ℚ) < P.w.length := by exact_mod_cast (by omega : 0 < P.w.length)
      have h3 : P.overlap / 100 < 1 := by
        rw [div_lt_one (by norm_num)]
        exact h.percent.2
      calc P.overlap / 100 * P.w.length < 1 * P.w.length := mul_lt_mul_of_pos_right h3 h2
        _ = P.w.length := one_mul _
    exact_mod_cast h1
  obtain ⟨e1, e2, e3⟩ := floor_exact P.w.length P.overlap o ho hlt.le
  obtain ⟨frames, hf, hst, hF, hb⟩ := frames_back h fs fs' x (by omega)
  rw [e1] at hf
  set step := P.w.length - o with hstepdef
  have hpl : padded P x = x := by
    unfold padded
    rw [hpad]
    simp
  obtain ⟨frames', hf', hfo, -, -, hL⟩ := C21_keep (padded P x) P.w.length step (by omega)
  obtain rfl : frames = frames' := by
    rw [hf] at hf'
    exact Except.ok.inj hf'
  rw [hpl] at hfo hL
  set extra := List.replicate (min F P.w.length) (0 : ℝ) with hextra
  have hel : extra.length = P.w.length := by
    rw [hextra, List.length_replicate, Nat.min_eq_right h.enough]
  set G := extra :: windowed P.w frames ++ [extra] with hG
  have hGl : G.length = frames.length + 2 := by
    rw [hG]
    simp [windowed]
  have hG0 : G.getD 0 [] = extra := by rw [hG]; rfl
  have hGk : ∀ k < frames.length, G.getD (k + 1) [] =
      (List.range P.w.length).map fun i => P.w.getD i 0 * (frames.getD k []).getD i 0 := by
    intro k hk
    rw [hG, List.cons_append, List.getD_cons_succ, List.getD_append _ _ _ _ (by
      rwa [windowed_length]), windowed_getD' _ _ _ hk]
  have hGn : G.getD (frames.length + 1) [] = extra := by
    rw [hG, List.cons_append, List.getD_cons_succ, List.getD_append_right _ _ _ _ (by
      rw [windowed_length]), windowed_length, Nat.sub_self]
    rfl
  have hall : ∀ k < G.length, (G.getD k []).length = P.w.length := by
    intro k hk
    rw [hGl] at hk
    cases k with
    | zero => rw [hG0, hel]
    | succ k =>
      rcases Nat.lt_or_ge k frames.length with hc | hc
      · rw [hGk k hc]
        simp
      · rw [show k = frames.length by omega, hGn, hel]
  obtain ⟨td, ht, htl, htv⟩ := reconstruct_formula G P.w step hall (by omega)
    (by omega) (1 / 10000) (1 / 2 ^ 1022) (by
        have : (10000 : ℝ) < 2 ^ 1022 := by
          calc (10000 : ℝ) < 2 ^ 14 := by norm_num
            _ ≤ 2 ^ 1022 := pow_le_pow_right₀ (by norm_num) (by norm_num)
        exact one_div_lt_one_div_of_lt (by norm_num) this)
  rw [hGl] at htl htv
  have hex : ∀ i, extra.getD i 0 = 0 := by
    intro i
    rcases Nat.lt_or_ge i extra.length with hc | hc
    · rw [List.getD_eq_getElem _ _ hc]
      simp only [extra, List.getElem_replicate]
    · rw [List.getD_eq_default _ _ hc]
  have hval : ∀ j, step + j < td.length → td.getD (step + j) 0 = x.getD j 0 *
      (squaredWindows P.w step frames.length j /
        max (squaredWindows P.w step (frames.length + 2) (step + j)) (1 / 10000)) := by
    intro j hj
    rw [htv _ hj, ← mul_div_assoc]
    congr 1
    rw [Finset.sum_range_succ, Finset.sum_range_succ', hG0, hGn]
    simp only [hex, zero_mul, ite_self, add_zero]
    unfold squaredWindows
    rw [Finset.mul_sum]
    refine Finset.sum_congr rfl fun k hk => ?_
    have hk' := Finset.mem_range.1 hk
    have hks : (k + 1) * step = k * step + step := by ring
    by_cases hc : k * step ≤ j ∧ j < k * step + P.w.length
    · rw [if_pos (by omega), if_pos hc, hGk k hk', getD_map_range, if_pos (by omega),
        (hfo k hk').2 _ (by omega), show k * step + (step + j - (k + 1) * step) = j by omega,
        show step + j - (k + 1) * step = j - k * step by omega]
      ring
    · rw [if_neg (by omega), if_neg hc, mul_zero]
  have hlen : x.length + 2 * step ≤ td.length := by
    rw [htl]
    have h1 : frames.length * step = step * frames.length := Nat.mul_comm _ _
    have h2 : step * (frames.length + 2) = step * frames.length + 2 * step := by ring
    omega
  refine ⟨_, padTrim (sliceBoth step td) x.length true, hst, ?_, padTrim_length _ _ _, ?_⟩
  · unfold istft
    rw [if_neg (fun hc => not_density h.noUnits hc.1)]
    dsimp only
    rw [hF, hb, hpad, e2]
    simp only [Bool.false_eq_true, if_false]
    have hov : STFT.overlapAdd P (extra :: windowed P.w frames ++ [extra]) step = .ok td := by
      unfold STFT.overlapAdd
      rw [← hG, if_neg, ht]
      rw [not_not]
      intro f hfm
      obtain ⟨k, hk, rfl⟩ := List.getElem_of_mem hfm
      rw [← hall k hk, List.getD_eq_getElem _ _ hk]
    rw [hov]
  · intro j hj
    rw [List.length_map, padTrim_end _ _ _ hj]
    unfold sliceBoth
    rw [if_neg (by omega), getD_take _ _ _ (by omega), getD_drop, hval j (by omega)]

/-! ### Where the inverse fails -/

/-- The lengths of the transform and of the inverse agree only if the overlap is a whole number of
samples: otherwise the step of the inverse is one sample too short or its overlap is. -/
theorem C74_lengths (W : ℕ) (p : ℚ) (hp : 0 ≤ p) (hp' : p < 100) :
    let f := Int.fract (p / 100 * W)
    (f = 0 → inverseStep W p = W - overlapSamples W p ∧ inverseOverlap W p = overlapSamples W p) ∧
      (0 < f → f < 1 / 2 → inverseStep W p + 1 = W - overlapSamples W p ∧
        inverseOverlap W p = overlapSamples W p) ∧
      (1 / 2 ≤ f → inverseStep W p = W - overlapSamples W p ∧
        inverseOverlap W p + 1 = overlapSamples W p) := by
  intro f
  set v : ℚ := p / 100 * W with hv
  have hv0 : 0 ≤ v := by positivity
  have hvW : v ≤ W := by
    have h3 : p / 100 ≤ 1 := by
      rw [div_le_one (by norm_num)]
      exact hp'.le
    have : (0 : ℚ) ≤ W := by positivity
    nlinarith
  obtain ⟨a, ha⟩ : ∃ a : ℕ, (a : ℚ) = v - f := by
    refine ⟨⌊v⌋₊, ?_⟩
    have h1 : (⌊v⌋ : ℚ) = v - f := by
      have := Int.floor_add_fract v
      linarith
    rw [← h1]
    have := natCast_floor_eq_intCast_floor hv0
    exact_mod_cast this
  have hva : v = a + f := by linarith
  have hf0 : 0 ≤ f := Int.fract_nonneg _
  have hf1 : f < 1 := Int.fract_lt_one _
  have hio : inverseOverlap W p = a := by
    unfold inverseOverlap
    rw [← hv, hva, Nat.floor_eq_iff (by positivity)]
    constructor <;> linarith
  have haW : a ≤ W := by
    have : (a : ℚ) ≤ W := by linarith
    exact_mod_cast this
  have hWa : ((W - a : ℕ) : ℚ) = W - a := Nat.cast_sub haW
  have his : (1 - p / 100) * W = (W - a : ℕ) - f := by rw [hWa, sub_mul, ← hv, hva]; ring
  refine ⟨fun h => ?_, fun h h' => ?_, fun h => ?_⟩
  · have hos : overlapSamples W p = a := by
      unfold overlapSamples
      rw [← hv, hva, h, Nat.floor_eq_iff (by positivity)]
      constructor <;> linarith
    refine ⟨?_, by rw [hio, hos]⟩
    unfold inverseStep
    rw [his, h, sub_zero, Nat.floor_natCast, hos]
  · have hos : overlapSamples W p = a := by
      unfold overlapSamples
      rw [← hv, hva, Nat.floor_eq_iff (by positivity)]
      constructor <;> linarith
    refine ⟨?_, by rw [hio, hos]⟩
    have h2 : a < W := by
      have : (a : ℚ) < W := by linarith
      exact_mod_cast this
    have h3 : ((W - a - 1 : ℕ) : ℚ) = (W - a : ℕ) - 1 := by
      rw [Nat.cast_sub (by omega)]
      norm_num
    have : inverseStep W p = W - a - 1 := by
      unfold inverseStep
      rw [his, Nat.floor_eq_iff (by
        have : (1 : ℚ) ≤ (W - a : ℕ) := by exact_mod_cast (by omega : 1 ≤ W - a)
        linarith), h3]
      constructor <;> linarith
    rw [this, hos]
    omega
  · have hos : overlapSamples W p = a + 1 := by
      unfold overlapSamples
      rw [← hv, hva, Nat.floor_eq_iff (by positivity)]
      push_cast
      constructor <;> linarith
    refine ⟨?_, by rw [hio, hos]⟩
    have h2 : a < W := by
      have : (a : ℚ) < W := by linarith
      exact_mod_cast this
    have h3 : ((W - a - 1 : ℕ) : ℚ) = (W - a : ℕ) - 1 := by
      rw [Nat.cast_sub (by omega)]
      norm_num
    have : inverseStep W p = W - a - 1 := by
      unfold inverseStep
      rw [his, Nat.floor_eq_iff (by
        have : (1 : ℚ) ≤ (W - a : ℕ) := by exact_mod_cast (by omega : 1 ≤ W - a)
        linarith), h3]
      constructor <;> linarith
    rw [this, hos]
    omega

/-- If the overlap is not a whole number of samples and is rounded up by the transform, the inverse
is one sample late: its first sample is zero and the last one of the signal is lost. -/
theorem C74_one_sample_late {P : Params} {F : ℕ} (h : Lossless P F) (fs : ℕ)
    (fs' : Option ℕ) (x : List ℝ) (hx : x ≠ []) (hpad : P.padding = true)
    (hf : 1 / 2 ≤ Int.fract (P.overlap / 100 * P.w.length))
    (hlt : overlapSamples P.w.length P.overlap < P.w.length)
    (h0 : 0 < inverseOverlap P.w.length P.overlap) :
    ∃ X y, stft P fs x = .ok X ∧ istft P fs' x.length (F / 2 + 1) X = .ok y ∧
      y.getD 0 0 = 0 ∧ ∀ j, j + 1 < x.length →
        1 / 10000 ≤ squaredWindows P.w (P.w.length - overlapSamples P.w.length P.overlap) X.length
          (overlapSamples P.w.length P.overlap + j) → y.getD (j + 1) 0 = x.getD j 0 := by
  obtain ⟨e1, e2⟩ := (C74_lengths P.w.length P.overlap h.percent.1 h.percent.2).2.2 hf
  obtain ⟨X, y, h1, h2, h3, h4, h5⟩ := padded_back h fs fs' x hx hpad hlt e1 (by omega) h0
  refine ⟨X, y, h1, h2, ?_, fun j hj hs => ?_⟩
  · rw [h5 0 (List.length_pos_of_ne_nil hx), getD_padded P hpad, if_neg (by omega), zero_mul,
      zero_div]
  · rw [h5 (j + 1) hj, show inverseOverlap P.w.length P.overlap + (j + 1) =
      overlapSamples P.w.length P.overlap + j by omega, getD_padded P hpad, if_pos (by omega),
      max_eq_left hs, mul_div_assoc, div_self, mul_one]
    · congr 1
      omega
    · intro hc
      rw [hc] at hs
      norm_num at hs

/-- An overlap of 70 percent is of this kind for windows of 1024 samples. -/
example : 1 / 2 ≤ Int.fract ((70 : ℚ) / 100 * (1024 : ℕ)) ∧ overlapSamples 1024 70 = 717 ∧
    inverseOverlap 1024 70 = 716 := by
  refine ⟨?_, ?_, ?_⟩ <;> decide +kernel

/-- If it is rounded down, the frames are put together with another step (windows of 16 samples with
40 percent overlap: frames every 10 samples, put together every 9 samples), and the signal is
distorted, even with a rectangular window. -/
theorem C74_wrong_step : overlapSamples 16 40 = 6 ∧ inverseStep 16 40 = 9 ∧
    ∃ frames : List (List ℚ), ∃ y, framed (List.replicate 6 0 ++ (List.range 12).map (fun n => (n : ℚ))
        ++ List.replicate 6 0) 16 (16 - 6) true = .ok frames ∧
      reconstruct (windowed (List.replicate 16 1) frames) 16 9 (some (List.replicate 16 1)) none
        (some (1 / 10000)) (1 / 2 ^ 1022) = .ok y ∧ y.getD (6 + 5) 0 = 11 / 2 := by
  refine ⟨by decide +kernel, by decide +kernel, ?_⟩
  refine ⟨_, _, rfl, rfl, ?_⟩
  decide +kernel

/-- Without overlap (and with the default padding) the inverse is silent. -/
theorem C74_no_overlap_silent {P : Params} (fs' : Option ℕ) (L bins : ℕ) (X : List (ℕ → ℂ))
    (hpad : P.padding = true) (h0 : inverseOverlap P.w.length P.overlap = 0) (y : List ℝ)
    (h : istft P fs' L bins X = .ok y) : y.length = L ∧ ∀ j, y.getD j 0 = 0 := by
  unfold istft at h
  dsimp only at h
  split_ifs at h
  · split at h
    · exact nomatch h
    · rw [← Except.ok.inj h]
      refine ⟨padTrim_length _ _ _, fun j => ?_⟩
      rcases Nat.lt_or_ge j L with hj | hj
      · rw [padTrim_end _ _ _ hj, h0]
        unfold sliceBoth
        simp
      · rw [List.getD_eq_default _ _ (by rwa [padTrim_length])]

example : inverseOverlap 1024 0 = 0 := by decide +kernel

/-- A spectral density cannot be transformed back with the signal alone: its sampling rate is not
used. -/
theorem C74_density_error (P : Params) (h : P.scaling = .ampDensity) (L bins : ℕ)
    (X : List (ℕ → ℂ)) : istft P none L bins X = .error .typeError := by
  unfold istft
  rw [if_pos ⟨by rw [h]; rfl, rfl⟩]

theorem sum_irfft (F M : ℕ) (hF : 0 < F) (hM : 0 < M) (X : ℕ → ℂ) :
    ∑ j ∈ Finset.range F, Deconv.irfft F M X j = (X 0).re := by
  have h := Transforms.dft_ifft F (Deconv.herm F fun k => if k < M then X k else 0) 0 hF
  unfold dft at h
  have h2 : ∀ j ∈ Finset.range F,
      Transforms.ifft F (Deconv.herm F fun k => if k < M then X k else 0) j * e F (-((0 : ℕ) * j)) =
      Transforms.ifft F (Deconv.herm F fun k => if k < M then X k else 0) j := by
    intro j _
    simp [e]
  rw [Finset.sum_congr rfl h2] at h
  have h3 := congrArg Complex.re h
  rw [Complex.re_sum] at h3
  have h4 : (Deconv.herm F (fun k => if k < M then X k else 0) 0).re = (X 0).re := by
    unfold Deconv.herm
    dsimp only
    rw [if_pos rfl, if_pos hM, Complex.ofReal_re]
  rw [← h4, ← h3]
  rfl

/-- With the scaling as amplitude spectrum, the first and last bin are divided by `√2` and this is
not undone: every frame comes back with its mean divided by `√2`. -/
theorem C74_amplitude_spectrum_mean (P : Params) (fs fs' : ℕ) (h : P.scaling = .ampSpectrum)
    (hW : 2 ≤ P.w.length) (hs : P.w.sum ≠ 0) (frame : List ℝ)
    (hl : frame.length = P.w.length) :
    (recoverFrame P P.w.length fs' (P.w.length / 2 + 1) (frameSpectrum P P.w.length fs frame)).sum = frame.sum / √2 := by
  set W := P.w.length with hWd
  have hfac : ∀ fs, factor P.scaling W fs (some P.w) = 2 ^ (0.5 : ℝ) / P.w.sum := by
    intro fs
    rw [h]
    rfl
  have h2 : (2 : ℝ) ^ (0.5 : ℝ) = √2 := by
    rw [Real.sqrt_eq_rpow]
    norm_num
  have h3 : (√2 : ℝ) ≠ 0 := (Real.sqrt_pos.2 (by norm_num)).ne'
  have hsum : ∀ l : List ℝ, l.sum = ∑ j ∈ Finset.range l.length, l.getD j 0 := by
    intro l
    induction l with
    | nil => simp
    | cons a l ih =>
      rw [List.sum_cons, List.length_cons, Finset.sum_range_succ', ih]
      simp [add_comm]
  rw [hsum, hsum frame]
  have hlen : (recoverFrame P W fs' (W / 2 + 1) (frameSpectrum P W fs frame)).length = W := by
    unfold recoverFrame
    simp [← hWd]
  rw [hlen, hl]
  have hph : physical P.scaling = true := by rw [h]; rfl
  have hin : ∀ F, inverseNorm P.scaling F = 1 := by intro F; rw [h]; rfl
  have hfn : ∀ F, forwardNorm P.scaling F = 1 := by intro F; rw [h]; rfl
  have hval : ∀ j ∈ Finset.range W, (recoverFrame P W fs' (W / 2 + 1) (frameSpectrum P W fs frame)).getD j 0 =
      Deconv.irfft W (W / 2 + 1) (frameSpectrum P W fs frame) j / (√2 / P.w.sum) := by
    intro j hj
    unfold recoverFrame
    rw [← hWd, Nat.min_self, getD_map_range, if_pos (Finset.mem_range.1 hj), hph]
    simp only [if_true]
    rw [hfac, hin, mul_one, h2]
  rw [Finset.sum_congr rfl hval, ← Finset.sum_div, sum_irfft W (W / 2 + 1) (by omega) (by omega)]
  have h0 : frameSpectrum P W fs frame 0 =
      rfft W (fun n => frame.getD n 0) 0 / (√2 : ℝ) * ((√2 / P.w.sum : ℝ) : ℂ) := by
    unfold frameSpectrum
    rw [hph, hfac, hfn, h2]
    simp only [if_true]
    have ha : P.scaling.isAmplitude = true := by rw [h]; rfl
    rw [ha]
    simp only [if_true]
    unfold edgeFix
    dsimp only
    rw [if_pos rfl, if_neg (by omega), h2]
    simp
  have h1 : rfft W (fun n => frame.getD n 0) 0 = ((∑ j ∈ Finset.range W, frame.getD j 0 : ℝ) : ℂ) := by
    unfold rfft dft
    push_cast
    refine Finset.sum_congr rfl fun n _ => ?_
    simp [e]
  rw [h0, h1, ← Complex.ofReal_div, ← Complex.ofReal_mul, Complex.ofReal_re]
  field_simp

/-! ### The axes -/

/-- The frequency vector has one entry for each bin, with its frequency, if the transform has the
length of the window. -/
theorem C74_frequencies_partial (P : Params) (fs F : ℕ) (h : F = P.w.length) :
    (frequencies P fs).1 = rfftBins F ∧ ∀ k, (frequencies P fs).2 k = k * fs / F := by
  rw [h]
  exact ⟨rfl, fun k => rfl⟩

/-- It does not fit to the bins for any other length of the transform of which half is another
number: there are more or less entries than bins. -/
theorem C74_frequencies_wrong (P : Params) (fs F : ℕ) (h : F / 2 ≠ P.w.length / 2) :
    (frequencies P fs).1 ≠ rfftBins F := by
  unfold frequencies rfftBins
  dsimp only
  omega

/-- Two frames are closer in time than the time vector says, for every signal with more than one
frame. -/
theorem C74_times_stretched (P : Params) (fs : ℕ) (hfs : 0 < fs) (x : List ℝ) (X : List (ℕ → ℂ))
    (h : stft P fs x = .ok X) (hn : 2 ≤ X.length) (k : ℕ) :
    ((P.w.length - overlapSamples P.w.length P.overlap : ℕ) : ℝ) / fs <
      times P fs x X.length (k + 1) - times P fs x X.length k := by
  unfold stft at h
  split_ifs at h
  dsimp only at h
  set step := P.w.length - overlapSamples P.w.length P.overlap with hstep
  have hs0 : 0 < step := by
    by_contra hc
    have : step = 0 := by omega
    rw [this] at h
    unfold framed numberFrames at h
    simp at h
  obtain ⟨frames, hf, -, -, hk, -⟩ := C21_keep (padded P x) P.w.length step hs0
  rw [hf] at h
  have hXl : X.length = frames.length := by
    rw [← Except.ok.inj h]
    simp
  have h1 := hk (frames.length - 1) (by omega)
  have h2 : ((X.length : ℝ) - 1) * step < (padded P x).length := by
    have h3 : (((frames.length - 1) * step : ℕ) : ℝ) < (padded P x).length := by exact_mod_cast h1
    rw [Nat.cast_mul, Nat.cast_sub (by omega)] at h3
    rw [hXl]
    simpa using h3
  have h4 : (0 : ℝ) < (X.length : ℝ) - 1 := by
    have : (2 : ℝ) ≤ X.length := by exact_mod_cast hn
    linarith
  have h5 : (0 : ℝ) < fs := by exact_mod_cast hfs
  have e : times P fs x X.length (k + 1) - times P fs x X.length k =
      (padded P x).length / fs / (X.length - 1) := by
    unfold times
    rw [if_neg (by omega), if_neg (by omega)]
    push_cast
    ring
  rw [e, lt_div_iff₀ h4, div_mul_eq_mul_div, div_lt_div_iff_of_pos_right h5]
  linarith

end Verif.Props.C74

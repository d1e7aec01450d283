import Verif.Model.SpectralSubtraction
import Verif.Lemmas.SignalData
import Verif.Lemmas.Framing
import Verif.Props.C22
import Verif.Props.C74

/-!
# Lemmas about the spectral subtractor
-/

namespace Verif.SpectralSubtraction

open SignalData Complex Framing
open Verif.LFilter (getD_map_range ext_getD)

/-- The divisor of the reconstruction. -/
noncomputable def divisor (w : List ℝ) (step n : ℕ) (thr : Option ℝ) (j : ℕ) : ℝ :=
  match thr with
  | some t => max (squaredWindows w step n j) t
  | none => squaredWindows w step n j

theorem finish_formula (frames : List (List ℝ)) (w : List ℝ) (step L : ℕ) (thr : Option ℝ)
    (hlen : ∀ k < frames.length, (frames.getD k []).length = w.length) (hw : 1 < w.length)
    (hn : 0 < frames.length) (hs : step ≤ w.length)
    (hL : L + w.length + w.length ≤ frames.length * step)
    (hE : ∀ j < L, Level.tiny < divisor w step frames.length thr (w.length + j)) :
    ∃ y, finish frames w step (L + w.length + w.length) thr = .ok y ∧ y.length = L ∧
      ∀ j < L, y.getD j 0 = (∑ k ∈ Finset.range frames.length,
        if k * step ≤ w.length + j ∧ w.length + j < k * step + w.length then
          (frames.getD k []).getD (w.length + j - k * step) 0 * w.getD (w.length + j - k * step) 0
          else 0) / divisor w step frames.length thr (w.length + j) := by
  have hs' : step ≤ step * frames.length := Nat.le_mul_of_pos_right _ hn
  unfold finish reconstruct
  simp only
  rw [if_neg (by simp), if_neg (by omega), if_neg (by omega)]
  simp only
  refine ⟨_, rfl, by simp only [padTrim_length]; omega, ?_⟩
  intro j hj
  set total := step * frames.length + w.length - step with htotal
  have hcomm : frames.length * step = step * frames.length := Nat.mul_comm _ _
  have hjt : w.length + j < total := by omega
  obtain ⟨henvlen, henv⟩ := envelope_eq w total step frames.length
  simp only [padTrim_length]
  rw [padTrim_start _ _ _ (by omega), if_pos (by rw [padTrim_length]; omega), padTrim_length,
    padTrim_end _ _ _ (by omega), padTrim_end _ _ _ (by omega)]
  have hidx : j + (L + w.length + w.length - w.length) -
      (L + w.length + w.length - w.length - w.length) = w.length + j := by omega
  rw [hidx, getD_map_range, if_pos hjt]
  have key : ∀ (E : List ℝ) (A : ℝ),
      E.getD (w.length + j) 0 = divisor w step frames.length thr (w.length + j) →
      (if E.getD (w.length + j) 0 > Level.tiny then A / E.getD (w.length + j) 0 else A) =
        A / divisor w step frames.length thr (w.length + j) := by
    intro E A hEA
    rw [hEA, if_pos (hE j hj)]
  rw [key]
  swap
  · unfold divisor
    cases thr with
    | none => exact henv _ hjt
    | some t =>
      simp only
      rw [← henv _ hjt, List.getD_eq_getElem _ _ (by simpa [henvlen] using hjt),
        List.getD_eq_getElem _ _ (by simpa [henvlen] using hjt)]
      simp
  congr 1
  have hfl : (frames.map (applyWindow w)).length = frames.length := by simp
  rw [hfl, (Framing.overlapAdd (fun k => (frames.map (applyWindow w)).getD k []) step total
    frames.length).2 _ hjt]
  refine Finset.sum_congr rfl fun k hk => ?_
  have hk' := Finset.mem_range.1 hk
  have hg : (frames.map (applyWindow w)).getD k [] = applyWindow w (frames.getD k []) := by
    rw [List.getD_eq_getElem _ _ (by simpa using hk'), List.getElem_map,
      List.getD_eq_getElem frames _ hk']
  have hal : (applyWindow w (frames.getD k [])).length = w.length := by
    unfold applyWindow
    rw [List.length_map, List.length_range, hlen k hk']
  rw [hg, hal]
  by_cases h : k * step ≤ w.length + j ∧ w.length + j < k * step + w.length
  · rw [if_pos h, if_pos h]
    unfold applyWindow
    rw [getD_map_range, hlen k hk', if_pos (by omega), if_neg (by omega)]
  · rw [if_neg h, if_neg h]

theorem padded_length (x : List ℝ) (W : ℕ) : (padded x W).length = x.length + W + W := by
  unfold padded; rw [padTrim_length]

theorem padded_getD (x : List ℝ) (W i : ℕ) :
    (padded x W).getD i 0 = if W ≤ i ∧ i < W + x.length then x.getD (i - W) 0 else 0 := by
  by_cases hi : i < x.length + W + W
  · unfold padded
    rw [padTrim_start _ _ _ hi, padTrim_length]
    by_cases h : W ≤ i
    · rw [if_pos (by omega), padTrim_end _ _ _ (by omega)]
      have : i + (x.length + W) - (x.length + W + W) = i - W := by omega
      rw [this]
      by_cases h2 : i < W + x.length
      · rw [if_pos ⟨h, h2⟩]
      · rw [if_neg (by omega), List.getD_eq_default _ _ (by omega)]
    · rw [if_neg (by omega), if_neg (by omega)]
  · rw [List.getD_eq_default _ _ (by rw [padded_length]; omega), if_neg (by omega)]

theorem subtractBin_zero (factor expo : ℝ) (he : 0 < expo) (X : ℂ) : subtractBin factor expo 0 X = X := by
  unfold subtractBin
  rw [mul_zero, sub_zero, max_eq_left (Real.rpow_nonneg (norm_nonneg X) _), ← Real.rpow_mul (norm_nonneg X),
    mul_one_div_cancel he.ne', Real.rpow_one, mul_comm I]
  exact Complex.norm_mul_exp_arg_mul_I X

theorem subtractBin_norm (factor expo N : ℝ) (he : 0 < expo) (X : ℂ) :
    ‖subtractBin factor expo N X‖ ^ expo = max (‖X‖ ^ expo - factor * N) 0 := by
  unfold subtractBin
  have h0 : 0 ≤ max (‖X‖ ^ expo - factor * N) 0 := le_max_right _ _
  rw [norm_mul, mul_comm I, Complex.norm_exp_ofReal_mul_I, mul_one, Complex.norm_real, Real.norm_of_nonneg
    (Real.rpow_nonneg h0 _), ← Real.rpow_mul h0, one_div_mul_cancel he.ne', Real.rpow_one]

theorem subtractBin_gain (factor expo N : ℝ) (he : 0 < expo) (hN : 0 ≤ factor * N) (X : ℂ) :
    ∃ g : ℝ, 0 ≤ g ∧ g ≤ 1 ∧ subtractBin factor expo N X = g * X := by
  have h0 : 0 ≤ max (‖X‖ ^ expo - factor * N) 0 := le_max_right _ _
  have hle : max (‖X‖ ^ expo - factor * N) 0 ≤ ‖X‖ ^ expo :=
    max_le (by linarith) (Real.rpow_nonneg (norm_nonneg X) _)
  have hr0 : 0 ≤ (max (‖X‖ ^ expo - factor * N) 0) ^ (1 / expo) := Real.rpow_nonneg h0 _
  have hr : (max (‖X‖ ^ expo - factor * N) 0) ^ (1 / expo) ≤ ‖X‖ := by
    have := Real.rpow_le_rpow h0 hle (by positivity : 0 ≤ 1 / expo)
    rwa [← Real.rpow_mul (norm_nonneg X), mul_one_div_cancel he.ne', Real.rpow_one] at this
  by_cases hX : X = 0
  · refine ⟨0, le_rfl, zero_le_one, ?_⟩
    have : (max (‖X‖ ^ expo - factor * N) 0) ^ (1 / expo) = 0 :=
      le_antisymm (by simpa [hX] using hr) hr0
    unfold subtractBin
    rw [this]
    simp
  · have hX' : 0 < ‖X‖ := norm_pos_iff.mpr hX
    refine ⟨(max (‖X‖ ^ expo - factor * N) 0) ^ (1 / expo) / ‖X‖, by positivity,
      (div_le_one hX').mpr hr, ?_⟩
    unfold subtractBin
    conv_rhs => rw [← Complex.norm_mul_exp_arg_mul_I X]
    rw [mul_comm I]
    have : (‖X‖ : ℂ) ≠ 0 := by exact_mod_cast hX'.ne'
    rw [Complex.norm_mul_exp_arg_mul_I X]
    push_cast
    generalize (((max (‖X‖ ^ expo - factor * N) 0) ^ (1 / expo) : ℝ) : ℂ) = r
    have h3 := Complex.norm_mul_exp_arg_mul_I X
    rw [div_mul_eq_mul_div, eq_div_iff this]
    conv_rhs => rw [← h3]
    ring

/-- The estimate of the noise after the first `k + 1` frames. -/
noncomputable def noiseAfter (s : Settings) (w : List ℝ) (frames : List (List ℝ)) (noise : ℕ → ℝ) :
    ℕ → ℕ → ℝ
  | 0 => updateNoise s w (frames.getD 0 []) noise
  | k + 1 => updateNoise s w (frames.getD (k + 1) []) (noiseAfter s w frames noise k)

theorem noiseAfter_cons (s : Settings) (w f : List ℝ) (frames : List (List ℝ)) (noise : ℕ → ℝ) (k : ℕ) :
    noiseAfter s w (f :: frames) noise (k + 1) =
      noiseAfter s w frames (updateNoise s w f noise) k := by
  induction k with
  | zero => rfl
  | succ k ih => rw [noiseAfter, ih]; rfl

theorem adaptiveFrames_length (s : Settings) (w : List ℝ) (frames : List (List ℝ)) (noise : ℕ → ℝ) :
    (adaptiveFrames s w frames noise).length = frames.length := by
  induction frames generalizing noise with
  | nil => rfl
  | cons f rest ih => simp only [adaptiveFrames, List.length_cons, ih]

theorem adaptiveFrames_getD (s : Settings) (w : List ℝ) (frames : List (List ℝ)) (noise : ℕ → ℝ) (k : ℕ)
    (hk : k < frames.length) :
    (adaptiveFrames s w frames noise).getD k [] =
      newFrame s w (frames.getD k []) fun b => noiseAfter s w frames noise k b ^ s.expo := by
  induction frames generalizing noise k with
  | nil => simp at hk
  | cons f rest ih =>
    cases k with
    | zero => rfl
    | succ k =>
      simp only [adaptiveFrames, List.getD_cons_succ]
      rw [ih _ _ (by simpa using hk)]
      simp only [noiseAfter_cons]

theorem updateNoise_nonneg (s : Settings) (h0 : 0 ≤ s.forget) (h1 : s.forget ≤ 1) (w f : List ℝ)
    (noise : ℕ → ℝ) (hn : ∀ b, 0 ≤ noise b) (b : ℕ) : 0 ≤ updateNoise s w f noise b := by
  unfold updateNoise
  split_ifs
  · exact add_nonneg (mul_nonneg (hn b) h0) (mul_nonneg (norm_nonneg _) (by linarith))
  · exact hn b

theorem noiseAfter_nonneg (s : Settings) (h0 : 0 ≤ s.forget) (h1 : s.forget ≤ 1) (w : List ℝ)
    (frames : List (List ℝ)) (k b : ℕ) : 0 ≤ noiseAfter s w frames (fun _ => 0) k b := by
  induction k generalizing b with
  | zero => exact updateNoise_nonneg s h0 h1 w _ _ (fun _ => le_rfl) b
  | succ k ih => exact updateNoise_nonneg s h0 h1 w _ _ ih b

theorem newFrame_length (s : Settings) (w f : List ℝ) (noise : ℕ → ℝ) :
    (newFrame s w f noise).length = w.length := by simp [newFrame]

theorem newFrame_getD (s : Settings) (w f : List ℝ) (noise : ℕ → ℝ) (i : ℕ) (hi : i < w.length) :
    (newFrame s w f noise).getD i 0 = DFT.irfft w.length
      (fun k => subtractBin s.factor s.expo (noise k) (frameSpectrum w f k)) i := by
  unfold newFrame
  rw [getD_map_range, if_pos hi]

theorem stepSize_le (s : Settings) (W : ℕ) : stepSize s W ≤ W := by
  unfold stepSize
  refine Nat.div_le_of_le_mul ?_
  rw [Nat.mul_comm 100 W]
  exact Nat.mul_le_mul_left _ (Nat.sub_le _ _)

end Verif.SpectralSubtraction

import Verif.Props.C84

/-!
# C84: where the windows around the peak are wrong, and examples
-/

namespace Verif.CenteredIR

open WindowIR

theorem broadcast_error (x y : List ℝ) (h : x.length ≠ y.length) (hx : x.length ≠ 1) (hy : y.length ≠ 1) :
    broadcastMul x y = .error .valueError := by
  unfold broadcastMul
  rw [if_neg h, if_neg hy, if_neg hx]

/-- The part between the flips fails if the flag for centered impulses is set and one more sample than
samples of the window is taken. -/
theorem core_error (v : List ℝ) (p total : ℕ) (sym : ℕ → ℕ → ℝ)
    (hple : p ≤ total / 2) (hl : p + total / 2 + 1 ≤ max v.length total) (h2 : 2 ≤ p + total / 2) :
    core v p total true sym = .error .valueError := by
  unfold core
  dsimp only
  generalize hh : total / 2 = half at *
  have e1 : (if p < half then 0 else p - half) = 0 := by split_ifs <;> omega
  have e2 : (if p < half then half - p else 0) = half - p := by split_ifs <;> omega
  rw [e1, e2]
  set V := if (total : ℤ) - ((0 : ℕ) : ℤ) > v.length then
    v ++ List.replicate (total + 0 - v.length) 0 else v with hV
  have hVl : V.length = max v.length total := by
    rw [hV]
    split_ifs with hc
    · simp only [List.length_append, List.length_replicate]
      omega
    · omega
  clear_value V
  simp only [Bool.not_true, Bool.and_false, Bool.false_eq_true, if_false, if_true]
  rw [broadcast_error]
  · rw [slice_length, slice_length]
    simp only [List.length_map, List.length_range]
    omega
  · rw [slice_length]
    omega
  · rw [slice_length]
    simp only [List.length_map, List.length_range]
    omega

/-- **C84**, negation: if the number of samples of the impulse response is even and the second half of
the window ends exactly there, the function raises `ValueError`, unless the peak is in the middle and
the length is not changed (or the window has less than four samples). -/
theorem C84_refused_wrong (vec : List ℝ) (p : ℕ) (hp : IsFirstPeak vec p) (total : ℕ)
    (sym : ℕ → ℕ → ℝ) (h : p + total / 2 = vec.length) (heven : vec.length % 2 = 0)
    (hne : ¬ (p = total / 2 ∧ total = vec.length)) (h4 : 4 ≤ total) :
    windowCentered [vec] total sym = .error .valueError := by
  have hpl := hp.1
  have key : windowThis vec total sym = .error .valueError := by
    unfold windowThis
    rw [hp.index]
    dsimp only
    have hd : decide (p + total / 2 = vec.length ∧ vec.length % 2 = 0) = true := by
      rw [decide_eq_true_iff]
      exact ⟨h, heven⟩
    rw [hd]
    by_cases hf : total / 2 < p
    · rw [if_pos hf, core_error _ _ _ _ (by omega) (by simp; omega) (by omega)]
    · rw [if_neg hf, core_error _ _ _ _ (by omega) (by omega) (by omega)]
  unfold windowCentered
  rw [eachChannel]
  unfold channel
  rw [key]

/-- An impulse response of 1000 samples with its peak at sample 100, to be extended to 1800 samples;
and one of 48000 samples with its peak at sample 46000, for a window of 4000 samples. -/
example : windowCentered [unit 100 899] 1800 hann = .error .valueError ∧
    windowCentered [unit 46000 1999] 4000 hann = .error .valueError :=
  ⟨C84_refused_wrong _ 100 (unit_peak _ _) _ _ (by rw [unit_length]) (by rw [unit_length])
    (by omega) (by omega),
   C84_refused_wrong _ 46000 (unit_peak _ _) _ _ (by rw [unit_length]) (by rw [unit_length])
    (by omega) (by omega)⟩

/-- **C84**, negation: if the window has an even number of samples, more than the impulse response, and
the peak lies at half the length of the window, every sample is multiplied by the first value of the
window.  This is zero for the default window, which leaves silence. -/
theorem C84_silence_wrong (vec : List ℝ) (p : ℕ) (hp : IsFirstPeak vec p) (total : ℕ)
    (sym : ℕ → ℕ → ℝ) (h : total = 2 * p) (hn : vec.length < total) :
    ∃ td w, windowCentered [vec] total sym = .ok [(td, w, 0)] ∧ td.length = total ∧ ∀ i < total,
      td.getD i 0 = vec.getD i 0 * sym (total + 1) 0 ∧ w.getD i 0 = sym (total + 1) 0 := by
  have hpl := hp.1
  have hh : total / 2 = p := by omega
  have hv : ∀ i, (vec ++ List.replicate (2 * p + 0 - vec.length) 0).getD i 0 = vec.getD i 0 :=
    fun i => getD_padRight _ _ _
  have hvl : (vec ++ List.replicate (2 * p + 0 - vec.length) 0).length = 2 * p := by
    simp only [List.length_append, List.length_replicate]
    omega
  have key : windowThis vec total sym = .ok ((vec ++ List.replicate (2 * p + 0 - vec.length) 0).map
      (fun a => a * sym (2 * p + 1) 0), [sym (2 * p + 1) 0], 0) := by
    unfold windowThis
    rw [hp.index]
    dsimp only
    have hd : decide (p + total / 2 = vec.length ∧ vec.length % 2 = 0) = false := by
      rw [decide_eq_false_iff_not]
      omega
    rw [hd, if_neg (by omega)]
    unfold core
    dsimp only
    have e1 : (if p < p then 0 else p - p) = 0 := by simp
    have e2 : (if p < p then p - p else 0) = 0 := by simp
    rw [hh, e1, e2, if_pos (by push_cast; omega), h]
    generalize vec ++ List.replicate (2 * p + 0 - vec.length) 0 = V at hv hvl
    have hs : (decide (p + p + 1 > V.length) && !false) = true := by
      simp
      omega
    rw [hs]
    simp only [if_true]
    have hw : slice ((List.range (p * 2 + 1)).map (sym (p * 2 + 1))) 0 (p + p + 1 - V.length) =
        [sym (2 * p + 1) 0] := by
      rw [show p + p + 1 - V.length = 1 by omega, mul_comm p 2]
      unfold slice
      rw [List.range_succ_eq_map]
      rfl
    have hsl : slice V 0 V.length = V := by
      unfold slice
      simp
    rw [hw, hsl]
    unfold broadcastMul
    rw [if_neg (by simp; omega), if_pos (by simp)]
    dsimp only
    rw [if_pos (by rw [List.length_map, hvl])]
    rfl
  refine ⟨(vec ++ List.replicate (2 * p + 0 - vec.length) 0).map (fun a => a * sym (2 * p + 1) 0),
    List.replicate total (sym (2 * p + 1) 0), ?_, ?_, ?_⟩
  rotate_left
  · rw [List.length_map, hvl, h]
  · intro i hi
    rw [h]
    refine ⟨?_, Tukey.getD_replicate _ _ _ _ (by omega)⟩
    rw [← hv, List.getD_eq_getElem _ _ (by rw [List.length_map, hvl]; omega),
      List.getD_eq_getElem _ _ (by rw [hvl]; omega), List.getElem_map]
  · unfold windowCentered
    rw [eachChannel]
    unfold channel
    rw [key]
    dsimp only
    have e1 : ∀ x : List ℝ, x.length = total → toColumn total x = .ok x := by
      rintro x rfl
      exact toColumn_same x
    rw [e1 _ (by rw [List.length_map, hvl, h])]
    have e2 : toColumn total [sym (2 * p + 1) 0] = .ok (List.replicate total (sym (2 * p + 1) 0)) := by
      unfold toColumn
      rw [if_neg (by simp; omega), if_pos (by simp)]
      rfl
    rw [e2]
    dsimp only
    rw [eachChannel]
    dsimp only
    rw [if_neg (by simp; omega), if_neg (by omega)]

/-- A unit impulse at sample 100 of 150 is silenced by a Hann window of 200 samples
(whose first value is zero). -/
example (sym : ℕ → ℕ → ℝ) (h0 : ∀ n, sym n 0 = 0) : ∃ td w,
    windowCentered [unit 100 49] 200 sym = .ok [(td, w, 0)] ∧ ∀ i < 200, td.getD i 0 = 0 := by
  obtain ⟨td, w, h1, -, h2⟩ := C84_silence_wrong _ 100 (unit_peak 100 49) 200 sym (by norm_num)
    (by rw [unit_length]; norm_num)
  exact ⟨td, w, h1, fun i hi => by rw [(h2 i hi).1, h0, mul_zero]⟩

/-- The symmetric window of ones. -/
def ones (_ _ : ℕ) : ℝ := 1

/-- **C84**, negation: the returned start is counted from the end if the peak is in the second half.  For
1000 samples with an impulse at sample 600 and 101 samples, the result begins at sample 550, but 349
is returned. -/
theorem C84_start_wrong : ∃ td w, windowCentered [unit 600 399] 101 ones = .ok [(td, w, 349)] ∧
    ∀ j < 101, td.getD j 0 = (unit 600 399).getD (550 + j) 0 := by
  have hr : ¬ Irregular (unit 600 399).length 600 101 := by
    unfold Irregular
    rw [unit_length]
    omega
  obtain ⟨td, w, h1, h2, h3, h4⟩ := channel_ok (unit 600 399) 600 (unit_peak _ _) 101 hr ones
    (fun _ _ _ => rfl)
  rw [unit_length] at h1 h4
  have hS : firstSample (600 + 399 + 1) 600 101 = 550 := by
    unfold firstSample
    norm_num
  rw [hS] at h4
  refine ⟨td, w, ?_, fun j hj => ?_⟩
  · unfold windowCentered
    rw [eachChannel, h1]
    simp [eachChannel]
  · obtain ⟨h5, h6⟩ := h4 j hj
    rw [h6, h5]
    unfold windowAt ones
    rw [if_pos (by push_cast; omega), mul_one, ← extended_nat]
    congr 1

/-- **C84**, negation: zeros are added at the beginning, not at the end, if the peak is in the second
half of the window: an impulse at sample 8 of 10 appears at sample 12 of 14, although the returned
start is zero. -/
theorem C84_padding_wrong : ∃ td w, windowCentered [unit 8 1] 14 ones = .ok [(td, w, 0)] ∧
    td.getD 12 0 = 1 ∧ td.getD 8 0 = 0 := by
  have hr : ¬ Irregular (unit 8 1).length 8 14 := by
    unfold Irregular
    rw [unit_length]
    omega
  obtain ⟨td, w, h1, h2, h3, h4⟩ := channel_ok (unit 8 1) 8 (unit_peak _ _) 14 hr ones
    (fun _ _ _ => rfl)
  rw [unit_length] at h1 h4
  have hS : firstSample (8 + 1 + 1) 8 14 = -4 := by
    unfold firstSample
    norm_num
  rw [hS] at h4
  refine ⟨td, w, ?_, ?_, ?_⟩
  · unfold windowCentered
    rw [eachChannel, h1]
    simp [eachChannel]
  · obtain ⟨h5, h6⟩ := h4 12 (by norm_num)
    rw [h6, h5, show (-4 : ℤ) + (12 : ℕ) = (8 : ℕ) by norm_num, extended_nat, unit_getD]
    unfold windowAt ones
    norm_num
  · obtain ⟨h5, h6⟩ := h4 8 (by norm_num)
    rw [h6, h5, show (-4 : ℤ) + (8 : ℕ) = (4 : ℕ) by norm_num, extended_nat, unit_getD]
    norm_num

/-- The hypotheses of the main theorem are met. -/
example : ∃ rs, windowCentered [unit 12 100, unit 80 32] 64 ones = .ok rs := by
  obtain ⟨rs, h, -⟩ := C84_window_partial [unit 12 100, unit 80 32] 64 (by simp) (by norm_num)
    (fun c => if c = 0 then 12 else 80) (by
      intro c hc
      have : c = 0 ∨ c = 1 := by simp at hc; omega
      rcases this with rfl | rfl
      · exact unit_peak _ _
      · exact unit_peak _ _) (by
      intro c hc
      have : c = 0 ∨ c = 1 := by simp at hc; omega
      unfold Irregular
      rcases this with rfl | rfl
      · rw [List.getD_cons_zero, unit_length]
        simp
      · rw [List.getD_cons_succ, List.getD_cons_zero, unit_length]
        simp) ones (fun _ _ _ => rfl)
  exact ⟨rs, h⟩

end Verif.CenteredIR

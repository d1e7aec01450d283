import Verif.Props.C21
import Verif.Model.Double
import Mathlib.Tactic.NormNum
import Mathlib.Tactic.IntervalCases

/-!
# C22: windowed framing followed by reconstruction is the identity
-/

set_option linter.unusedSectionVars false

namespace Verif.Framing

open Verif.SignalData (padTrim padTrim_length padTrim_end)
open Verif.LFilter (getD_map_range ext_getD getD_take getD_drop)

variable {K : Type} [Field K] [LinearOrder K] [IsStrictOrderedRing K]

/-- Sum of the squared windows of `n` frames at sample `j`. -/
def squaredWindows (w : List K) (step n j : ℕ) : K :=
  ∑ k ∈ Finset.range n,
    if k * step ≤ j ∧ j < k * step + w.length then w.getD (j - k * step) 0 ^ 2 else 0

/-- Frames multiplied by a window. -/
def windowed (w : List K) (frames : List (List K)) : List (List K) :=
  frames.map fun f => (List.range w.length).map fun i => w.getD i 0 * f.getD i 0

private theorem applyWindow_twice (w f : List K) :
    applyWindow w ((List.range w.length).map fun i => w.getD i 0 * f.getD i 0) =
      (List.range w.length).map fun i => w.getD i 0 ^ 2 * f.getD i 0 := by
  unfold applyWindow
  rw [List.length_map, List.length_range]
  refine List.map_congr_left fun i hi => ?_
  have hi' := List.mem_range.mp hi
  rw [getD_map_range, if_pos hi']
  split_ifs with h1
  · have : i = 0 := by omega
    subst this
    ring
  · ring

private theorem windowed_getD (w : List K) (frames : List (List K)) (k : ℕ)
    (hk : k < frames.length) : ((windowed w frames).map (applyWindow w)).getD k [] =
      (List.range w.length).map fun i => w.getD i 0 ^ 2 * (frames.getD k []).getD i 0 := by
  have h : (windowed w frames).map (applyWindow w) = frames.map fun f =>
      (List.range w.length).map fun i => w.getD i 0 ^ 2 * f.getD i 0 := by
    unfold windowed
    rw [List.map_map]
    exact List.map_congr_left fun f _ => applyWindow_twice w f
  rw [h, List.getD_eq_getElem _ _ (by rw [List.length_map]; exact hk), List.getElem_map,
    List.getD_eq_getElem frames _ hk]

theorem envelope_eq (w : List K) (total step n : ℕ) :
    (envelope w total step n true).length = total ∧
    ∀ j < total, (envelope w total step n true).getD j 0 = squaredWindows w step n j := by
  unfold envelope squaredWindows
  simp only [if_true]
  obtain ⟨h1, h2⟩ := overlapAdd (fun _ => w.map fun a => a ^ 2) step total n
  refine ⟨h1, fun j hj => ?_⟩
  rw [h2 j hj]
  refine Finset.sum_congr rfl fun k _ => ?_
  simp only [List.length_map]
  by_cases h : k * step ≤ j ∧ j < k * step + w.length
  · rw [if_pos h, if_pos h, List.getD_eq_getElem _ _ (by simp; omega),
      List.getD_eq_getElem _ _ (by omega)]
    simp
  · rw [if_neg h, if_neg h]

theorem squaredWindows_outside (w : List K) (step n j : ℕ)
    (h : step * n + w.length - step ≤ j) (hn : 0 < n) : squaredWindows w step n j = 0 := by
  unfold squaredWindows
  refine Finset.sum_eq_zero fun k hk => ?_
  have hk' := Finset.mem_range.mp hk
  rw [if_neg]
  rintro ⟨_, h2⟩
  have h3 : (k + 1) * step ≤ n * step := Nat.mul_le_mul_right _ (by omega)
  have h4 : step ≤ step * n := Nat.le_mul_of_pos_right _ hn
  have h5 : n * step = step * n := Nat.mul_comm _ _
  have h6 : (k + 1) * step = k * step + step := by ring
  omega

/-- **C22.**  For every non-empty signal, window `w`, step and threshold: if the frames of
`x` are multiplied by `w` and reconstructed with `w`, the result has the length of `x` and
each sample is `x[j] * S / max(S, threshold)`, where `S` is the sum of the squared windows
at `j`.  In particular it is `x[j]` where `S` reaches the threshold. -/
theorem C22_reconstruct_partial (x w : List K) (step : ℕ) (hstep : 0 < step) (hw : 0 < w.length)
    (hx : 0 < x.length) (thr tiny : K) (hthr : tiny < thr) (hpos : 0 < thr) :
    ∃ frames y, framed x w.length step true = .ok frames ∧
      reconstruct (windowed w frames) w.length step (some w) (some x.length) (some thr) tiny
        = .ok y ∧ y.length = x.length ∧
      (∀ j < x.length, y.getD j 0 = x.getD j 0 * squaredWindows w step frames.length j /
        max (squaredWindows w step frames.length j) thr) ∧
      (∀ j < x.length, thr ≤ squaredWindows w step frames.length j →
        y.getD j 0 = x.getD j 0) := by
  obtain ⟨frames, hfr, hframes, -, -, hL⟩ := C21_keep x w.length step hstep
  have hn0 : 0 < frames.length := by
    by_contra h
    have : frames.length = 0 := by omega
    rw [this] at hL
    omega
  have hstep' : step ≤ step * frames.length := Nat.le_mul_of_pos_right _ hn0
  have hlen : (windowed w frames).length = frames.length := by simp [windowed]
  set total := step * frames.length + w.length - step with htotal
  set fr := (windowed w frames).map (applyWindow w) with hfrdef
  have hfrlen : fr.length = frames.length := by simp [hfrdef, windowed]
  set td := (List.range frames.length).foldl (fun td k => addAt td (k * step) (fr.getD k []))
    (List.replicate total 0) with htd
  set td' := (List.range total).map (fun j =>
    if ((envelope w total step frames.length true).map fun e => max e thr).getD j 0 > tiny
    then td.getD j 0 / ((envelope w total step frames.length true).map fun e => max e thr).getD j 0
    else td.getD j 0) with htd'
  obtain ⟨henvlen, henv⟩ := envelope_eq w total step frames.length
  obtain ⟨htdlen, htdval⟩ := overlapAdd (fun k => fr.getD k []) step total frames.length
  have hsum : ∀ j < total, td.getD j 0 = x.getD j 0 * squaredWindows w step frames.length j := by
    intro j hj
    rw [htd, htdval j hj]
    unfold squaredWindows
    rw [Finset.mul_sum]
    refine Finset.sum_congr rfl fun k hk => ?_
    have hk' := Finset.mem_range.mp hk
    rw [hfrdef, windowed_getD w frames k hk', List.length_map, List.length_range]
    by_cases h : k * step ≤ j ∧ j < k * step + w.length
    · rw [if_pos h, if_pos h, getD_map_range, if_pos (by omega),
        (hframes k hk').2 _ (by omega)]
      have : k * step + (j - k * step) = j := by omega
      rw [this]
      ring
    · rw [if_neg h, if_neg h, mul_zero]
  have hval : ∀ j < x.length, (padTrim td' x.length true).getD j 0 =
      x.getD j 0 * squaredWindows w step frames.length j /
        max (squaredWindows w step frames.length j) thr := by
    intro j hj
    rw [padTrim_end _ _ _ hj, htd', getD_map_range]
    by_cases hjt : j < total
    · rw [if_pos hjt]
      have he : ((envelope w total step frames.length true).map fun e => max e thr).getD j 0 =
          max (squaredWindows w step frames.length j) thr := by
        rw [← henv j hjt, List.getD_eq_getElem _ _ (by simpa [henvlen] using hjt),
          List.getD_eq_getElem _ _ (by simpa [henvlen] using hjt)]
        simp
      rw [he, if_pos (lt_of_lt_of_le hthr (le_max_right _ _)), hsum j hjt]
    · rw [if_neg hjt, squaredWindows_outside w step frames.length j (by omega) hn0]
      simp
  refine ⟨frames, padTrim td' x.length true, hfr, ?_, padTrim_length _ _ _, hval, ?_⟩
  · unfold reconstruct
    simp only [hlen]
    rw [if_neg (by simp), if_neg (by omega), if_neg (by omega)]
    rw [← hfrdef, hfrlen]
  · intro j hj hS
    rw [hval j hj, max_eq_left hS, mul_div_assoc,
      div_self (ne_of_gt (lt_of_lt_of_le hpos hS)), mul_one]

/-- Non-trivial instance: 5 samples, a window of 3 samples, step 2; the hypotheses are met
and every sample is recovered. -/
example : ∃ frames y, framed ([1, 2, 3, 4, 5] : List ℚ) 3 2 true = .ok frames ∧
    reconstruct (windowed [1 / 2, 1, 1 / 2] frames) 3 2 (some [1 / 2, 1, 1 / 2]) (some 5)
      (some (1 / 10000)) (1 / 2 ^ 1022) = .ok y ∧ ∀ j < 5, y.getD j 0 =
        ([1, 2, 3, 4, 5] : List ℚ).getD j 0 := by
  obtain ⟨frames, y, h1, h2, -, -, h4⟩ := C22_reconstruct_partial ([1, 2, 3, 4, 5] : List ℚ)
    [1 / 2, 1, 1 / 2] 2 (by norm_num) (by norm_num) (by norm_num) (1 / 10000) (1 / 2 ^ 1022)
    (by decide +kernel) (by norm_num)
  have h0 : framed ([1, 2, 3, 4, 5] : List ℚ) 3 2 true =
    .ok [[1, 2, 3], [3, 4, 5], [5, 0, 0]] := by decide +kernel
  have hl : frames.length = 3 := by
    have h5 := h0.symm.trans h1
    rw [← Except.ok.inj h5]
    rfl
  refine ⟨frames, y, h1, h2, fun j hj => h4 j hj ?_⟩
  rw [hl]
  have hj' : j < 5 := hj
  interval_cases j <;> norm_num [squaredWindows, Finset.sum_range_succ]

/-- **C22**, below the threshold: a sample where the squared windows do not reach the
threshold is attenuated instead of recovered (Hann-like window with a zero at the start:
the first sample is lost). -/
theorem C22_first_sample_lost : ∃ y : List ℚ,
    framed ([1, 2, 3] : List ℚ) 3 1 true = .ok [[1, 2, 3], [2, 3, 0], [3, 0, 0]] ∧
    reconstruct (windowed [(0 : ℚ), 1, 0] [[1, 2, 3], [2, 3, 0], [3, 0, 0]]) 3 1 (some [0, 1, 0])
      (some 3) (some (1 / 10000)) (1 / 2 ^ 1022) = .ok y ∧ y = [0, 2, 3] := by
  exact ⟨[0, 2, 3], by decide +kernel, by decide +kernel, rfl⟩

/-- The total length as computed in double precision (`_framed_signal_representation.py`,
lines 114-117): `int(step * n + W * (1 - step / W))`. -/
def doubleTotal (W step n : ℕ) : ℤ :=
  ⌊Double.rnd (step * n + Double.rnd (W * Double.rnd (1 - Double.rnd (step / W))))⌋

/-- **C22**, rounding: for one frame of 31 samples and a step of 13 the total length comes
out as 30 in double precision, so that the frame does not fit (the code then raises
ValueError when adding it); the exact length is 31. -/
theorem C22_double_total : doubleTotal 31 13 1 = 30 ∧ 13 * 1 + 31 - 13 = 31 := by
  constructor
  · decide +kernel
  · norm_num

end Verif.Framing

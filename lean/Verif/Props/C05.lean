import Verif.Lemmas.Warped
import Mathlib.Algebra.Field.Rat
import Mathlib.Tactic.NormNum

/-!
# C05: the warped FIR filter is an FIR filter with allpasses instead of delays
-/

namespace Verif.Warped

variable {K : Type} [Field K]

/-- **C05.**  After every history of calls, `WarpedFIR.process_sample(x, ch)` returns
`∑ k, b[k] * v_k[n]`, where `v_0` is the sequence of samples of that channel since the
last reset / channel change and `v_{k+1}` is the first-order allpass of `v_k` from rest;
a channel that does not exist raises IndexError. -/
theorem C05_warped_fir_history (b : List K) (w : K) (hb : b ≠ []) (h : List (Op K)) (x : K)
    (ch : ℕ) :
    (fir b w).answer h x ch =
      if ch < nChannels (dropZeroChannels h) then
        .ok (warpedSum w b (x :: pastInputs ch (dropZeroChannels h)))
      else .error .indexError := by
  unfold fir
  rw [RTFilter.positiveChannels_answer, Column.lift_answer]
  split
  · rw [fir_out b w hb]
  · rfl

/-- **C05**, warping factor 0: the plain convolution with `b`. -/
theorem C05_unwarped_is_convolution (b : List K) (hb : b ≠ []) (h : List (Op K)) (x : K)
    (ch : ℕ) :
    (fir b 0).answer h x ch =
      if ch < nChannels (dropZeroChannels h) then
        .ok (tapSum b (x :: pastInputs ch (dropZeroChannels h)))
      else .error .indexError := by
  rw [C05_warped_fir_history b 0 hb]
  split
  · congr 1
    exact Finset.sum_congr rfl fun k _ => by rw [chainTap_zero_factor]
  · rfl

/-- **C05**, `filter_signal` leaves the realtime state as it was: every later call
answers what it would have answered without it. -/
theorem C05_filter_signal_keeps_state (b : List K) (w : K) (h : List (Op K))
    (channels : List (List K)) :
    (filterSignal (fir b w) ((fir b w).after h) channels).2 = (fir b w).after h := rfl

/-- Values of a complete channel, oldest first: sample `n` is the warped sum of the
samples up to `n`. -/
def warpedOutputs (b : List K) (w : K) (past : List K) : List K → List (Except Err K)
  | [] => []
  | x :: xs => .ok (warpedSum w b (x :: past)) :: warpedOutputs b w (x :: past) xs

theorem processVector_spec (b : List K) (w : K) (hb : b ≠ []) (ch n : ℕ) (hch : ch < n)
    (s : ℕ × (ℕ → (ℕ → K))) (past xs : List K) (hs : s.1 = n)
    (hcol : s.2 ch = (firColumn b w).colAfter past) :
    (processVector (fir b w) ch s xs).1 = warpedOutputs b w past xs ∧
    ∃ s' : ℕ × (ℕ → (ℕ → K)), (processVector (fir b w) ch s xs).2 = s' ∧ s'.1 = n ∧
      ∀ c, c ≠ ch → s'.2 c = s.2 c := by
  induction xs generalizing s past with
  | nil => exact ⟨rfl, s, rfl, hs, fun c _ => rfl⟩
  | cons x xs ih =>
    have hp : (fir b w).process s x ch = (.ok ((firColumn b w).step (s.2 ch) x).1,
        ((s.1, fun c => if c = ch then ((firColumn b w).step (s.2 ch) x).2 else s.2 c) :
          ℕ × (ℕ → (ℕ → K)))) :=
      (firColumn b w).lift_process_pos s x ch (by rw [hs]; exact hch)
    have ho : ((firColumn b w).step (s.2 ch) x).1 = warpedSum w b (x :: past) := by
      rw [hcol]; exact fir_out b w hb past x
    obtain ⟨i1, s', i2, i3, i4⟩ := ih
      (s.1, fun c => if c = ch then ((firColumn b w).step (s.2 ch) x).2 else s.2 c) (x :: past) hs
      (by simp only; rw [hcol]; rfl)
    simp only [processVector, hp]
    refine ⟨?_, s', i2, i3, fun c hc => ?_⟩
    · rw [warpedOutputs, ← ho]
      exact congrArg _ i1
    · rw [i4 c hc]; simp [hc]

theorem processChannels_spec (b : List K) (w : K) (hb : b ≠ []) (n : ℕ)
    (channels : List (List K)) (ch : ℕ) (s : ℕ × (ℕ → (ℕ → K))) (hs : s.1 = n)
    (hn : ch + channels.length ≤ n) (hcol : ∀ c, ch ≤ c → s.2 c = fun _ => 0) :
    (processChannels (fir b w) s ch channels).1 = channels.map (warpedOutputs b w []) := by
  induction channels generalizing ch s with
  | nil => rfl
  | cons xs rest ih =>
    rw [List.length_cons] at hn
    obtain ⟨h1, s', h2, h3, h4⟩ := processVector_spec b w hb ch n (by omega) s [] xs hs
      (hcol ch le_rfl)
    simp only [processChannels, List.map_cons, h1]
    congr 1
    rw [h2]
    exact ih (ch + 1) s' h3 (by omega) fun c hc => by rw [h4 c (by omega), hcol c (by omega)]

/-- **C05**, `filter_signal`, whatever the realtime state: each channel of the signal is
filtered from rest with the warped filter, independently of the others. -/
theorem C05_filter_signal (b : List K) (w : K) (hb : b ≠ []) (h : List (Op K))
    (channels : List (List K)) (hc : channels ≠ []) :
    (filterSignal (fir b w) ((fir b w).after h) channels).1
      = channels.map (warpedOutputs b w []) := by
  have hne : channels.length ≠ 0 := by simpa using hc
  have hset : (fir b w).setChannels ((fir b w).after h) channels.length
      = ((channels.length, fun _ _ => 0) : ℕ × (ℕ → (ℕ → K))) := by
    show (if channels.length = 0 then _ else _) = _
    exact if_neg hne
  simp only [filterSignal, hset]
  exact processChannels_spec b w hb channels.length channels 0 _ rfl (by omega) fun c _ => rfl

/-- A concrete warped filter: impulse on channel 1, then two zeros. -/
example : (fir [1, 2, 4] (1 / 2) : RTFilter ℚ).answer
    [.setChannels 2, .sample 1 1, .sample 7 0, .sample 0 1] 0 1 = .ok (3 / 2) ∧
    nChannels (dropZeroChannels ([.setChannels 2, .sample 1 1, .sample 7 0, .sample 0 1]
      : List (Op ℚ))) = 2 := by
  refine ⟨?_, by simp [nChannels, dropZeroChannels]⟩
  rw [C05_warped_fir_history _ _ (by simp)]
  simp [nChannels, dropZeroChannels, pastInputs, warpedSum, chainTap, allpass,
    Finset.sum_range_succ]
  norm_num

end Verif.Warped

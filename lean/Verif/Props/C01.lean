import Verif.Lemmas.FIRFilter
import Mathlib.Algebra.Ring.Rat
import Mathlib.Tactic.NormNum

/-!
# C01: the sample-by-sample FIR filter is a convolution, for every call history
-/

namespace Verif.FIRFilter

variable {K : Type} [CommSemiring K]

/-- **C01.**  For at least two taps, after every history of calls the call
`process_sample(x, ch)` on an existing channel returns the convolution sum
`∑ i, b[i] * x[n-i]` over the samples this channel has received since the last
reset / channel change (other channels do not matter); a channel that does not
exist raises IndexError. -/
theorem C01_fir_history (b : List K) (hb : 2 ≤ b.length) (h : List (Op K)) (x : K) (ch : ℕ) :
    (filter b).answer h x ch =
      if ch < nChannels h then .ok (tapSum b (x :: pastInputs ch h)) else .error .indexError := by
  obtain ⟨hn, hi⟩ := inv_after b hb h
  obtain ⟨hw, hbuf⟩ := hi ch
  have ho : ¬ (b.length - 1 = 0) := by omega
  unfold RTFilter.answer
  set s : State K := (filter b).after h with hs
  by_cases hc : s.nCh ≤ ch
  · have : ¬ ch < nChannels h := by rw [← hn]; omega
    simp [filter, process, hc, this]
  · have hlt : ch < nChannels h := by rw [← hn]; omega
    have hp : ((filter b).process s x ch).1 =
        .ok (accumulate b (b.length - 1) s.buf (s.ind ch) ch (b.getD 0 0 * x) (b.length - 1)) := by
      simp [filter, process, hc, ho]
    rw [hp, if_pos hlt, accumulate_eq, tapSum_split b (by omega)]
    congr 2
    refine Finset.sum_congr rfl fun i hi' => ?_
    rw [hbuf i (Finset.mem_range.mp hi')]

/-- A history in which channels are interleaved and the buffer wraps meets the
hypotheses, and the returned value is not trivial. -/
example : (filter [1, 2, 3] : RTFilter ℚ).answer
    [.setChannels 2, .sample 5 0, .sample 7 1, .sample 11 0, .sample 13 0] 1 0
      = .ok (1 * 1 + 2 * 13 + 3 * 11) := by
  rw [C01_fir_history _ (by simp)]
  simp [nChannels, pastInputs, tapSum, Finset.sum_range_succ]

/-- **C01**, single tap: every call raises IndexError, whatever happened before
(so the convolution property fails for one-tap filters). -/
theorem C01_single_tap_raises (b0 : K) (h : List (Op K)) (x : K) (ch : ℕ) :
    (filter [b0]).answer h x ch = .error .indexError := by
  unfold RTFilter.answer
  simp only [filter, process]
  split <;> simp

end Verif.FIRFilter

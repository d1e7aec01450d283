import Verif.Lemmas.IIRFilter
import Mathlib.Algebra.Field.Rat
import Mathlib.Tactic.NormNum

/-!
# C02: the sample-by-sample IIR filter obeys its difference equation
-/

namespace Verif.IIRFilter

variable {K : Type} [Field K]

/-- **C02.**  Let `b`, `a` be the coefficients handed to the constructor, `a[0] ≠ 0`
and order at least one.  After every history of calls, `process_sample(x, ch)` on an
existing channel returns a value `y` with
`a[0]*y[n] + ∑_{i≥1} a[i]*y[n-i] = ∑_i b[i]*x[n-i]`, where the earlier inputs and
outputs are those of this channel since the last reset / channel change (zero
before); the logged inputs are exactly the samples sent to this channel. -/
theorem C02_iir_history (b a : List K) (ha : a.getD 0 0 ≠ 0) (ho : 1 ≤ order b a)
    (h : List (Op K)) (x : K) (ch : ℕ) (hch : ch < nChannels h) :
    ∃ y, (filter b a).answer h x ch = .ok y ∧
      a.getD 0 0 * y + tapSum a.tail (((filter b a).log ch h).map Prod.snd)
        = tapSum b (x :: pastInputs ch h) ∧
      ((filter b a).log ch h).map Prod.fst = pastInputs ch h := by
  obtain ⟨hn, hi⟩ := inv_after b a ho h
  obtain ⟨hbl, hal⟩ := coeffs_length b a ho
  obtain ⟨hinv, hlog⟩ := hi ch
  obtain ⟨y, hy, hval, _⟩ := process_inv _ _ _ hbl hal _ x ch _ ho (by rw [hn]; exact hch) hinv
  refine ⟨y, hy, ?_, hlog⟩
  rw [hval, hlog]
  have e1 : tapSum (coeffs b a).1 (x :: pastInputs ch h)
      = tapSum b (x :: pastInputs ch h) / a.getD 0 0 := by
    rw [← tapSum_map_div]
    exact tapSum_eq_of_getD _ _ _ fun i => by simp only [coeffs, getD_padTo, normalise]
  have e2 : ∀ ys, tapSum ((coeffs b a).2.drop 1) ys = tapSum a.tail ys / a.getD 0 0 := by
    intro ys
    rw [← tapSum_map_div]
    refine tapSum_eq_of_getD _ _ _ fun i => ?_
    have : ∀ l : List K, (l.drop 1).getD i 0 = l.getD (i + 1) 0 := by
      intro l; cases l <;> simp
    rw [this, coeffs, getD_padTo, normalise, getD_map_div, getD_map_div]
    cases a <;> simp
  rw [e1, e2]
  field_simp
  ring

/-- **C02**, errors: a channel that does not exist raises IndexError. -/
theorem C02_iir_bad_channel (b a : List K) (ho : 1 ≤ order b a)
    (h : List (Op K)) (x : K) (ch : ℕ) (hch : nChannels h ≤ ch) :
    (filter b a).answer h x ch = .error .indexError := by
  obtain ⟨hn, _⟩ := inv_after b a ho h
  have : ((filter b a).after h : State K).nCh ≤ ch := by rw [hn]; exact hch
  show (process _ _ _ _ x ch).1 = _
  unfold process
  rw [if_pos (Or.inr this)]

/-- **C02**, order 0: every call raises IndexError. -/
theorem C02_iir_order_zero_raises (b a : List K) (ho : order b a = 0)
    (h : List (Op K)) (x : K) (ch : ℕ) :
    (filter b a).answer h x ch = .error .indexError := by
  unfold RTFilter.answer
  simp [filter, process, ho]

/-- A second-order filter with a history that interleaves channels and resets meets
the hypotheses; its next output is a specific non-trivial number. -/
example : (filter [2, 4] [2, -1, 1] : RTFilter ℚ).answer
    [.setChannels 2, .sample 9 0, .reset, .sample 3 0, .sample 7 1, .sample 5 0] 1 0
      = .ok (63 / 4) ∧ 1 ≤ order [2, 4] ([2, -1, 1] : List ℚ) ∧
      0 < nChannels ([.setChannels 2, .sample 9 0, .reset, .sample 3 0, .sample 7 1,
        .sample 5 0] : List (Op ℚ)) := by
  refine ⟨?_, by simp [order], by simp [nChannels]⟩
  simp [RTFilter.answer, RTFilter.after, RTFilter.exec, filter, process, order, coeffs, padTo,
    normalise, setChannels, reset, loop, write]
  norm_num

end Verif.IIRFilter

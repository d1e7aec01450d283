import Verif.Lemmas.Warped
import Mathlib.Algebra.BigOperators.Field
import Mathlib.Algebra.Field.Rat
import Mathlib.Tactic.NormNum

/-!
# C06: the warped IIR filter solves its delay-free loop
-/

namespace Verif.Warped

variable {K : Type} [Field K]

/-- `us` is the signal in front of the allpass chain for the input `xs` (both most
recent first): at every sample, `∑ k, a[k] * v_k[n] = x[n]` with `v_k` the `k`-th stage
of the chain fed with `us`. -/
def SolvesLoop (w : K) (a : List K) : List K → List K → Prop
  | [], [] => True
  | u :: us, x :: xs => warpedSum w a (u :: us) = x ∧ SolvesLoop w a us xs
  | _, _ => False

/-- The loop has a unique solution as soon as `∑ k, a[k] * (-w)^k ≠ 0`: the
specification below determines the output. -/
theorem C06_loop_unique (w : K) (a : List K)
    (hd : ∑ k ∈ Finset.range a.length, a.getD k 0 * (-w) ^ k ≠ 0) :
    ∀ us us' xs : List K, SolvesLoop w a us xs → SolvesLoop w a us' xs → us = us'
  | [], [], _, _, _ => rfl
  | [], _ :: _, [], _, h' => by simp [SolvesLoop] at h'
  | [], _ :: _, _ :: _, h, _ => by simp [SolvesLoop] at h
  | _ :: _, [], [], h, _ => by simp [SolvesLoop] at h
  | _ :: _, [], _ :: _, _, h' => by simp [SolvesLoop] at h'
  | _ :: _, _ :: _, [], h, _ => by simp [SolvesLoop] at h
  | u :: us, u' :: us', x :: xs, h, h' => by
    have ih := C06_loop_unique w a hd us us' xs h.2 h'.2
    subst ih
    have e := h.1.trans h'.1.symm
    rw [warpedSum_cons, warpedSum_cons w a u'] at e
    have : (∑ k ∈ Finset.range a.length, a.getD k 0 * (-w) ^ k) * (u - u') = 0 := by
      linear_combination e
    rcases mul_eq_zero.1 this with h0 | h0
    · exact absurd h0 hd
    · rw [sub_eq_zero.1 h0]

/-- **C06.**  For `b`, `a` with at least two denominator coefficients, `a[0] ≠ 0` and a
non-degenerate loop, after every history of calls `WarpedIIR.process_sample(x, ch)` on
an existing channel returns `∑ k, b[k] * v_k[n]` where the `v_k` are the stages of the
allpass chain fed with the solution of the delay-free loop
`∑ k, a[k] * v_k[n] = x[n]`. -/
theorem C06_warped_iir_history (b a : List K) (w : K) (hb : b ≠ []) (hlen : 2 ≤ a.length)
    (ha : a.getD 0 0 ≠ 0) (hd : ∑ k ∈ Finset.range a.length, a.getD k 0 * (-w) ^ k ≠ 0)
    (h : List (Op K)) (x : K) (ch : ℕ) (hch : ch < nChannels (dropZeroChannels h)) :
    ∃ us, SolvesLoop w a us (x :: pastInputs ch (dropZeroChannels h)) ∧
      (iir b a w).answer h x ch = .ok (warpedSum w b us) := by
  match a, hlen with
  | a0 :: a1 :: as, _ =>
    simp only [List.getD_cons_zero] at ha
    generalize hpast : pastInputs ch (dropZeroChannels h) = xs
    have hd' : 1 - w * (sigmaLoop w ((a1 :: as).map (· / a0))).1 ≠ 0 := by
      rw [sigmaLoop_fst, List.length_map, Finset.mul_sum]
      intro h0
      apply hd
      rw [List.length_cons, Finset.sum_range_succ']
      have e : ∀ k ∈ Finset.range (a1 :: as).length,
          w * (((a1 :: as).map (· / a0)).getD k 0 * (-w) ^ k)
            = - ((a0 :: a1 :: as).getD (k + 1) 0 * (-w) ^ (k + 1)) / a0 := by
        intro k hk
        rw [Finset.mem_range] at hk
        have : ((a1 :: as).map (· / a0)).getD k 0 = (a1 :: as).getD k 0 / a0 := by
          rw [List.getD_eq_getElem _ _ (by simpa using hk), List.getD_eq_getElem _ _ hk,
            List.getElem_map]
        rw [this, List.getD_cons_succ]
        ring
      rw [Finset.sum_congr rfl e, ← Finset.sum_div, Finset.sum_neg_distrib] at h0
      field_simp at h0
      simp only [List.getD_cons_zero, pow_zero, mul_one]
      linear_combination h0
    refine ⟨(internal b (a0 :: a1 :: as) w (x :: xs)).map (· / a0), ?_, ?_⟩
    · generalize x :: xs = ys
      induction ys with
      | nil => exact True.intro
      | cons y ys ih =>
        refine ⟨?_, ih⟩
        have := iir_loop b a0 a1 as w hb ha hd' y ys
        rw [warpedSum_div] at this
        exact this
    · unfold iir
      rw [RTFilter.positiveChannels_answer, Column.lift_answer, if_pos hch, iir_out _ _ _ hb, hpast]
      rw [← warpedSum_div]
      rfl

/-- **C06**, errors: a channel that does not exist raises IndexError. -/
theorem C06_bad_channel (b a : List K) (w : K) (h : List (Op K)) (x : K)
    (ch : ℕ) (hch : nChannels (dropZeroChannels h) ≤ ch) :
    (iir b a w).answer h x ch = .error .indexError := by
  unfold iir
  rw [RTFilter.positiveChannels_answer, Column.lift_answer, if_neg (by omega)]

/-- **C06**, a single denominator coefficient is NOT handled: with `a = [1]`, `b = [1]`
and warping factor 0 the loop equation says "output = input", but the filter returns
`0` for the second of two ones. -/
theorem C06_single_denominator_false :
    SolvesLoop (0 : ℚ) [1] [1, 1] [1, 1] ∧ warpedSum (0 : ℚ) [1] [1, 1] = 1 ∧
    (iir [1] [1] 0 : RTFilter ℚ).answer [.sample 1 0] 1 0 = .ok 0 := by
  refine ⟨?_, ?_, ?_⟩
  · simp [SolvesLoop, warpedSum, chainTap]
  · simp [warpedSum, chainTap]
  · simp [RTFilter.answer, RTFilter.after, RTFilter.exec, iir, iirColumn, RTFilter.positiveChannels,
      Column.lift, iirStep, sigmas, dot, step, loop]

/-- Concrete filter meeting the hypotheses, with its third output. -/
example : (∑ k ∈ Finset.range 2, ([2, 1] : List ℚ).getD k 0 * (-(1 / 2)) ^ k ≠ 0) ∧
    (iir [1, 3] [2, 1] (1 / 2) : RTFilter ℚ).answer [.sample 3 0] 0 0 = .ok 5 := by
  refine ⟨by simp [Finset.sum_range_succ]; norm_num, ?_⟩
  simp [RTFilter.answer, RTFilter.after, RTFilter.exec, iir, iirColumn, RTFilter.positiveChannels,
      Column.lift, iirStep, sigmas, sigmaLoop, dot, step, loop, body]
  norm_num

end Verif.Warped

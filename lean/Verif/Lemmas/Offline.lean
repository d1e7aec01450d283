import Verif.Lemmas.FilterBank
import Verif.Lemmas.Realtime
import Verif.Lemmas.LFilter
import Verif.Spec.DifferenceEq
import Mathlib.Algebra.BigOperators.Intervals
import Mathlib.Tactic.LinearCombination

/-! Lemmas: the difference equation determines the output of offline filtering. -/

namespace Verif.Bank

open LFilter

variable {K : Type} [Field K]

theorem tapSum_right (c l : List K) :
    tapSum c l = ∑ i ∈ Finset.range l.length, c.getD i 0 * l.getD i 0 := by
  have key : ∀ (p q : List K) (g : ℕ → K), (∀ i, p.length ≤ i → g i = 0) → (∀ i, q.length ≤ i → g i = 0) →
      ∑ i ∈ Finset.range p.length, g i = ∑ i ∈ Finset.range q.length, g i := by
    intro p q g hp hq
    rcases le_total p.length q.length with h | h
    · rw [← Finset.sum_range_add_sum_Ico g h]
      rw [Finset.sum_eq_zero (s := Finset.Ico _ _) fun i hi => hp i (Finset.mem_Ico.mp hi).1, add_zero]
    · rw [← Finset.sum_range_add_sum_Ico g h]
      rw [Finset.sum_eq_zero (s := Finset.Ico _ _) fun i hi => hq i (Finset.mem_Ico.mp hi).1, add_zero]
  refine key c l _ (fun i hi => ?_) fun i hi => ?_
  · rw [List.getD_eq_default _ _ hi, zero_mul]
  · rw [List.getD_eq_default _ _ hi, mul_zero]

theorem lfSeq_congr (b a : List K) (x x' : ℕ → K) (n : ℕ) (h : ∀ m ≤ n, x m = x' m) :
    lfSeq b a x n = lfSeq b a x' n := by
  induction n using Nat.strong_induction_on with
  | _ n ih =>
    rw [lfSeq, lfSeq]
    congr 2
    · refine Finset.sum_congr rfl fun m _ => ?_
      rw [h _ (Nat.sub_le _ _)]
    · refine Finset.sum_congr rfl fun m _ => ?_
      rw [ih m m.2 fun k hk => h k (hk.trans m.2.le)]

theorem lfilter_append (b a u v : List K) :
    ∃ w, w.length = v.length ∧ lfilter b a (u ++ v) = lfilter b a u ++ w := by
  refine ⟨(lfilter b a (u ++ v)).drop u.length, by simp [lfilter_length], ?_⟩
  conv_lhs => rw [← List.take_append_drop u.length (lfilter b a (u ++ v))]
  congr 1
  unfold lfilter
  rw [← List.map_take, List.take_range, List.length_append, Nat.min_eq_left (Nat.le_add_right _ _)]
  refine List.map_congr_left fun n hn => ?_
  refine lfSeq_congr b a _ _ n fun m hm => ?_
  rw [List.getD_append _ _ _ _ (by have := List.mem_range.mp hn; omega)]

theorem lfilter_snoc (b a u : List K) (x : K) :
    lfilter b a (u ++ [x]) = lfilter b a u ++ [lfSeq b a (fun n => (u ++ [x]).getD n 0) u.length] := by
  obtain ⟨w, hw, h⟩ := lfilter_append b a u [x]
  rw [h]
  congr 1
  have h2 : (lfilter b a (u ++ [x])).getD u.length 0 = lfSeq b a (fun n => (u ++ [x]).getD n 0) u.length := by
    unfold lfilter
    rw [getD_map_range, if_pos (by simp)]
  rw [h, List.getD_append_right _ _ _ _ (by rw [lfilter_length]), lfilter_length, Nat.sub_self] at h2
  match w, hw with
  | [y], _ => exact congrArg (fun z => [z]) h2

theorem solvesDE_cons {b a : List K} {x y : K} {xs ys : List K} (h : SolvesDE b a (x :: xs) (y :: ys)) :
    SolvesDE b a xs ys :=
  ⟨by simpa using h.1, fun j => h.2 (j + 1)⟩

theorem solvesDE_lfilter (b a : List K) (ha : a.getD 0 0 ≠ 0) (xs ys : List K) (h : SolvesDE b a xs ys) :
    ys.reverse = lfilter b a xs.reverse := by
  induction xs generalizing ys with
  | nil =>
    have := List.length_eq_zero_iff.mp h.1
    subst this
    rfl
  | cons x xs ih =>
    cases ys with
    | nil => exact absurd h.1 (by simp)
    | cons y ys =>
      have ih := ih ys (solvesDE_cons h)
      have hlen : ys.length = xs.length := (solvesDE_cons h).1
      rw [List.reverse_cons, List.reverse_cons, lfilter_snoc, ih, List.length_reverse]
      congr 2
      have h0 := h.2 0
      rw [List.drop_zero, List.drop_zero, tapSum_right, tapSum_right, List.length_cons, List.length_cons,
        Finset.sum_range_succ', hlen] at h0
      have hl := lfSeq_eq b a (fun n => (xs.reverse ++ [x]).getD n 0) xs.length ha
      have e1 : ∑ m ∈ Finset.range xs.length, a.getD (xs.length - m) 0 *
          lfSeq b a (fun n => (xs.reverse ++ [x]).getD n 0) m =
          ∑ i ∈ Finset.range xs.length, a.getD (i + 1) 0 * (y :: ys).getD (i + 1) 0 := by
        rw [← Finset.sum_range_reflect]
        refine Finset.sum_congr rfl fun i hi => ?_
        have hi := Finset.mem_range.mp hi
        rw [show xs.length - (xs.length - 1 - i) = i + 1 by omega]
        congr 1
        rw [List.getD_cons_succ]
        have : lfSeq b a (fun n => (xs.reverse ++ [x]).getD n 0) (xs.length - 1 - i) =
            (lfilter b a xs.reverse).getD (xs.length - 1 - i) 0 := by
          unfold lfilter
          rw [getD_map_range, if_pos (by rw [List.length_reverse]; omega)]
          refine lfSeq_congr b a _ _ _ fun m hm => ?_
          rw [List.getD_append _ _ _ _ (by rw [List.length_reverse]; omega)]
        rw [this, ← ih, List.getD_reverse _ (by omega)]
        congr 1
        omega
      have e2 : ∑ m ∈ Finset.range (xs.length + 1), b.getD m 0 * (xs.reverse ++ [x]).getD (xs.length - m) 0 =
          ∑ i ∈ Finset.range (xs.length + 1), b.getD i 0 * (x :: xs).getD i 0 := by
        refine Finset.sum_congr rfl fun i hi => ?_
        have hi := Finset.mem_range.mp hi
        congr 1
        rw [← List.reverse_cons, List.getD_reverse _ (by simp only [List.length_cons]; omega)]
        congr 1
        simp only [List.length_cons]
        omega
      rw [e1, e2] at hl
      rw [List.getD_cons_zero] at h0
      have : a.getD 0 0 * y = a.getD 0 0 * lfSeq b a (fun n => (xs.reverse ++ [x]).getD n 0) xs.length := by
        linear_combination h0 - hl
      exact mul_left_cancel₀ ha this

end Verif.Bank

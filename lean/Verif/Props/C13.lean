import Verif.Lemmas.StateSpace
import Mathlib.Algebra.Field.Rat
import Mathlib.Tactic.NormNum
import Mathlib.Tactic.FieldSimp

/-!
# C13: the state space filter is the filter it was made from
-/

namespace Verif.StateSpace

variable {K : Type} [Field K] [DecidableEq K]

/-- **C13**, numerator not longer than the denominator: `from_filter` succeeds and, for
every history of calls and every existing channel, the value `y` returned for `x`
satisfies the difference equation of `a` and of the numerator padded IN FRONT to the
length of `a`; inputs and outputs are those of the channel since the last reset. -/
theorem C13_state_space_padded (b a : List K) (hlen : b.length ≤ a.length) (ha3 : 3 ≤ a.length)
    (ha : a.getD 0 0 ≠ 0) :
    ∃ F, fromFilter b a = .ok F ∧ ∀ (h : List (Op K)) (x : K) (ch : ℕ),
      if ch < nChannels h then
        ∃ y, F.answer h x ch = .ok y ∧
          a.getD 0 0 * y + tapSum a.tail ((F.log ch h).map Prod.snd)
            = tapSum (List.replicate (a.length - b.length) 0 ++ b) (x :: pastInputs ch h) ∧
          (F.log ch h).map Prod.fst = pastInputs ch h
      else F.answer h x ch = .error .indexError := by
  set a' := a.map (· / a.getD 0 0) with ha'
  set b' := frontPad a.length (b.map (· / a.getD 0 0)) with hb'
  have hblen : b'.length = a'.length := by
    simp [hb', ha', frontPad]; omega
  have ha1 : a'.getD 0 0 = 1 := by
    rw [ha', getD_map_div, div_self ha]
  refine ⟨(column (canonical b' a')).lift, ?_, ?_⟩
  · have hs : (stripLeading (b.map (· / a.getD 0 0))).length ≤ a.length :=
      (stripLeading_length _).trans (by simpa using hlen)
    unfold fromFilter
    simp only [List.length_map]
    rw [if_neg (by omega), if_neg (by omega), frontPad_stripLeading _ _ (by simpa using hlen)]
  · intro h x ch
    rw [Column.lift_answer, Column.lift_log]
    split
    · set past := pastInputs ch h with hpast
      refine ⟨_, rfl, ?_, ?_⟩
      · have hd := difference_equation b' a' hblen ha1 (x :: past)
        rw [Column.outs] at hd
        have hzip : (past.zip ((column (canonical b' a')).outs past)).map Prod.snd
            = (column (canonical b' a')).outs past := by
          rw [List.map_snd_zip]; rw [Column.outs_length]
        rw [hzip]
        have hane : a ≠ [] := by rintro rfl; simp at ha
        have e1 : tapSum a' ((column (canonical b' a')).out past x
            :: (column (canonical b' a')).outs past)
            = (a.getD 0 0 * (column (canonical b' a')).out past x
              + tapSum a.tail ((column (canonical b' a')).outs past)) / a.getD 0 0 := by
          rw [ha', tapSum_map_div, tapSum_tail a hane]
        have e2 : tapSum b' (x :: past)
            = tapSum (List.replicate (a.length - b.length) 0 ++ b) (x :: past) / a.getD 0 0 := by
          rw [← tapSum_map_div]
          congr 1
          simp [hb', frontPad]
        rw [e1, e2] at hd
        field_simp at hd
        exact hd
      · rw [List.map_fst_zip]; rw [Column.outs_length]
    · rfl

/-- **C13.**  For `b`, `a` of equal length at least three with `a[0] ≠ 0`, `from_filter`
succeeds and its outputs satisfy, for every history of calls and on every channel, the
difference equation `∑ i, a[i]*y[n-i] = ∑ i, b[i]*x[n-i]` from rest. -/
theorem C13_state_space_history (b a : List K) (hlen : b.length = a.length) (ha3 : 3 ≤ a.length)
    (ha : a.getD 0 0 ≠ 0) :
    ∃ F, fromFilter b a = .ok F ∧ ∀ (h : List (Op K)) (x : K) (ch : ℕ),
      if ch < nChannels h then
        ∃ y, F.answer h x ch = .ok y ∧
          a.getD 0 0 * y + tapSum a.tail ((F.log ch h).map Prod.snd)
            = tapSum b (x :: pastInputs ch h) ∧
          (F.log ch h).map Prod.fst = pastInputs ch h
      else F.answer h x ch = .error .indexError := by
  have := C13_state_space_padded b a hlen.le ha3 ha
  rw [hlen, Nat.sub_self] at this
  simpa using this

/-- **C13**, order at most one: the object cannot be constructed. -/
theorem C13_low_order_raises (b a : List K) (hlen : b.length ≤ a.length) (ha : a.length ≤ 2) :
    fromFilter b a = .error .indexError := by
  have hs : (stripLeading (b.map (· / a.getD 0 0))).length ≤ a.length :=
    (stripLeading_length _).trans (by simpa using hlen)
  unfold fromFilter
  simp only [List.length_map]
  rw [if_neg (by omega), if_pos ha]

/-- **C13** fails for a numerator shorter than the denominator: for `b = [1]`,
`a = [1, 0, 0]` (the identity filter) the first output for the input 1 is 0. -/
theorem C13_short_numerator_false :
    ∃ F, fromFilter ([1] : List ℚ) [1, 0, 0] = .ok F ∧ F.answer [] 1 0 = .ok 0 ∧
      tapSum ([1] : List ℚ) [1] = 1 := by
  refine ⟨_, rfl, ?_, by simp [tapSum]⟩
  rw [Column.lift_answer]
  simp [nChannels, pastInputs, Column.out, Column.colAfter, column, step, canonical, frontPad,
    stripLeading]

/-- A concrete second-order filter with its third output on a two-channel history. -/
example : ∃ F, fromFilter ([0, 2, 4] : List ℚ) [2, -1, 1] = .ok F ∧
    F.answer [.setChannels 2, .sample 1 0, .sample 5 1, .sample 1 0] 1 0 = .ok (7 / 2) := by
  refine ⟨(column (canonical [0, 1, 2] [1, -1 / 2, 1 / 2])).lift, ?_, ?_⟩
  · simp [fromFilter, stripLeading, frontPad]
    norm_num
  rw [Column.lift_answer]
  simp [nChannels, pastInputs, Column.out, Column.colAfter, column, step, canonical,
    Finset.sum_range_succ]
  norm_num

end Verif.StateSpace

import Verif.Lemmas.Lattice
import Mathlib.Algebra.Order.Field.Rat
import Mathlib.Tactic.NormNum
import Mathlib.Tactic.Linarith
import Mathlib.Algebra.Order.AbsoluteValue.Basic
import Mathlib.Algebra.Order.Ring.Abs

/-!
# C07: lattice FIR filters

The full property ("the lattice filter made from the taps `b` outputs the convolution
with `b`") is false: the gain `b[0]` is lost.  What holds is the convolution with
`b / b[0]`, hence the full property exactly for `b[0] = 1`.
-/

namespace Verif.Lattice

variable {K : Type} [Field K] [LinearOrder K] [IsStrictOrderedRing K]

/-- **C07**, what holds: whenever `from_filter` accepts the taps `b` (`b[0] ≠ 0`), then
after every history of calls the value returned for `x` on an existing channel is the
convolution of the samples of that channel with the taps `b / b[0]`.
Missing for the full property: the factor `b[0]`. -/
theorem C07_lattice_fir_partial (b : List K) (hb0 : b.getD 0 0 ≠ 0) (F : RTFilter K)
    (hF : fromFIR b = .ok F) (h : List (Op K)) (x : K) (ch : ℕ) :
    F.answer h x ch =
      if ch < nChannels (dropZeroChannels h) then
        .ok (tapSum (b.map (· / b.getD 0 0)) (x :: pastInputs ch (dropZeroChannels h)))
      else .error .indexError := by
  unfold fromFIR at hF
  simp only at hF
  split at hF
  · simp at hF
  · rename_i hlen
    split at hF
    · rename_i hk
      have hF' := (Except.ok.inj hF).symm
      subst hF'
      rw [RTFilter.positiveChannels_answer, Column.lift_answer]
      split
      · congr 1
        rw [fir_out]
        refine conv_eq_tapSum _ _ (fun m => ?_) _
        have hl : (b.map (· / b.getD 0 0)).length = b.length := by simp
        have h0 : (b.map (· / b.getD 0 0)).getD 0 0 = 1 := by
          cases b with
          | nil => simp at hb0
          | cons b0 bs => simpa using hb0
        have := A_refl_getD (b.map (· / b.getD 0 0)) h0 (by rw [hl]; omega) (by
          rw [hl]
          intro i _ hi hz
          have h1 := hk i hi
          rw [abs_lt] at h1
          nlinarith [h1.1, h1.2]) m
        rw [hl] at this
        exact this
      · rfl
    · simp at hF

/-- **C07** for normalised taps: if `b[0] = 1` the lattice filter is the convolution
with `b`. -/
theorem C07_lattice_fir_normalised (b : List K) (hb0 : b.getD 0 0 = 1) (F : RTFilter K)
    (hF : fromFIR b = .ok F) (h : List (Op K)) (x : K) (ch : ℕ)
    (hch : ch < nChannels (dropZeroChannels h)) :
    F.answer h x ch = .ok (tapSum b (x :: pastInputs ch (dropZeroChannels h))) := by
  rw [C07_lattice_fir_partial b (by rw [hb0]; exact one_ne_zero) F hF, if_pos hch, hb0]
  simp

omit [IsStrictOrderedRing K] in
/-- **C07**, acceptance of two-tap filters: `from_filter` accepts `[b0, b1]` exactly
when `|b1 / b0| < 1`, and raises AssertionError otherwise. -/
theorem C07_two_taps_accepted (b0 b1 : K) :
    (∃ F, fromFIR [b0, b1] = .ok F) ↔ |b1 / b0| < 1 := by
  unfold fromFIR
  simp only
  rw [if_neg (by simp)]
  have : (∀ i < [b0, b1].length - 1,
      |refl (fun m => -(List.map (· / [b0, b1].getD 0 0) [b0, b1]).getD (m + 1) 0)
        ([b0, b1].length - 1) i| < 1) ↔ |b1 / b0| < 1 := by
    simp [refl, aS, rows]
  by_cases h : |b1 / b0| < 1
  · rw [if_pos (this.2 h)]
    exact ⟨fun _ => h, fun _ => ⟨_, rfl⟩⟩
  · rw [if_neg (fun h' => h (this.1 h'))]
    exact ⟨fun ⟨_, hF⟩ => (nomatch hF), fun h' => absurd h' h⟩

/-- **C07** is false as stated: for the taps `[2, 1]` the first output for the input 1
is 1 instead of 2. -/
theorem C07_gain_lost_false :
    ∃ F, fromFIR ([2, 1] : List ℚ) = .ok F ∧ F.answer [] 1 0 = .ok 1 ∧
      tapSum ([2, 1] : List ℚ) [1] = 2 := by
  have hacc : ∃ F, fromFIR ([2, 1] : List ℚ) = .ok F := by
    rw [C07_two_taps_accepted, abs_lt]; constructor <;> norm_num
  obtain ⟨F, hF⟩ := hacc
  refine ⟨F, hF, ?_, by simp [tapSum, Finset.sum_range_succ]⟩
  rw [C07_lattice_fir_partial _ (by norm_num) F hF]
  simp [nChannels, dropZeroChannels, pastInputs, tapSum, Finset.sum_range_succ]

/-- A three-tap filter that is accepted (with its reflection coefficients in range),
so that the hypotheses above are met. -/
example : ∃ F, fromFIR ([1, 1 / 2, 1 / 4] : List ℚ) = .ok F := by
  unfold fromFIR
  simp only
  rw [if_neg (by simp), if_pos]
  · exact ⟨_, rfl⟩
  intro i hi
  have hi' : i < 2 := by simpa using hi
  rw [abs_lt]
  match i, hi' with
  | 0, _ => simp [refl, aS, rows]; constructor <;> norm_num
  | 1, _ => simp [refl, aS, rows]; constructor <;> norm_num

end Verif.Lattice

import Verif.Lemmas.Framing
import Mathlib.Algebra.Field.Rat
import Mathlib.Algebra.Order.Ring.Rat

/-!
# C21: framing covers the signal
-/

set_option linter.unusedSectionVars false

namespace Verif.Framing

open Verif.SignalData (padTrim padTrim_length padTrim_end)
open Verif.LFilter (getD_map_range ext_getD getD_take getD_drop)

variable {K : Type} [Field K] [LinearOrder K]

/-- `frames` are complete frames of `x`: frame `k` has `W` samples and its sample `i` is
sample `k * step + i` of `x`, or zero beyond the end of `x`. -/
def FramesOf (frames : List (List K)) (x : List K) (W step : ℕ) : Prop :=
  ∀ k < frames.length, (frames.getD k []).length = W ∧
    ∀ i < W, (frames.getD k []).getD i 0 = x.getD (k * step + i) 0

private theorem framesOf_slices (x td : List K) (W step n : ℕ)
    (htd : ∀ j < td.length, td.getD j 0 = x.getD j 0)
    (h : ∀ k < n, k * step + W ≤ td.length) :
    (List.range n).mapM (fun k => assignFrame W ((td.drop (k * step)).take W)) =
      .ok ((List.range n).map fun k => (td.drop (k * step)).take W) ∧
    FramesOf ((List.range n).map fun k => (td.drop (k * step)).take W) x W step := by
  refine ⟨mapM_ok _ _ _ fun k hk => frame_ok td W step k (h k (List.mem_range.mp hk)), ?_⟩
  intro k hk
  have hk' : k < n := by simpa using hk
  have hget : ((List.range n).map fun k => (td.drop (k * step)).take W).getD k [] =
      (td.drop (k * step)).take W := by
    rw [List.getD_eq_getElem _ _ hk]
    simp
  rw [hget]
  have hlen := h k hk'
  refine ⟨by rw [List.length_take, List.length_drop]; omega, fun i hi => ?_⟩
  rw [getD_take _ _ _ hi, getD_drop, htd _ (by omega)]

/-- **C21**, with the last frames kept: the call succeeds for every signal, window length
and step; all frames are complete frames of the (zero-extended) signal, and every sample of
the signal appears in some frame if the step is at most the window length; there are
`ceil(L / step)` frames. -/
theorem C21_keep (x : List K) (W step : ℕ) (hstep : 0 < step) :
    ∃ frames, framed x W step true = .ok frames ∧ FramesOf frames x W step ∧
      (step ≤ W → ∀ j < x.length, ∃ k < frames.length, ∃ i < W, k * step + i = j) ∧
      (∀ k < frames.length, k * step < x.length) ∧ x.length ≤ frames.length * step := by
  obtain ⟨n, hn, hL, hk⟩ := ceilDiv_nat x.length step hstep
  have hmod : x.length % step ≤ x.length := Nat.mod_le _ _
  set m := ((x.length : ℤ) + ((W : ℤ) - (x.length % step : ℕ))).toNat with hm
  have hmval : m = x.length + W - x.length % step := by omega
  have hdiv := Nat.div_add_mod x.length step
  have hmodlt := Nat.mod_lt x.length hstep
  have hfit : ∀ k < n, k * step + W ≤ (padTrim x m true).length := by
    intro k hkn
    rw [padTrim_length, hmval]
    have h1 := hk k hkn
    -- `k * step ≤ L - L % step`
    have h2 : k ≤ x.length / step := by
      rw [Nat.le_div_iff_mul_le hstep]
      omega
    have h3 : k * step ≤ step * (x.length / step) := by
      rw [Nat.mul_comm]
      exact Nat.mul_le_mul_left _ h2
    omega
  obtain ⟨h1, h2⟩ := framesOf_slices x (padTrim x m true) W step n
    (fun j hj => by rw [padTrim_length] at hj; exact padTrim_end x m j hj) hfit
  refine ⟨(List.range n).map fun k => ((padTrim x m true).drop (k * step)).take W, ?_, h2, ?_,
    ?_, by simpa using hL⟩
  · unfold framed numberFrames
    rw [if_neg (by omega)]
    simp only [if_true, hn]
    rw [if_neg (by omega)]
    simp only [Int.toNat_natCast]
    exact h1
  · intro hsW j hj
    refine ⟨j / step, ?_, j % step, by have := Nat.mod_lt j hstep; omega, ?_⟩
    · simp only [List.length_map, List.length_range]
      rw [Nat.div_lt_iff_lt_mul hstep]
      omega
    · rw [Nat.mul_comm]
      exact Nat.div_add_mod j step
  · intro k hkn
    exact hk k (by simpa using hkn)

/-- A 5 sample signal with windows of 4 samples and a step of 2: three frames. -/
example : framed ([1, 2, 3, 4, 5] : List ℚ) 4 2 true =
    .ok [[1, 2, 3, 4], [3, 4, 5, 0], [5, 0, 0, 0]] := by decide +kernel

/-- **C21**, without the last frames (partial): for a signal at least as long as the window,
all returned frames lie inside of the signal and are its frames; the complete frames are
all returned unless the step divides `L - W`. -/
theorem C21_no_keep_partial (x : List K) (W step : ℕ) (hstep : 0 < step) (hW : W ≤ x.length) :
    ∃ frames, framed x W step false = .ok frames ∧ FramesOf frames x W step ∧
      (∀ k < frames.length, k * step + W ≤ x.length) ∧
      (¬ step ∣ x.length - W → ∀ k, k * step + W ≤ x.length → k < frames.length) := by
  obtain ⟨n, hn, hL, hk⟩ := ceilDiv_nat (x.length - W) step hstep
  have hcast : ((x.length - W : ℕ) : ℤ) = (x.length : ℤ) - W := by omega
  rw [hcast] at hn
  have htd : padTrim x ((x.length : ℤ) + 0).toNat true = x := by
    have h0 : ((x.length : ℤ) + 0).toNat = x.length := by omega
    rw [h0]
    unfold Verif.SignalData.padTrim
    rw [if_pos rfl]
  have hfit : ∀ k < n, k * step + W ≤ x.length := fun k hkn => by
    have := hk k hkn
    omega
  obtain ⟨h1, h2⟩ := framesOf_slices x x W step n (fun _ _ => rfl) hfit
  refine ⟨(List.range n).map fun k => (x.drop (k * step)).take W, ?_, h2, ?_, ?_⟩
  · unfold framed numberFrames
    rw [if_neg (by omega)]
    simp only [Bool.false_eq_true, if_false, hn]
    rw [if_neg (by omega), htd]
    simp only [Int.toNat_natCast]
    exact h1
  · intro k hkn
    exact hfit k (by simpa using hkn)
  · intro hnd k hkW
    simp only [List.length_map, List.length_range]
    by_contra hge
    have h3 : n * step ≤ k * step := Nat.mul_le_mul_right _ (by omega)
    have h4 : x.length - W = n * step := by omega
    exact hnd ⟨n, by rw [h4, Nat.mul_comm]⟩

/-- **C21** fails without the last frames: whenever the step divides `L - W`, the last
complete frame (which ends exactly at the end of the signal) is not returned. -/
theorem C21_no_keep_drops_last (x : List K) (W step q : ℕ) (hstep : 0 < step)
    (hL : x.length = q * step + W) :
    ∃ frames, framed x W step false = .ok frames ∧ frames.length = q := by
  obtain ⟨frames, hf, _, hin, _⟩ := C21_no_keep_partial x W step hstep (by omega)
  refine ⟨frames, hf, ?_⟩
  unfold framed numberFrames at hf
  rw [if_neg (by omega)] at hf
  have hc : ceilDiv ((x.length : ℤ) - W) step = q := by
    unfold ceilDiv
    have : -((x.length : ℤ) - W) = (-(q : ℤ)) * step := by
      rw [hL]; push_cast; ring
    rw [this, Int.mul_ediv_cancel _ (by omega)]
    omega
  simp only [Bool.false_eq_true, if_false, hc] at hf
  rw [if_neg (by omega)] at hf
  have htd : padTrim x ((x.length : ℤ) + 0).toNat true = x := by
    have h0 : ((x.length : ℤ) + 0).toNat = x.length := by omega
    rw [h0]
    unfold Verif.SignalData.padTrim
    rw [if_pos rfl]
  rw [htd] at hf
  simp only [Int.toNat_natCast] at hf
  have hfit : ∀ k < q, k * step + W ≤ x.length := fun k hkn => by
    have : k * step ≤ q * step := Nat.mul_le_mul_right _ hkn.le
    omega
  rw [(framesOf_slices x x W step q (fun _ _ => rfl) hfit).1] at hf
  rw [← Except.ok.inj hf]
  simp

/-- A signal of exactly one window gives no frame at all. -/
example : framed ([1, 2, 3, 4] : List ℚ) 4 2 false = .ok [] := by decide +kernel

/-- Three frames would fit, the last one is missing. -/
example : framed ([1, 2, 3, 4, 5, 6, 7, 8] : List ℚ) 4 2 false =
    .ok [[1, 2, 3, 4], [3, 4, 5, 6]] := by decide +kernel

/-- **C21**, window longer than the signal without the last frames: no frame if it is less
than a step longer, otherwise ValueError. -/
theorem C21_no_keep_short (x : List K) (W step : ℕ) (hstep : 0 < step) (hW : x.length < W) :
    framed x W step false =
      if W - x.length < step then .ok [] else .error .valueError := by
  unfold framed numberFrames
  rw [if_neg (by omega)]
  simp only [Bool.false_eq_true, if_false]
  have hnn : (0 : ℤ) ≤ (-((x.length : ℤ) - W)) := by omega
  split_ifs with h1 h2 h2
  · exfalso
    have h3 : (-((x.length : ℤ) - W)) / (step : ℤ) = 0 := Int.ediv_eq_zero_of_lt hnn (by omega)
    unfold ceilDiv at h1
    omega
  · rfl
  · have h3 : (-((x.length : ℤ) - W)) / (step : ℤ) = 0 := Int.ediv_eq_zero_of_lt hnn (by omega)
    have h4 : ceilDiv ((x.length : ℤ) - W) step = 0 := by unfold ceilDiv; omega
    rw [h4]
    rfl
  · exfalso
    have h3 : 1 ≤ (-((x.length : ℤ) - W)) / (step : ℤ) := by
      rw [Int.le_ediv_iff_mul_le (by omega)]
      omega
    unfold ceilDiv at h1
    omega

end Verif.Framing

import Verif.Model.Memory
import Verif.Lemmas.SignalData
import Mathlib.Algebra.Order.Field.Rat
import Mathlib.Algebra.Order.Ring.Rat
import Mathlib.Data.List.GetD
import Mathlib.Tactic.Ring
import Mathlib.Tactic.FieldSimp
import Mathlib.Tactic.Linarith
import Mathlib.Tactic.LinearCombination

/-!
# C52: which calls modify the arrays of the caller
-/

set_option linter.unusedSectionVars false

namespace Verif.Memory

open Verif.SignalData

variable {K : Type} [Field K] [LinearOrder K] [IsStrictOrderedRing K]

/-- The array is unchanged if the amplitude is not constrained or does not exceed one, and in
every case that raises; other arrays are never touched. -/
theorem C52_signal_partial (h : Heap K) (a : ℕ) (float constrain : Bool) :
    (constrain = false → (signalFromArray h a float constrain).2 = h) ∧
    (∀ y, standardForm (h a) = .ok y → peak y ≤ 1 → (signalFromArray h a float constrain).2 = h) ∧
    ((signalFromArray h a float constrain).1 ≠ none → (signalFromArray h a float constrain).2 = h) ∧
    ∀ b ≠ a, (signalFromArray h a float constrain).2 b = h b := by
  unfold signalFromArray
  cases hs : standardForm (h a) with
  | error e => exact ⟨fun _ => rfl, fun _ _ _ => rfl, fun _ => rfl, fun _ _ => rfl⟩
  | ok y =>
    simp only
    refine ⟨?_, ?_, ?_, ?_⟩
    · rintro rfl
      rfl
    · intro z hz hp
      cases hz
      split_ifs <;> first | rfl | exact absurd hp (by push Not; assumption)
    · split_ifs <;> simp
    · intro b hb
      split_ifs <;> first | rfl | exact Function.update_of_ne hb _ _

/-- Disagreement: an array of floats above full scale, given to a signal that constrains its
amplitude, is divided in place by its peak: the caller finds other samples in it. -/
theorem C52_signal_modified (h : Heap K) (a : ℕ) (y : Input K) (hy : standardForm (h a) = .ok y)
    (hne : ¬(y.rows = 0 ∨ y.cols = 0)) (hp : 1 < peak y) :
    (signalFromArray h a true true).1 = none ∧
    ∀ r c, ((signalFromArray h a true true).2 a).re r c = (h a).re r c / peak y ∧
      ((h a).re r c ≠ 0 → ((signalFromArray h a true true).2 a).re r c ≠ (h a).re r c) := by
  unfold signalFromArray
  rw [hy]
  simp only [if_true, hne, if_false, if_pos hp]
  refine ⟨trivial, fun r c => ?_⟩
  rw [Function.update_self]
  refine ⟨rfl, fun h0 hcon => ?_⟩
  have hpos : (0 : K) < peak y := lt_trans one_pos hp
  simp only [divide] at hcon
  rw [div_eq_iff hpos.ne'] at hcon
  have h1 : (h a).re r c * (peak y - 1) = 0 := by linear_combination -hcon
  rcases mul_eq_zero.mp h1 with h2 | h2
  · exact h0 h2
  · linarith

/-- Without rounding the data that the signal holds is the data described by the model of the
constructor (C14). -/
theorem C52_signal_data (h : Heap K) (a : ℕ) (constrain : Bool) (s : State K)
    (hs : construct (h a) constrain = .ok s) :
    (signalFromArray h a true constrain).1 = none ∧
    ∃ y, signalData (signalFromArray h a true constrain).2 a = .ok y ∧
      y.rows = s.re.rows ∧ y.cols = s.re.cols ∧
      ∀ r c, y.re r c = s.re.val r c := by
  unfold construct setData at hs
  unfold signalFromArray signalData
  cases hy : standardForm (h a) with
  | error e => rw [hy] at hs; cases hs
  | ok y =>
    rw [hy] at hs
    simp only at hs ⊢
    have hdiv : ∀ m, standardForm (divide (h a) m) = .ok (divide y m) := by
      intro m
      unfold standardForm at hy ⊢
      by_cases h1 : (h a).rows = 1 ∧ (h a).cols = 1
      · rw [if_pos h1] at hy; cases hy
      rw [if_neg h1] at hy
      rw [if_neg (show ¬((divide (h a) m).rows = 1 ∧ (divide (h a) m).cols = 1) from h1)]
      have hy' := (Except.ok.inj hy).symm
      subst hy'
      dsimp only
      have hT : ∀ x : Input K, (divide x m).T = divide x.T m := by
        intro x
        cases hi : x.im <;> simp [divide, Input.T, hi]
      by_cases h2 : (h a).rows = 1
      · rw [if_pos (show (divide (h a) m).rows = 1 from h2), if_pos h2, hT]
        by_cases h3 : (h a).T.cols > (h a).T.rows
        · rw [if_pos h3, if_pos (show (divide (h a).T m).cols > (divide (h a).T m).rows from h3), hT]
        · rw [if_neg h3, if_neg (show ¬(divide (h a).T m).cols > (divide (h a).T m).rows from h3)]
      · rw [if_neg (show ¬(divide (h a) m).rows = 1 from h2), if_neg h2]
        by_cases h3 : (h a).cols > (h a).rows
        · rw [if_pos h3, if_pos (show (divide (h a) m).cols > (divide (h a) m).rows from h3), hT]
        · rw [if_neg h3, if_neg (show ¬(divide (h a) m).cols > (divide (h a) m).rows from h3)]
    cases constrain with
    | false =>
      simp only [Bool.false_eq_true, if_false] at hs ⊢
      cases hs
      exact ⟨trivial, y, hy, rfl, rfl, fun _ _ => rfl⟩
    | true =>
      simp only [if_true] at hs ⊢
      by_cases h1 : y.rows = 0 ∨ y.cols = 0
      · rw [if_pos h1] at hs; cases hs
      rw [if_neg h1] at hs ⊢
      by_cases h2 : peak y > 1
      · rw [if_pos h2] at hs ⊢
        cases hs
        refine ⟨rfl, divide y (peak y), ?_, rfl, rfl, fun _ _ => rfl⟩
        simp only [Function.update_self]
        exact hdiv _
      · rw [if_neg h2] at hs ⊢
        cases hs
        exact ⟨rfl, y, hy, rfl, rfl, fun _ _ => rfl⟩

/-- Disagreement: the signal keeps a view.  If the caller later writes to the array, the samples
of the signal change with it, whatever its amplitude constraint says. -/
theorem C52_signal_shares_memory (h : Heap K) (a : ℕ) (float constrain : Bool) (z : Input K) :
    signalData (Function.update (signalFromArray h a float constrain).2 a z) a = standardForm z := by
  unfold signalData
  rw [Function.update_self]

/-- Concrete case: the samples 2, 4 of the caller become 1/2, 1. -/
example :
    let h : Heap ℚ := fun _ => ⟨2, 1, fun r _ => 2 * (r + 1), none⟩
    ((signalFromArray h 0 true true).2 0).re 0 0 = 1 / 2 ∧
    ((signalFromArray h 0 true true).2 0).re 1 0 = 1 := by
  decide +kernel

/-! ### Realtime filters -/

/-- `IIRFilter(b, a)` leaves the arrays as they are exactly if `a[0]` is one (for `a[0] ≠ 0`, as
needed for filtering). -/
theorem C52_iir_iff (h : VHeap K) (b a : ℕ) (hne : b ≠ a) (h0 : (h a).getD 0 0 ≠ 0) :
    iirInit h b a = h ↔ (h a).getD 0 0 = 1 := by
  have h1a : Function.update h b ((h b).map (· / (h a).getD 0 0)) a = h a :=
    Function.update_of_ne hne.symm _ _
  constructor
  · intro heq
    have h2 := congrFun heq a
    unfold iirInit at h2
    simp only [Function.update_self, h1a] at h2
    have h3 := congrArg (fun l => l.getD 0 0) h2
    cases hl : h a with
    | nil => rw [hl] at h0; simp at h0
    | cons c rest =>
      rw [hl] at h3 h0
      simp only [List.map_cons, List.getD_cons_zero] at h3 h0 ⊢
      rw [div_self h0] at h3
      exact h3.symm
  · intro h1
    unfold iirInit
    rw [h1] at h1a ⊢
    have hm : ∀ l : List K, l.map (· / (1 : K)) = l := by
      intro l
      induction l with
      | nil => rfl
      | cons c l ih => simp
    simp only [hm, Function.update_eq_self, h1]

/-- Disagreement: otherwise both arrays of the caller are divided by `a[0]`. -/
theorem C52_iir_modified (h : VHeap K) (b a : ℕ) (hne : b ≠ a) :
    iirInit h b a b = (h b).map (· / (h a).getD 0 0) ∧
    iirInit h b a a = (h a).map (· / (h a).getD 0 0) := by
  unfold iirInit
  constructor
  · rw [Function.update_of_ne hne, Function.update_self]
  · simp only [Function.update_self, Function.update_of_ne hne.symm]

/-- Built from a `Filter`, nothing of the caller is modified: only the two fresh arrays are. -/
theorem C52_iir_from_filter (h : VHeap K) (b a p q : ℕ) (c : ℕ) (hp : c ≠ p) (hq : c ≠ q) :
    iirFromFilter h b a p q c = h c := by
  unfold iirFromFilter iirInit
  simp only [Function.update_of_ne hp, Function.update_of_ne hq]

/-- The warped IIR filter does not modify anything either. -/
theorem C52_warped (h : VHeap K) (b a p q : ℕ) (c : ℕ) (hp : c ≠ p) (hq : c ≠ q) :
    warpedInit h b a p q c = h c := by
  unfold warpedInit
  simp only [Function.update_of_ne hp, Function.update_of_ne hq]

/-! ### Windows -/

/-- The window is unchanged exactly if it is not squared or consists of zeros and ones. -/
theorem C52_window_iff (h : VHeap K) (w total step frames : ℕ) (squared : Bool) :
    (windowEnvelope h w total step frames squared).2 = h ↔
      squared = false ∨ ∀ v ∈ h w, v = 0 ∨ v = 1 := by
  unfold windowEnvelope
  cases squared with
  | false => simp
  | true =>
    simp only [if_true, Bool.true_eq_false, false_or]
    constructor
    · intro heq v hv
      have h1 := congrFun heq w
      rw [Function.update_self] at h1
      have h2 : ∀ l : List K, l.map (· ^ 2) = l → ∀ v ∈ l, v ^ 2 = v := by
        intro l
        induction l with
        | nil => intro _ v hv; simp at hv
        | cons c l ih =>
          intro hl v hv
          rw [List.map_cons, List.cons.injEq] at hl
          rcases List.mem_cons.mp hv with rfl | hv
          · exact hl.1
          · exact ih hl.2 v hv
      have h3 := h2 _ h1 v hv
      have h4 : v * (v - 1) = 0 := by linear_combination h3
      rcases mul_eq_zero.mp h4 with h5 | h5
      · exact Or.inl h5
      · exact Or.inr (by linear_combination h5)
    · intro hall
      have h1 : (h w).map (· ^ 2) = h w := by
        conv_rhs => rw [← List.map_id (h w)]
        refine List.map_congr_left fun v hv => ?_
        rcases hall v hv with rfl | rfl <;> simp
      rw [h1, Function.update_eq_self]

/-- Disagreement: reconstructing from frames multiplies the frames of the caller by the window and
squares the window; both arrays differ afterwards. -/
theorem C52_reconstruct_modified :
    let h : VHeap ℚ := fun i => if i = 0 then [4, 4] else [1/2, 1/2]
    reconstructMemory h 0 1 0 = [2, 2] ∧ reconstructMemory h 0 1 1 = [1/4, 1/4] := by
  decide +kernel

/-- The envelope of a second call with the same window is a different one. -/
theorem C52_window_second_call :
    let h : VHeap ℚ := fun _ => [1/2, 1/2]
    (windowEnvelope h 0 2 2 1 true).1 = [1/4, 1/4] ∧
    (windowEnvelope (windowEnvelope h 0 2 2 1 true).2 0 2 2 1 true).1 = [1/16, 1/16] := by
  decide +kernel

/-- Concrete case for the filters: `b = [2, 4]`, `a = [2, 1]`. -/
example :
    let h : VHeap ℚ := fun i => if i = 0 then [2, 4] else [2, 1]
    iirInit h 0 1 0 = [1, 2] ∧ iirInit h 0 1 1 = [1, 1/2] := by
  decide +kernel

end Verif.Memory

import Verif.Model.Framing
import Verif.Lemmas.SignalData
import Verif.Lemmas.LFilter
import Mathlib.Algebra.BigOperators.Ring.Finset

/-! Lemmas about framing and overlap-add. -/

set_option linter.unusedSectionVars false

namespace Verif.Framing

open Verif.SignalData (padTrim padTrim_length padTrim_end)
open Verif.LFilter (getD_map_range ext_getD getD_take getD_drop)

theorem mapM_ok {α β : Type} (f : α → Except Err β) (g : α → β) :
    ∀ l : List α, (∀ a ∈ l, f a = .ok (g a)) → l.mapM f = .ok (l.map g)
  | [], _ => rfl
  | a :: l, h => by
    rw [List.mapM_cons, h a (by simp), mapM_ok f g l (fun b hb => h b (by simp [hb]))]
    rfl

theorem ceilDiv_nat (L step : ℕ) (h : 0 < step) :
    ∃ n : ℕ, ceilDiv L step = n ∧ L ≤ n * step ∧ (∀ k, k < n → k * step < L) := by
  have h0 : 0 ≤ ceilDiv L step := by
    unfold ceilDiv
    have : (-(L : ℤ)) / (step : ℤ) ≤ 0 := by
      apply Int.ediv_nonpos_of_nonpos_of_neg <;> omega
    omega
  obtain ⟨n, hn⟩ := Int.eq_ofNat_of_zero_le h0
  refine ⟨n, hn, ?_, fun k hk => ?_⟩
  · have h1 := Int.ediv_mul_le (-(L : ℤ)) (b := (step : ℤ)) (by omega)
    unfold ceilDiv at hn
    have h2 : (-(L : ℤ)) / (step : ℤ) = -n := by omega
    rw [h2] at h1
    have : (L : ℤ) ≤ n * step := by linarith
    exact_mod_cast this
  · have h1 := Int.lt_ediv_add_one_mul_self (-(L : ℤ)) (b := (step : ℤ)) (by omega)
    unfold ceilDiv at hn
    have h2 : (-(L : ℤ)) / (step : ℤ) = -n := by omega
    rw [h2] at h1
    have h3 : (k : ℤ) * step ≤ (n - 1) * step :=
      mul_le_mul_of_nonneg_right (by omega) (by omega)
    have : (k : ℤ) * step < L := by linarith
    exact_mod_cast this

variable {K : Type} [Field K] [LinearOrder K]

/-- The frame `k` of the padded signal. -/
theorem frame_ok (td : List K) (W step k : ℕ) (h : k * step + W ≤ td.length) :
    assignFrame W ((td.drop (k * step)).take W) = .ok ((td.drop (k * step)).take W) := by
  unfold assignFrame
  rw [if_pos]
  rw [List.length_take, List.length_drop]
  omega

theorem addAt_length (td : List K) (s : ℕ) (v : List K) : (addAt td s v).length = td.length := by
  simp [addAt]

theorem addAt_getD (td : List K) (s : ℕ) (v : List K) (j : ℕ) (h : j < td.length) :
    (addAt td s v).getD j 0 =
      td.getD j 0 + if s ≤ j ∧ j < s + v.length then v.getD (j - s) 0 else 0 := by
  unfold addAt
  rw [getD_map_range, if_pos h]

/-- Overlap-add of `n` pieces into zeros. -/
theorem overlapAdd (v : ℕ → List K) (step total : ℕ) : ∀ n : ℕ,
    ((List.range n).foldl (fun td k => addAt td (k * step) (v k)) (List.replicate total 0)).length
      = total ∧
    ∀ j < total, ((List.range n).foldl (fun td k => addAt td (k * step) (v k))
      (List.replicate total 0)).getD j 0 = ∑ k ∈ Finset.range n,
        if k * step ≤ j ∧ j < k * step + (v k).length then (v k).getD (j - k * step) 0 else 0
  | 0 => by
    refine ⟨by simp, fun j hj => ?_⟩
    simp [List.getD_eq_getElem?_getD, hj]
  | n + 1 => by
    obtain ⟨h1, h2⟩ := overlapAdd v step total n
    rw [List.range_succ, List.foldl_append]
    simp only [List.foldl_cons, List.foldl_nil]
    refine ⟨by rw [addAt_length, h1], fun j hj => ?_⟩
    rw [addAt_getD _ _ _ _ (by rw [h1]; exact hj), h2 j hj, Finset.sum_range_succ]

end Verif.Framing

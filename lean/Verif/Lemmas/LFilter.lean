import Verif.Model.LFilter
import Verif.Lemmas.Realtime
import Mathlib.Data.List.GetD
import Mathlib.Algebra.BigOperators.Group.Finset.Basic
import Mathlib.Tactic.Ring

/-! Lemmas about block filtering with carried state. -/

namespace Verif.LFilter

variable {K : Type} [Field K]

theorem getD_map_range (n : ℕ) (f : ℕ → K) (k : ℕ) :
    ((List.range n).map f).getD k 0 = if k < n then f k else 0 := by
  split
  · rename_i h
    rw [List.getD_eq_getElem _ _ (by simpa using h)]
    simp
  · rename_i h
    rw [List.getD_eq_default _ _ (by simpa using h)]

theorem ext_getD (l l' : List K) (h : l.length = l'.length)
    (h' : ∀ k < l.length, l.getD k 0 = l'.getD k 0) : l = l' := by
  apply List.ext_getElem h
  intro k h1 h2
  have := h' k h1
  rwa [List.getD_eq_getElem _ _ h1, List.getD_eq_getElem _ _ h2] at this

theorem getD_take (l : List K) (n k : ℕ) (h : k < n) : (l.take n).getD k 0 = l.getD k 0 := by
  simp [List.getD_eq_getElem?_getD, h]

theorem getD_drop (l : List K) (n k : ℕ) : (l.drop n).getD k 0 = l.getD (n + k) 0 := by
  simp [List.getD_eq_getElem?_getD]

theorem length_addHead (y z : List K) : (addHead y z).length = y.length := by simp [addHead]

theorem length_fullConv (b x : List K) : (fullConv b x).length = x.length + b.length - 1 := by
  simp [fullConv]

theorem conv_beyond (b x : List K) (k : ℕ) (h : x.length + b.length - 1 ≤ k) :
    (∑ m ∈ Finset.range b.length, if m ≤ k then b.getD m 0 * x.getD (k - m) 0 else 0) = 0 := by
  refine Finset.sum_eq_zero fun m hm => ?_
  have hm' := Finset.mem_range.1 hm
  split
  · rw [List.getD_eq_default x _ (by omega), mul_zero]
  · rfl

theorem fullConv_getD (b x : List K) (k : ℕ) :
    (fullConv b x).getD k 0
      = ∑ m ∈ Finset.range b.length, if m ≤ k then b.getD m 0 * x.getD (k - m) 0 else 0 := by
  unfold fullConv
  rw [getD_map_range]
  split
  · rfl
  · rw [conv_beyond]
    omega

theorem fullConv_append (b x1 x2 : List K) (k : ℕ) :
    (fullConv b (x1 ++ x2)).getD (x1.length + k) 0
      = (fullConv b x1).getD (x1.length + k) 0 + (fullConv b x2).getD k 0 := by
  rw [fullConv_getD, fullConv_getD, fullConv_getD, ← Finset.sum_add_distrib]
  refine Finset.sum_congr rfl fun m _ => ?_
  by_cases h1 : m ≤ k
  · rw [if_pos (by omega), if_pos (by omega), if_pos h1, List.getD_eq_default x1 _ (by omega),
      List.getD_append_right _ _ _ _ (by omega), mul_zero, zero_add]
    congr 2
    omega
  · rw [if_neg h1, add_zero]
    by_cases h2 : m ≤ x1.length + k
    · rw [if_pos h2, if_pos h2, List.getD_append _ _ _ _ (by omega)]
    · rw [if_neg h2, if_neg h2]

theorem fullConv_append_left (b x1 x2 : List K) (k : ℕ) (hk : k < x1.length) :
    (fullConv b (x1 ++ x2)).getD k 0 = (fullConv b x1).getD k 0 := by
  rw [fullConv_getD, fullConv_getD]
  refine Finset.sum_congr rfl fun m _ => ?_
  split
  · rw [List.getD_append _ _ _ _ (by omega)]
  · rfl

theorem addHead_getD (y z : List K) (h : z.length ≤ y.length) (k : ℕ) :
    (addHead y z).getD k 0 = y.getD k 0 + z.getD k 0 := by
  unfold addHead
  rw [getD_map_range]
  split
  · rfl
  · rw [List.getD_eq_default y _ (by omega), List.getD_eq_default z _ (by omega), add_zero]

/-- The routine `firFilter.run` on two consecutive blocks. -/
theorem fir_cut (b zi0 : List K) (hb : b ≠ []) (zi x1 x2 : List K)
    (hz : zi.length = b.length - 1) :
    (firFilter b zi0).run zi (x1 ++ x2) =
      (((firFilter b zi0).run zi x1).1
          ++ ((firFilter b zi0).run ((firFilter b zi0).run zi x1).2 x2).1,
        ((firFilter b zi0).run ((firFilter b zi0).run zi x1).2 x2).2) ∧
    ((firFilter b zi0).run zi x1).2.length = b.length - 1 := by
  have hL : 0 < b.length := List.length_pos_of_ne_nil hb
  have hl : ∀ z x : List K, z.length = b.length - 1 →
      ((firFilter b zi0).run z x).2 = (addHead (fullConv b x) z).drop x.length ∧
      ((firFilter b zi0).run z x).2.length = b.length - 1 ∧
      ((firFilter b zi0).run z x).1 = (addHead (fullConv b x) z).take x.length := by
    intro z x hz
    have h1 : (addHead (fullConv b x) z).length - z.length = x.length := by
      rw [length_addHead, length_fullConv]
      omega
    refine ⟨?_, ?_, rfl⟩
    · simp only [firFilter, h1]
    · simp only [firFilter, List.length_drop, length_addHead, length_fullConv]
      omega
  have hle : ∀ z x : List K, z.length = b.length - 1 → z.length ≤ (fullConv b x).length := by
    intro z x hz
    rw [length_fullConv]
    omega
  obtain ⟨a2, al, a1⟩ := hl zi x1 hz
  obtain ⟨b2, bl, b1⟩ := hl zi (x1 ++ x2) hz
  obtain ⟨c2, cl, c1⟩ := hl _ x2 al
  refine ⟨Prod.ext ?_ ?_, al⟩
  · rw [b1, c1, a1]
    apply ext_getD
    · simp only [List.length_take, List.length_append, length_addHead, length_fullConv]
      omega
    · intro k hk
      simp only [List.length_take, List.length_append, length_addHead, length_fullConv] at hk
      rw [getD_take _ _ _ (by simp; omega), addHead_getD _ _ (hle _ _ hz)]
      by_cases h1 : k < x1.length
      · rw [List.getD_append _ _ _ _ (by
            rw [List.length_take, length_addHead, length_fullConv]; omega), getD_take _ _ _ h1,
          addHead_getD _ _ (hle _ _ hz), fullConv_append_left _ _ _ _ h1]
      · have hlen : ((addHead (fullConv b x1) zi).take x1.length).length = x1.length := by
          rw [List.length_take, length_addHead, length_fullConv]; omega
        rw [List.getD_append_right _ _ _ _ (by rw [hlen]; omega), hlen, getD_take _ _ _ (by omega),
          addHead_getD _ _ (hle _ _ al), a2, getD_drop, addHead_getD _ _ (hle _ _ hz)]
        have hk' : k = x1.length + (k - x1.length) := by omega
        rw [show x1.length + (k - x1.length) = k by omega]
        conv_lhs => rw [hk', fullConv_append]
        rw [← hk']
        ring
  · rw [b2, c2]
    apply ext_getD
    · rw [← b2, bl, ← c2, cl]
    · intro k hk
      rw [getD_drop, addHead_getD _ _ (hle _ _ hz), getD_drop, addHead_getD _ _ (hle _ _ al), a2,
        getD_drop, addHead_getD _ _ (hle _ _ hz), List.length_append, Nat.add_assoc,
        fullConv_append]
      ring

theorem lfilterFir_run (b zi0 x zi : List K) (hx : x ≠ []) (hz : zi.length ≠ 0) :
    lfilterFir b x zi = .ok ((firFilter b zi0).run zi x) := by
  simp [lfilterFir, hx, hz, firFilter]

theorem iir_cut (b a : List K) (n : ℕ) (z x1 x2 : List K) :
    lfilterIIR b a n z (x1 ++ x2) =
      ((lfilterIIR b a n z x1).1 ++ (lfilterIIR b a n (lfilterIIR b a n z x1).2 x2).1,
        (lfilterIIR b a n (lfilterIIR b a n z x1).2 x2).2) := by
  induction x1 generalizing z with
  | nil => rfl
  | cons x x1 ih =>
    rw [List.cons_append]
    simp only [lfilterIIR, ih, List.cons_append]

theorem iir_length (b a : List K) (n : ℕ) (z x : List K) (hz : z.length = n) :
    (lfilterIIR b a n z x).2.length = n := by
  induction x generalizing z with
  | nil => exact hz
  | cons x xs ih =>
    simp only [lfilterIIR]
    exact ih _ (by simp [df2tState])

end Verif.LFilter

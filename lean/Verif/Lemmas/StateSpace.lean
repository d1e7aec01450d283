import Verif.Model.StateSpace
import Verif.Lemmas.Channels
import Mathlib.Algebra.BigOperators.Intervals
import Mathlib.Algebra.BigOperators.Ring.Finset
import Mathlib.Data.List.GetD
import Mathlib.Tactic.Ring
import Mathlib.Tactic.LinearCombination

/-! Helper lemmas for the state space filter. -/

namespace Verif.StateSpace

variable {K : Type} [Field K]

/-- Signal behind the poles (most recent first): `w[n] = u[n] - ∑_{k≥1} a[k] w[n-k]`. -/
def inner (a : List K) : List K → List K
  | [] => []
  | u :: us => (u - tapSum a.tail (inner a us)) :: inner a us

theorem inner_length (a us : List K) : (inner a us).length = us.length := by
  induction us with
  | nil => rfl
  | cons u us ih => simp [inner, ih]

theorem inner_drop (a us : List K) (k : ℕ) : (inner a us).drop k = inner a (us.drop k) := by
  induction us generalizing k with
  | nil => simp [inner]
  | cons u us ih => cases k <;> simp [inner, ih]

theorem tapSum_tail (a : List K) (ha : a ≠ []) (w : K) (ws : List K) :
    tapSum a (w :: ws) = a.getD 0 0 * w + tapSum a.tail ws := by
  cases a with
  | nil => exact absurd rfl ha
  | cons a0 as => simp [tapSum_cons]

theorem tapSum_inner (a : List K) (ha : a.getD 0 0 = 1) (us : List K) :
    tapSum a (inner a us) = us.headD 0 := by
  have hne : a ≠ [] := by rintro rfl; simp at ha
  cases us with
  | nil => simp [inner, tapSum_nil_right]
  | cons u us => rw [inner, tapSum_tail a hne, ha]; simp

theorem colAfter_canonical (b a : List K) (us : List K) (i : ℕ)
    (hi : i < a.length - 1) :
    (column (canonical b a)).colAfter us i = (inner a us).getD i 0 := by
  induction us generalizing i with
  | nil => simp [inner]; rfl
  | cons u us ih =>
    show ∑ j ∈ Finset.range (a.length - 1), (canonical b a).A i j *
      (column (canonical b a)).colAfter us j + (canonical b a).B i * u = _
    have e : ∀ j ∈ Finset.range (a.length - 1), (canonical b a).A i j *
        (column (canonical b a)).colAfter us j
        = (canonical b a).A i j * (inner a us).getD j 0 := fun j hj => by
      rw [ih j (Finset.mem_range.1 hj)]
    rw [Finset.sum_congr rfl e]
    cases i with
    | zero =>
      simp only [canonical, if_true, inner, List.getD_cons_zero, tapSum, List.length_tail]
      have : ∀ j ∈ Finset.range (a.length - 1), -a.getD (j + 1) 0 * (inner a us).getD j 0
          = - (a.tail.getD j 0 * (inner a us).getD j 0) := fun j _ => by
        cases a <;> simp
      rw [Finset.sum_congr rfl this, Finset.sum_neg_distrib]
      ring
    | succ i =>
      simp only [canonical, inner, List.getD_cons_succ]
      rw [Finset.sum_eq_single i]
      · simp
      · intro j _ hji
        have : ¬ i = j := fun h => hji h.symm
        simp [this]
      · intro h; exact absurd (Finset.mem_range.2 (by omega)) h

theorem out_canonical (b a : List K) (hlen : b.length = a.length) (ha : a.getD 0 0 = 1)
    (us : List K) (u : K) :
    (column (canonical b a)).out us u = tapSum b (inner a (u :: us)) := by
  have hne : a ≠ [] := by rintro rfl; simp at ha
  have hbne : b ≠ [] := by
    rintro rfl; exact hne (List.length_eq_zero_iff.1 hlen.symm)
  show ∑ j ∈ Finset.range (a.length - 1), (canonical b a).C j *
      (column (canonical b a)).colAfter us j + (canonical b a).D * u = _
  have e : ∀ j ∈ Finset.range (a.length - 1), (canonical b a).C j *
        (column (canonical b a)).colAfter us j
        = b.tail.getD j 0 * (inner a us).getD j 0
          - b.getD 0 0 * (a.tail.getD j 0 * (inner a us).getD j 0) := fun j hj => by
    rw [colAfter_canonical b a us j (Finset.mem_range.1 hj)]
    have hb : b.getD (j + 1) 0 = b.tail.getD j 0 := by cases b <;> simp
    have ha : a.getD (j + 1) 0 = a.tail.getD j 0 := by cases a <;> simp
    simp only [canonical, hb, ha]
    ring
  rw [Finset.sum_congr rfl e, Finset.sum_sub_distrib, ← Finset.mul_sum]
  have e1 : ∑ j ∈ Finset.range (a.length - 1), b.tail.getD j 0 * (inner a us).getD j 0
      = tapSum b.tail (inner a us) := by
    rw [tapSum, List.length_tail, hlen]
  have e2 : ∑ j ∈ Finset.range (a.length - 1), a.tail.getD j 0 * (inner a us).getD j 0
      = tapSum a.tail (inner a us) := by
    rw [tapSum, List.length_tail]
  rw [e1, e2, inner, tapSum_tail b hbne]
  simp only [canonical]
  ring

theorem tapSum_swap (a b ws : List K) :
    tapSum a ((List.range ws.length).map fun j => tapSum b (ws.drop j))
      = tapSum b ((List.range ws.length).map fun j => tapSum a (ws.drop j)) := by
  have key : ∀ (a b : List K), tapSum a ((List.range ws.length).map fun j => tapSum b (ws.drop j))
      = ∑ i ∈ Finset.range a.length, ∑ k ∈ Finset.range b.length,
          a.getD i 0 * (b.getD k 0 * ws.getD (i + k) 0) := by
    intro a b
    refine Finset.sum_congr rfl fun i _ => ?_
    rw [← Finset.mul_sum]
    congr 1
    by_cases hi : i < ws.length
    · rw [List.getD_eq_getElem _ _ (by simpa using hi)]
      simp only [List.getElem_map, List.getElem_range, tapSum]
      refine Finset.sum_congr rfl fun k _ => ?_
      congr 1
      simp [List.getD_eq_getElem?_getD]
    · rw [List.getD_eq_default _ _ (by simpa using hi)]
      refine (Finset.sum_eq_zero fun k _ => ?_).symm
      rw [List.getD_eq_default ws _ (by omega), mul_zero]
  rw [key, key, Finset.sum_comm]
  refine Finset.sum_congr rfl fun i _ => Finset.sum_congr rfl fun k _ => ?_
  rw [Nat.add_comm]; ring

/-- Outputs of the canonical form in terms of the inner signal. -/
theorem outs_canonical (b a : List K) (hlen : b.length = a.length) (ha : a.getD 0 0 = 1)
    (us : List K) :
    (column (canonical b a)).outs us
      = (List.range (inner a us).length).map fun j => tapSum b ((inner a us).drop j) := by
  induction us with
  | nil => rfl
  | cons u us ih =>
    rw [Column.outs, out_canonical b a hlen ha, ih, inner_length, inner_length, List.length_cons,
      List.range_succ_eq_map, List.map_cons, List.map_map]
    rfl

theorem inputs_canonical (a : List K) (ha : a.getD 0 0 = 1) (us : List K) :
    us = (List.range (inner a us).length).map fun j => tapSum a ((inner a us).drop j) := by
  apply List.ext_getElem
  · simp [inner_length]
  · intro i h1 h2
    simp only [List.getElem_map, List.getElem_range, inner_drop, tapSum_inner a ha]
    rw [List.headD_eq_head?_getD, List.head?_drop]
    simp [h1]

/-- The difference equation of the canonical form. -/
theorem difference_equation (b a : List K) (hlen : b.length = a.length) (ha : a.getD 0 0 = 1)
    (us : List K) :
    tapSum a ((column (canonical b a)).outs us) = tapSum b us := by
  rw [outs_canonical b a hlen ha, tapSum_swap, ← inputs_canonical a ha]

theorem getD_map_div (l : List K) (c : K) (i : ℕ) :
    (l.map (· / c)).getD i 0 = l.getD i 0 / c := by
  by_cases hi : i < l.length
  · simp [hi]
  · simp [not_lt.1 hi]

theorem tapSum_map_div (l : List K) (c : K) (xs : List K) :
    tapSum (l.map (· / c)) xs = tapSum l xs / c := by
  unfold tapSum
  rw [List.length_map, div_eq_mul_inv, Finset.sum_mul]
  exact Finset.sum_congr rfl fun i _ => by rw [getD_map_div]; ring

theorem frontPad_stripLeading [DecidableEq K] (n : ℕ) (b : List K) (h : b.length ≤ n) :
    frontPad n (stripLeading b) = frontPad n b := by
  induction b with
  | nil => rfl
  | cons b0 bs ih =>
    cases bs with
    | nil => rfl
    | cons b1 bs =>
      rw [stripLeading]
      split
      · rename_i h0
        rw [ih (by simp at h ⊢; omega), frontPad, frontPad, h0]
        have : n - (b1 :: bs).length = (n - (0 :: b1 :: bs).length) + 1 := by
          simp at h ⊢; omega
        rw [this, List.replicate_succ', List.append_assoc]
        rfl
      · rfl
      · simp

theorem stripLeading_length [DecidableEq K] (b : List K) : (stripLeading b).length ≤ b.length := by
  induction b with
  | nil => simp [stripLeading]
  | cons b0 bs ih =>
    cases bs with
    | nil => simp [stripLeading]
    | cons b1 bs =>
      rw [stripLeading]
      split
      · exact ih.trans (by simp)
      · exact le_rfl
      · simp

end Verif.StateSpace

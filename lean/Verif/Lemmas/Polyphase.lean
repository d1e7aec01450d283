import Verif.Model.Polyphase
import Verif.Spec.Convolution
import Verif.Lemmas.LFilter
import Verif.Lemmas.SignalData
import Mathlib.Algebra.BigOperators.Intervals
import Mathlib.Algebra.BigOperators.Ring.Finset

/-! Lemmas about polyphase representations. -/

set_option linter.unusedSectionVars false

namespace Verif.Polyphase

open Verif.SignalData (padTrim padTrim_length padTrim_start)
open Verif.LFilter (fullConv getD_map_range ext_getD getD_take getD_drop fullConv_getD
  length_fullConv)

variable {K : Type} [Field K]

/-- Number of zeros that make the length a multiple of `n`. -/
def gap (L n : ℕ) : ℕ := if L % n = 0 then 0 else n - L % n

theorem gap_dvd (L n : ℕ) (hn : 0 < n) : n ∣ L + gap L n := by
  unfold gap
  have h1 := Nat.mod_lt L hn
  have h2 := Nat.div_add_mod L n
  split_ifs with h
  · exact Nat.dvd_of_mod_eq_zero h
  · refine ⟨L / n + 1, ?_⟩
    rw [Nat.mul_add]
    omega

theorem gap_lt (L n : ℕ) (hn : 0 < n) : gap L n < n := by
  unfold gap
  split_ifs <;> omega

/-- The front-padded signal. -/
def padded (x : List K) (n : ℕ) : List K := List.replicate (gap x.length n) 0 ++ x

theorem padded_length (x : List K) (n : ℕ) : (padded x n).length = x.length + gap x.length n := by
  simp [padded, Nat.add_comm]

theorem padded_getD (x : List K) (n i : ℕ) : (padded x n).getD i 0 =
    if gap x.length n ≤ i then x.getD (i - gap x.length n) 0 else 0 := by
  unfold padded
  split_ifs with h
  · rw [List.getD_append_right _ _ _ _ (by simpa using h)]
    simp
  · rw [List.getD_append _ _ _ _ (by simp; omega)]
    rw [List.getD_eq_getElem _ _ (by simp; omega)]
    simp

theorem decompose_pad (x : List K) (n : ℕ) :
    (if x.length % n ≠ 0 then padTrim x (x.length + (n - x.length % n)) false else x) =
      padded x n := by
  split_ifs with h
  · apply ext_getD
    · rw [padTrim_length, padded_length]
      unfold gap
      rw [if_neg h]
    · intro k hk
      rw [padTrim_length] at hk
      rw [padTrim_start _ _ _ hk, padded_getD]
      have hg : gap x.length n = n - x.length % n := by unfold gap; rw [if_neg h]
      rw [hg]
      split_ifs with h1 h2 h2
      · congr 1
        omega
      · omega
      · omega
      · rfl
  · unfold padded gap
    rw [if_pos (by omega)]
    rfl

theorem decompose_eq (x : List K) (n : ℕ) (hn : 0 < n) (flip : Bool) :
    decompose x n flip = .ok ((if flip then List.reverse else id)
      ((List.range n).map fun ind => (List.range ((padded x n).length / n)).map fun r =>
        (padded x n).getD (ind + r * n) 0), n - x.length % n) := by
  unfold decompose
  rw [if_neg (by omega)]
  simp only [decompose_pad]
  cases flip <;> simp

/-- Component `ind` of a decomposition. -/
def comp (x : List K) (n ind : ℕ) : List K :=
  (List.range ((padded x n).length / n)).map fun r => (padded x n).getD (ind + r * n) 0

theorem comp_length (x : List K) (n ind : ℕ) :
    (comp x n ind).length = (padded x n).length / n := by
  simp [comp]

theorem comp_getD (x : List K) (n ind r : ℕ) (hn : 0 < n) :
    (comp x n ind).getD r 0 = (padded x n).getD (ind + r * n) 0 := by
  unfold comp
  rw [getD_map_range]
  split_ifs with h
  · rfl
  · rw [List.getD_eq_default]
    have h1 : n ∣ (padded x n).length := by rw [padded_length]; exact gap_dvd _ _ hn
    have h2 := Nat.div_mul_cancel h1
    have h3 : (padded x n).length / n * n ≤ r * n := Nat.mul_le_mul_right _ (by omega)
    omega

theorem decompose_eq' (x : List K) (n : ℕ) (hn : 0 < n) :
    decompose x n false = .ok ((List.range n).map (comp x n), n - x.length % n) := by
  rw [decompose_eq x n hn]
  rfl

theorem decompose_flip (x : List K) (n : ℕ) (hn : 0 < n) :
    decompose x n true =
      .ok ((List.range n).map (fun i => comp x n (n - 1 - i)), n - x.length % n) := by
  rw [decompose_eq x n hn]
  congr 2
  simp only [if_true]
  apply List.ext_getElem (by simp)
  intro i h1 h2
  simp [List.getElem_reverse, comp]

theorem getD_map_range' {α : Type} (n : ℕ) (f : ℕ → α) (k : ℕ) (d : α) (h : k < n) :
    ((List.range n).map f).getD k d = f k := by
  rw [List.getD_eq_getElem _ _ (by simpa using h)]
  simp

theorem recompose_fold (poly : List (List K)) (rows n : ℕ) : ∀ m : ℕ,
    ((List.range m).foldl (fun out ind => (List.range (rows * n)).map fun j =>
      if j % n = ind then (poly.getD ind []).getD (j / n) 0 else out.getD j 0)
      (List.replicate (rows * n) 0)).length = rows * n ∧
    ∀ j < rows * n, ((List.range m).foldl (fun out ind => (List.range (rows * n)).map fun j =>
      if j % n = ind then (poly.getD ind []).getD (j / n) 0 else out.getD j 0)
      (List.replicate (rows * n) 0)).getD j 0 =
        if j % n < m then (poly.getD (j % n) []).getD (j / n) 0 else 0
  | 0 => by
    refine ⟨by simp, fun j hj => ?_⟩
    simp [List.getD_eq_getElem?_getD, hj]
  | m + 1 => by
    obtain ⟨h1, h2⟩ := recompose_fold poly rows n m
    rw [List.range_succ, List.foldl_append]
    simp only [List.foldl_cons, List.foldl_nil]
    refine ⟨by simp, fun j hj => ?_⟩
    rw [getD_map_range, if_pos hj, h2 j hj]
    by_cases h : j % n = m
    · rw [if_pos h, if_pos (by omega), h]
    · rw [if_neg h]
      by_cases h' : j % n < m
      · rw [if_pos h', if_pos (by omega)]
      · rw [if_neg h', if_neg (by omega)]

theorem recompose_length (poly : List (List K)) (rows : ℕ) :
    (recompose poly rows).length = rows * poly.length :=
  (recompose_fold poly rows poly.length poly.length).1

theorem recompose_getD (poly : List (List K)) (rows j : ℕ) (hj : j < rows * poly.length) :
    (recompose poly rows).getD j 0 =
      (poly.getD (j % poly.length) []).getD (j / poly.length) 0 := by
  have hn : 0 < poly.length := by
    rcases Nat.eq_zero_or_pos poly.length with h | h
    · rw [h] at hj; omega
    · exact h
  have := (recompose_fold poly rows poly.length poly.length).2 j hj
  rw [if_pos (Nat.mod_lt _ hn)] at this
  exact this

theorem accumulate_fold (poly bpoly : List (List K)) (len : ℕ) : ∀ m : ℕ,
    ((List.range m).foldl (fun temp n => (List.range len).map fun k =>
      temp.getD k 0 + (fullConv (bpoly.getD n []) (poly.getD n [])).getD k 0)
      (List.replicate len 0)).length = len ∧
    ∀ k < len, ((List.range m).foldl (fun temp n => (List.range len).map fun k =>
      temp.getD k 0 + (fullConv (bpoly.getD n []) (poly.getD n [])).getD k 0)
      (List.replicate len 0)).getD k 0 =
        ∑ n ∈ Finset.range m, (fullConv (bpoly.getD n []) (poly.getD n [])).getD k 0
  | 0 => by
    refine ⟨by simp, fun j hj => ?_⟩
    simp [List.getD_eq_getElem?_getD, hj]
  | m + 1 => by
    obtain ⟨h1, h2⟩ := accumulate_fold poly bpoly len m
    rw [List.range_succ, List.foldl_append]
    simp only [List.foldl_cons, List.foldl_nil]
    refine ⟨by simp, fun j hj => ?_⟩
    rw [getD_map_range, if_pos hj, h2 j hj, Finset.sum_range_succ]

/-- A sum over `n * D` indices by blocks of `D`. -/
theorem sum_blocks (f : ℕ → K) (D : ℕ) : ∀ n : ℕ, ∑ s ∈ Finset.range (n * D), f s =
    ∑ r ∈ Finset.range n, ∑ i ∈ Finset.range D, f (r * D + i)
  | 0 => by simp
  | n + 1 => by
    rw [Finset.sum_range_succ, ← sum_blocks f D n, Nat.succ_mul, Finset.sum_range_add]

/-- Convolution of zero-padded sequences. -/
theorem convAt_padded (b x : List K) (n : ℕ) (x' : List K) (P : ℕ)
    (hx' : ∀ i, x'.getD i 0 = if P ≤ i then x.getD (i - P) 0 else 0) (k : ℕ) :
    ∑ s ∈ Finset.range (padded b n).length,
      (if s ≤ k then (padded b n).getD s 0 * x'.getD (k - s) 0 else 0) =
      convAt b x ((k : ℤ) - P - gap b.length n) := by
  rw [padded_length, Nat.add_comm, Finset.sum_range_add]
  rw [Finset.sum_eq_zero, zero_add]
  · unfold convAt
    refine Finset.sum_congr rfl fun m hm => ?_
    have h0 : (padded b n).getD (gap b.length n + m) 0 = b.getD m 0 := by
      rw [padded_getD, if_pos (by omega)]
      congr 1
      omega
    rw [h0]
    by_cases h : (m : ℤ) ≤ (k : ℤ) - P - gap b.length n
    · rw [if_pos h, if_pos (by omega), hx', if_pos (by omega)]
      congr 2
      omega
    · rw [if_neg h]
      split_ifs with h1
      · rw [hx', if_neg (by omega), mul_zero]
      · rfl
  · intro s hs
    have hs' := Finset.mem_range.mp hs
    have h0 : (padded b n).getD s 0 = 0 := by
      rw [padded_getD, if_neg (by omega)]
    rw [h0, zero_mul]
    simp

theorem pySlice_neg (l : List K) (a c : ℕ) (hc : 0 < c) :
    (pySlice l a (-(c : ℤ))).length = l.length - c - a ∧
    ∀ k, k < l.length - c - a → (pySlice l a (-(c : ℤ))).getD k 0 = l.getD (a + k) 0 := by
  have h1 : ¬ ((a : ℤ) < 0) := by omega
  have h2 : (-(c : ℤ)) < 0 := by omega
  have h3 : (-(c : ℤ) + (l.length : ℤ)).toNat = l.length - c := by omega
  simp only [pySlice, h1, h2, if_true, if_false, Int.toNat_natCast, h3]
  refine ⟨by rw [List.length_take, List.length_drop]; omega, fun k hk => ?_⟩
  rw [getD_take _ _ _ (by omega), getD_drop]
  congr 1
  omega

end Verif.Polyphase

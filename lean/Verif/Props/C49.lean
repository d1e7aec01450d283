import Verif.Model.Helpers
import Verif.Lemmas.LFilter
import Mathlib.Algebra.Order.Field.Rat

/-!
# C49: the convolution matrix
-/

set_option linter.unusedSectionVars false

namespace Verif.Helpers

open LFilter (getD_map_range)

variable {K : Type} [Field K] [LinearOrder K]

/-- The convolution sum at index `i`, sequences continued with zeros. -/
def convAt (h x : List K) (i : ℕ) : K :=
  ∑ j ∈ Finset.range (i + 1), h.getD (i - j) 0 * x.getD j 0

/-- The matrix has `len(h) + n - 1` rows and `n` columns, and its product with every vector of
length `n` is the full convolution. -/
theorem C49_convolution (h x : List K) (hh : h ≠ []) (hx : x ≠ []) :
    ∃ A, toeplitz h x.length = .ok A ∧ A.rows = h.length + x.length - 1 ∧ A.cols = x.length ∧
      ∀ i < A.rows, matVec A x i = convAt h x i := by
  have hn : x.length ≠ 0 := by simpa using hx
  have hh' : h.length ≠ 0 := by simpa using hh
  refine ⟨_, by unfold toeplitz; rw [if_neg hn, if_neg hh], ?_, by simp, ?_⟩
  · simp
    omega
  · intro i hi
    have hcols : ((List.replicate x.length (0 : K)).set 0 (h.getD 0 0)).length = x.length := by simp
    have hrow : ∀ k, k ≠ 0 → ((List.replicate x.length (0 : K)).set 0 (h.getD 0 0)).getD k 0 = 0 := by
      intro k hk
      simp only [List.getD_eq_getElem?_getD]
      rw [List.getElem?_set_ne (by omega)]
      cases hopt : (List.replicate x.length (0 : K))[k]? with
      | none => rfl
      | some a =>
        have := List.getElem?_eq_some_iff.mp hopt
        obtain ⟨hlt, ha⟩ := this
        rw [List.getElem_replicate] at ha
        exact ha.symm
    have hcol : ∀ k, (h ++ List.replicate (x.length - 1) 0).getD k 0 = h.getD k 0 := by
      intro k
      rcases Nat.lt_or_ge k h.length with hk | hk
      · rw [List.getD_append _ _ _ _ hk]
      · rw [List.getD_append_right _ _ _ _ hk]
        simp only [List.getD_eq_getElem?_getD]
        rw [List.getElem?_eq_none hk]
        cases hopt : (List.replicate (x.length - 1) (0 : K))[k - h.length]? with
        | none => rfl
        | some a =>
          obtain ⟨hlt, ha⟩ := List.getElem?_eq_some_iff.mp hopt
          rw [List.getElem_replicate] at ha
          exact ha.symm
    unfold matVec convAt
    simp only [hcols]
    have hterm : ∀ j, (if j ≤ i then (h ++ List.replicate (x.length - 1) 0).getD (i - j) 0
        else ((List.replicate x.length (0 : K)).set 0 (h.getD 0 0)).getD (j - i) 0) * x.getD j 0 =
        if j < i + 1 then h.getD (i - j) 0 * x.getD j 0 else 0 := by
      intro j
      by_cases hj : j ≤ i
      · rw [if_pos hj, if_pos (by omega), hcol]
      · rw [if_neg hj, if_neg (by omega), hrow _ (by omega), zero_mul]
    simp only [hterm]
    have hx0 : ∀ j, x.length ≤ j → x.getD j 0 = 0 := by
      intro j hj
      rw [List.getD_eq_getElem?_getD, List.getElem?_eq_none hj]
      rfl
    -- both sums extended to all indices below `i + 1 + n`
    have e1 : ∑ j ∈ Finset.range x.length, (if j < i + 1 then h.getD (i - j) 0 * x.getD j 0 else 0)
        = ∑ j ∈ Finset.range (i + 1 + x.length),
          (if j < i + 1 then h.getD (i - j) 0 * x.getD j 0 else 0) := by
      refine Finset.sum_subset (Finset.range_mono (by omega)) fun j _ hj => ?_
      rw [hx0 j (by simpa using hj), mul_zero, ite_self]
    have e2 : ∑ j ∈ Finset.range (i + 1), h.getD (i - j) 0 * x.getD j 0
        = ∑ j ∈ Finset.range (i + 1 + x.length),
          (if j < i + 1 then h.getD (i - j) 0 * x.getD j 0 else 0) := by
      rw [← Finset.sum_subset (Finset.range_mono (show i + 1 ≤ i + 1 + x.length by omega))]
      · refine Finset.sum_congr rfl fun j hj => ?_
        rw [if_pos (Finset.mem_range.mp hj)]
      · intro j _ hj
        rw [if_neg (by simpa using hj)]
    rw [e1, e2]

/-- An input length of 0 and an empty response raise. -/
theorem C49_raises (h : List K) (n : ℕ) :
    toeplitz h 0 = .error .valueError ∧ (n ≠ 0 → toeplitz ([] : List K) n = .error .indexError) := by
  refine ⟨if_pos rfl, fun hn => ?_⟩
  unfold toeplitz
  rw [if_neg hn, if_pos rfl]

/-- Concrete case: convolution of `[1, 2]` with `[3, 4, 5]`. -/
example : ∃ A, toeplitz ([1, 2] : List ℚ) 3 = .ok A ∧
    (List.range A.rows).map (matVec A [3, 4, 5]) = [3, 10, 13, 10] := by
  refine ⟨_, rfl, ?_⟩
  decide +kernel

end Verif.Helpers

import Verif.Lemmas.LFilter
import Mathlib.Algebra.Field.Rat
import Mathlib.Tactic.NormNum

/-!
# C11: FIR block filtering with carried state
-/

namespace Verif.LFilter

variable {K : Type} [Field K]

/-- **C11**: for all taps (at least two), all initial states of the right length and all
ways of cutting a nonempty signal into nonempty blocks (of any size, also shorter than
the filter), filtering block by block with carried state gives the output and final
state of filtering the signal at once. -/
theorem C11_any_cut_partial (b zi : List K) (hb : 2 ≤ b.length) (hz : zi.length = b.length - 1)
    (blocks : List (List K)) (hne : blocks ≠ []) (hblocks : ∀ x ∈ blocks, x ≠ []) :
    runBlocks b zi blocks = lfilterFir b blocks.flatten zi := by
  have hb' : b ≠ [] := by rintro rfl; simp at hb
  have key : ∀ (blocks : List (List K)) (x zi : List K), zi.length = b.length - 1 →
      (∀ x ∈ blocks, x ≠ []) → x ≠ [] →
      runBlocks b zi (x :: blocks) = .ok ((firFilter b []).run zi (x ++ blocks.flatten)) := by
    intro blocks
    induction blocks with
    | nil =>
      intro x zi hz _ hx
      simp only [runBlocks, lfilterFir_run b [] x zi hx (by omega)]
      simp [bind, Except.bind, pure, Except.pure]
    | cons y ys ih =>
      intro x zi hz hbl hx
      have hc := fir_cut b [] hb' zi x (y :: ys).flatten hz
      rw [hc.1, runBlocks, lfilterFir_run b [] x zi hx (by omega)]
      simp only [bind, Except.bind]
      rw [ih y _ hc.2 (fun x hx => hbl x (by simp [hx])) (hbl y (by simp))]
      rfl
  obtain ⟨x, xs, rfl⟩ := List.exists_cons_of_ne_nil hne
  have hx : x ≠ [] := hblocks x (by simp)
  rw [key xs x zi hz (fun y hy => hblocks y (by simp [hy])) hx,
    lfilterFir_run b [] _ zi (by simp [hx]) (by omega)]
  rfl

/-- **C11**, meaning of the output: from the zero state, sample `k` of the output is the
convolution sum over the samples up to `k`; it equals filtering without state. -/
theorem C11_from_rest_partial (b x : List K) (hb : 2 ≤ b.length) (hx : x ≠ []) :
    ∃ y zf, lfilterFir b x (List.replicate (b.length - 1) 0) = .ok (y, zf) ∧
      lfilterFirNoState b x = .ok y ∧ y.length = x.length ∧
      ∀ k < x.length, y.getD k 0 = tapSum b (x.take (k + 1)).reverse := by
  have hz : (List.replicate (b.length - 1) (0 : K)).length ≤ (fullConv b x).length := by
    rw [length_fullConv, List.length_replicate]; omega
  have hadd : addHead (fullConv b x) (List.replicate (b.length - 1) 0) = fullConv b x := by
    apply ext_getD
    · simp [addHead]
    · intro k _
      rw [addHead_getD _ _ hz]
      simp [List.getD_eq_getElem?_getD, List.getElem?_replicate]
      split <;> simp
  refine ⟨(fullConv b x).take x.length,
    (fullConv b x).drop ((fullConv b x).length - (b.length - 1)), ?_, ?_, ?_, fun k hk => ?_⟩
  · simp only [lfilterFir, hx, if_false, hadd, List.length_replicate]
    rw [if_neg (by omega)]
  · simp [lfilterFirNoState, hx]
  · rw [List.length_take, length_fullConv]; omega
  · rw [getD_take _ _ _ hk, fullConv_getD]
    unfold tapSum
    refine Finset.sum_congr rfl fun m _ => ?_
    have hl : (x.take (k + 1)).length = k + 1 := by simp; omega
    split
    · rw [List.getD_eq_getElem (x.take (k + 1)).reverse _ (by simp; omega),
        List.getElem_reverse, List.getElem_take, List.getD_eq_getElem x _ (by omega)]
      congr 2
      rw [hl]
      omega
    · rw [List.getD_eq_default (x.take (k + 1)).reverse _ (by simp; omega), mul_zero]

/-- **C11**, single tap: with an empty state the returned "final state" is the whole
output instead of the empty state (`y[-0:]`), for every input. -/
theorem C11_single_tap_state_false (g x : K) (xs : List K) :
    lfilterFir [g] (x :: xs) [] = .ok ((x :: xs).map (g * ·), (x :: xs).map (g * ·)) := by
  have : addHead (fullConv [g] (x :: xs)) [] = (x :: xs).map (g * ·) := by
    apply ext_getD
    · simp [addHead, fullConv]
    · intro k hk
      rw [addHead_getD _ _ (by simp), fullConv_getD]
      have hk' : k < (x :: xs).length := by simpa [addHead, fullConv] using hk
      rw [List.getD_eq_getElem ((x :: xs).map (g * ·)) _ (by simp; simpa using hk'), List.getElem_map]
      simp only [List.length_singleton, Finset.sum_range_one]
      rw [if_pos (Nat.zero_le k), Nat.sub_zero, List.getD_eq_getElem (x :: xs) _ hk']
      simp
  simp only [lfilterFir, this]
  simp

/-- Three taps, a nonzero state, three blocks of which two are shorter than the filter. -/
example : runBlocks ([1, 2, 3] : List ℚ) [5, 7] [[1], [2, 0, 1, 4], [1]]
    = lfilterFir [1, 2, 3] [1, 2, 0, 1, 4, 1] [5, 7] :=
  C11_any_cut_partial _ _ (by simp) (by simp) _ (by simp) (by simp)

end Verif.LFilter

import Verif.Model.ReverbTail
import Verif.Lemmas.SignalData

/-!
# Lemmas on the reverberant tail: first samples, slices, medians
-/

namespace Verif.ReverbTail

open Verif.Room Verif.SignalData

/-- `d` is the position of the first sample that is not 0. -/
def FirstNonzero (x : List ℝ) (d : ℕ) : Prop := x.getD d 0 ≠ 0 ∧ ∀ i < d, x.getD i 0 = 0

theorem nonzero_lt {x : List ℝ} {i : ℕ} (h : x.getD i 0 ≠ 0) : i < x.length := by
  by_contra hn
  exact h (List.getD_eq_default _ _ (by omega))

theorem direct_cases (x : List ℝ) :
    ((∃ d, direct x = .ok d ∧ FirstNonzero x d ∧ ∃ j, j ≠ d ∧ x.getD j 0 ≠ 0)) ∨
    (direct x = .error .indexError ∧ ∀ i j, x.getD i 0 ≠ 0 → x.getD j 0 ≠ 0 → i = j) := by
  unfold direct
  dsimp only
  have hm : ∀ i, i ∈ (List.range x.length).filter (fun i => decide (x.getD i 0 ≠ 0)) ↔
      x.getD i 0 ≠ 0 := by
    intro i
    simp only [List.mem_filter, List.mem_range, decide_eq_true_eq]
    exact ⟨fun h => h.2, fun h => ⟨nonzero_lt h, h⟩⟩
  have hp : ((List.range x.length).filter (fun i => decide (x.getD i 0 ≠ 0))).Pairwise (· < ·) :=
    List.pairwise_lt_range.filter _
  revert hm hp
  generalize (List.range x.length).filter (fun i => decide (x.getD i 0 ≠ 0)) = idx
  intro hm hp
  match idx with
  | [] =>
    right
    refine ⟨by simp, fun i j hi _ => ?_⟩
    have := (hm i).mpr hi
    simp at this
  | [a] =>
    right
    refine ⟨by simp, fun i j hi hj => ?_⟩
    have h1 := (hm i).mpr hi
    have h2 := (hm j).mpr hj
    simp only [List.mem_singleton] at h1 h2
    rw [h1, h2]
  | a :: b :: l =>
    left
    refine ⟨a, by simp, ⟨(hm a).mp (by simp), ?_⟩, b, ?_, (hm b).mp (by simp)⟩
    · intro i hi
      by_contra hn
      have h1 := (hm i).mpr hn
      rcases List.mem_cons.mp h1 with h | h
      · omega
      · have := (List.pairwise_cons.mp hp).1 i h
        omega
    · have := (List.pairwise_cons.mp hp).1 b (by simp)
      omega

theorem first_unique {x : List ℝ} {d e : ℕ} (h : FirstNonzero x d) (h' : FirstNonzero x e) :
    d = e := by
  rcases Nat.lt_trichotomy d e with c | c | c
  · exact absurd (h'.2 d c) h.1
  · exact c
  · exact absurd (h.2 e c) h'.1

theorem mem_take_drop (x : List ℝ) (a b : ℕ) (v : ℝ) :
    v ∈ (x.take b).drop a ↔ ∃ j, a ≤ j ∧ j < b ∧ j < x.length ∧ x.getD j 0 = v := by
  rw [List.mem_iff_getElem]
  constructor
  · rintro ⟨i, hi, rfl⟩
    rw [List.length_drop, List.length_take] at hi
    refine ⟨a + i, by omega, by omega, by omega, ?_⟩
    rw [List.getElem_drop, List.getElem_take, List.getD_eq_getElem _ _ (by omega)]
  · rintro ⟨j, h1, h2, h3, rfl⟩
    refine ⟨j - a, by rw [List.length_drop, List.length_take]; omega, ?_⟩
    rw [List.getElem_drop, List.getElem_take, List.getD_eq_getElem _ _ h3]
    congr 1
    omega

/-- The window around the start of the tail, for a tail of more than 50 samples. -/
theorem slice_long (x : List ℝ) (n : ℕ) (h : 50 < n) (hn : n ≤ x.length) :
    slice x (-(n : ℤ) - 50) (-(n : ℤ) + 50) =
      (x.take (x.length - n + 50)).drop (x.length - n - 50) := by
  unfold slice
  dsimp only
  rw [if_pos (by omega), if_pos (by omega)]
  congr 1
  · omega
  · congr 1
    omega

/-- Tails of at most 50 samples in long responses: the window is empty. -/
theorem slice_short (x : List ℝ) (n : ℕ) (h : n ≤ 50) (hl : 100 ≤ x.length) :
    slice x (-(n : ℤ) - 50) (-(n : ℤ) + 50) = [] := by
  unfold slice
  dsimp only
  rw [if_pos (show -(n : ℤ) - 50 < 0 by omega), if_neg (show ¬ -(n : ℤ) + 50 < 0 by omega)]
  apply List.drop_eq_nil_of_le
  rw [List.length_take]
  omega

theorem gain_short (x : List ℝ) (n : ℕ) (h : n ≤ 50) (hl : 100 ≤ x.length) : gain x n = none := by
  unfold gain
  dsimp only
  rw [slice_short x n h hl]
  simp

theorem gain_none_iff (x : List ℝ) (n : ℕ) (h : 50 < n) (hn : n ≤ x.length) :
    gain x n = none ↔ ∀ j, x.length - n - 50 ≤ j → j < x.length - n + 50 → x.getD j 0 = 0 := by
  unfold gain
  dsimp only
  rw [slice_long x n h hn]
  constructor
  · intro hg j h1 h2
    split_ifs at hg with hw
    by_contra hne
    have : x.getD j 0 ∈ ((x.take (x.length - n + 50)).drop (x.length - n - 50)).filter
        (fun v => decide (v ≠ 0)) := by
      rw [List.mem_filter]
      exact ⟨(mem_take_drop _ _ _ _).mpr ⟨j, h1, h2, nonzero_lt hne, rfl⟩, by simpa using hne⟩
    rw [hw] at this
    simp at this
  · intro hz
    rw [if_pos]
    rw [List.filter_eq_nil_iff]
    intro v hv
    obtain ⟨j, h1, h2, -, rfl⟩ := (mem_take_drop _ _ _ _).mp hv
    simpa using hz j h1 h2

/-! ### The median -/

theorem count_lt_sorted (t : List ℝ) (ht : t.Pairwise (· ≤ ·)) (m : ℝ) (k : ℕ) (hk : k < t.length)
    (h : m ≤ t.getD k 0) : t.countP (fun v => decide (v < m)) ≤ k := by
  conv_lhs => rw [← List.take_append_drop k t]
  rw [List.countP_append]
  have e : (t.drop k).countP (fun v => decide (v < m)) = 0 := by
    rw [List.countP_eq_zero]
    intro v hv
    obtain ⟨i, hi, rfl⟩ := List.mem_iff_getElem.mp hv
    rw [List.length_drop] at hi
    rw [List.getElem_drop]
    rw [List.getD_eq_getElem _ _ hk] at h
    have : t[k] ≤ t[k + i] := by
      rcases Nat.eq_zero_or_pos i with rfl | h0
      · exact le_rfl
      · exact List.pairwise_iff_getElem.mp ht k (k + i) hk (by omega) (by omega)
    simp only [decide_eq_true_eq, not_lt]
    exact h.trans this
  rw [e, Nat.add_zero]
  exact List.countP_le_length.trans (by rw [List.length_take]; omega)

theorem count_gt_sorted (t : List ℝ) (ht : t.Pairwise (· ≤ ·)) (m : ℝ) (k : ℕ) (hk : k < t.length)
    (h : t.getD k 0 ≤ m) : t.countP (fun v => decide (m < v)) ≤ t.length - (k + 1) := by
  conv_lhs => rw [← List.take_append_drop (k + 1) t]
  rw [List.countP_append]
  have e : (t.take (k + 1)).countP (fun v => decide (m < v)) = 0 := by
    rw [List.countP_eq_zero]
    intro v hv
    obtain ⟨i, hi, rfl⟩ := List.mem_iff_getElem.mp hv
    rw [List.length_take] at hi
    rw [List.getElem_take]
    rw [List.getD_eq_getElem _ _ hk] at h
    have : t[i] ≤ t[k] := by
      rcases Nat.lt_or_ge i k with h0 | h0
      · exact List.pairwise_iff_getElem.mp ht i k (by omega) hk h0
      · have : i = k := by omega
        subst this
        exact le_rfl
    simp only [decide_eq_true_eq, not_lt]
    exact this.trans h
  rw [e, Nat.zero_add]
  exact List.countP_le_length.trans (by rw [List.length_drop])

/-- At most half of the values lie below the median, and at most half above. -/
theorem median_counts (l : List ℝ) (hl : l ≠ []) :
    2 * l.countP (fun v => decide (v < CSM.median l)) ≤ l.length ∧
    2 * l.countP (fun v => decide (CSM.median l < v)) ≤ l.length := by
  have hp := List.perm_insertionSort (· ≤ ·) l
  have hs : (l.insertionSort (· ≤ ·)).Pairwise (· ≤ ·) := List.pairwise_insertionSort _ l
  have hlen := hp.length_eq
  have h0 := List.length_pos_of_ne_nil hl
  rw [← hp.countP_eq, ← hp.countP_eq]
  unfold CSM.median
  dsimp only
  revert hs hlen
  generalize l.insertionSort (· ≤ ·) = t
  intro hs hlen
  split_ifs with ho
  · have a := count_lt_sorted t hs (t.getD (l.length / 2) 0) (l.length / 2) (by omega) le_rfl
    have b := count_gt_sorted t hs (t.getD (l.length / 2) 0) (l.length / 2) (by omega) le_rfl
    omega
  · have hle : t.getD (l.length / 2 - 1) 0 ≤ t.getD (l.length / 2) 0 := by
      rw [List.getD_eq_getElem _ _ (by omega), List.getD_eq_getElem _ _ (by omega)]
      exact List.pairwise_iff_getElem.mp hs _ _ (by omega) (by omega) (by omega)
    have a := count_lt_sorted t hs ((t.getD (l.length / 2 - 1) 0 + t.getD (l.length / 2) 0) / 2)
      (l.length / 2) (by omega) (by linarith)
    have b := count_gt_sorted t hs ((t.getD (l.length / 2 - 1) 0 + t.getD (l.length / 2) 0) / 2)
      (l.length / 2 - 1) (by omega) (by linarith)
    omega

theorem median_between (l : List ℝ) (hl : l ≠ []) :
    (∃ v ∈ l, v ≤ CSM.median l) ∧ ∃ v ∈ l, CSM.median l ≤ v := by
  have h0 := List.length_pos_of_ne_nil hl
  obtain ⟨h1, h2⟩ := median_counts l hl
  constructor
  · by_contra hn
    push Not at hn
    have : l.countP (fun v => decide (CSM.median l < v)) = l.length := by
      rw [List.countP_eq_length]
      intro v hv
      simpa using hn v hv
    omega
  · by_contra hn
    push Not at hn
    have : l.countP (fun v => decide (v < CSM.median l)) = l.length := by
      rw [List.countP_eq_length]
      intro v hv
      simpa using hn v hv
    omega

/-! ### The largest value of the noise -/

theorem peak_le (n : ℕ) (v : ℕ → ℝ) (k : ℕ) (hk : k < n) : v k ≤ peak n v := by
  unfold peak
  have : ∀ l : List ℝ, ∀ a ∈ l, a ≤ l.foldr max 0 := by
    intro l
    induction l with
    | nil => simp
    | cons b l ih =>
      intro a ha
      rcases List.mem_cons.mp ha with rfl | ha
      · exact le_max_left _ _
      · exact (ih a ha).trans (le_max_right _ _)
  exact this _ _ (List.mem_map.mpr ⟨k, List.mem_range.mpr hk, rfl⟩)

theorem peak_mem (n : ℕ) (v : ℕ → ℝ) (hn : 0 < n) (hv : ∀ k, 0 ≤ v k) :
    ∃ k < n, peak n v = v k := by
  unfold peak
  have : ∀ l : List ℝ, (∀ a ∈ l, 0 ≤ a) → l ≠ [] → l.foldr max 0 ∈ l := by
    intro l
    induction l with
    | nil => simp
    | cons b l ih =>
      intro h _
      rw [List.foldr_cons]
      by_cases hl : l = []
      · subst hl
        simp only [List.foldr_nil, List.mem_singleton]
        exact max_eq_left (h b (by simp))
      · rcases max_choice b (l.foldr max 0) with e | e
        · rw [e]; simp
        · rw [e]
          exact List.mem_cons_of_mem _ (ih (fun a ha => h a (List.mem_cons_of_mem _ ha)) hl)
  have := this ((List.range n).map v) (by
    intro a ha
    obtain ⟨k, -, rfl⟩ := List.mem_map.mp ha
    exact hv k) (by
    intro h
    rw [List.map_eq_nil_iff, List.range_eq_nil] at h
    omega)
  obtain ⟨k, hk, e⟩ := List.mem_map.mp this
  exact ⟨k, List.mem_range.mp hk, e.symm⟩

theorem decaying_nonneg (g : ℕ → ℝ) (t60 sr : ℝ) (k : ℕ) : 0 ≤ decaying g t60 sr k := by
  unfold decaying
  positivity

theorem peak_ne_zero (n : ℕ) (g : ℕ → ℝ) (t60 sr : ℝ) (h : ∃ k < n, g k ≠ 0) :
    0 < peak n (decaying g t60 sr) := by
  obtain ⟨k, hk, hg⟩ := h
  refine lt_of_lt_of_le ?_ (peak_le n _ k hk)
  unfold decaying
  have := abs_pos.mpr hg
  positivity

end Verif.ReverbTail

import Verif.Model.TukeyWindow
import Mathlib.Data.List.GetD
import Mathlib.Tactic.Linarith
import Mathlib.Tactic.FieldSimp
import Mathlib.Tactic.Positivity

/-! Lemmas about windows with two flanks. -/

namespace Verif.Tukey

theorem lowFlank_length (w : WindowType) (b : Bool) (l : ℕ) : (lowFlank w b l).length = l := by
  unfold lowFlank
  split <;> simp

theorem highFlank_length (w : WindowType) (l : ℕ) : (highFlank w l).length = l := by
  unfold highFlank
  split <;> simp

/-- The window before it is inverted, sample by sample. -/
noncomputable def at' (a b c d : ℕ) (wl wr : WindowType) (atStart : Bool) (k : ℕ) : ℝ :=
  if k < a then 0
  else if k < b then (if atStart then wl ((b - a) * 2) (k - a) else 1)
  else if k < c then 1
  else if k < d then (if 1 < d - c then wr ((d - c) * 2) (d - c + (k - c)) else 1)
  else 0

theorem getD_replicate {K : Type} (n k : ℕ) (x z : K) (h : k < n) :
    (List.replicate n x).getD k z = x := by
  rw [List.getD_eq_getElem _ _ (by simpa using h)]
  simp

theorem getD_range_map {K : Type} (n k : ℕ) (f : ℕ → K) (z : K) (h : k < n) :
    ((List.range n).map f).getD k z = f k := by
  rw [List.getD_eq_getElem _ _ (by simpa using h)]
  simp

theorem lowFlank_getD (w : WindowType) (b : Bool) (l k : ℕ) (h : k < l) :
    (lowFlank w b l).getD k 0 = if b then w (l * 2) k else 1 := by
  unfold lowFlank
  cases b
  · simp only [Bool.false_eq_true, false_and, if_false]
    exact getD_replicate _ _ _ _ h
  · rw [if_pos ⟨rfl, by omega⟩, getD_range_map _ _ _ _ h]
    simp

theorem highFlank_getD (w : WindowType) (l k : ℕ) (h : k < l) :
    (highFlank w l).getD k 0 = if 1 < l then w (l * 2) (l + k) else 1 := by
  unfold highFlank
  split
  · exact getD_range_map _ _ _ _ h
  · exact getD_replicate _ _ _ _ h

theorem window_ok (a b c d n : ℕ) (h : a ≤ b ∧ b ≤ c ∧ c ≤ d ∧ d ≤ n) (wl wr : WindowType)
    (atStart inverse : Bool) :
    ∃ w, window [a, b, c, d] n wl wr atStart inverse = .ok w ∧ w.length = n ∧
      ∀ k < n, w.getD k 0 = if inverse then 1 - at' a b c d wl wr atStart k
        else at' a b c d wl wr atStart k := by
  obtain ⟨h1, h2, h3, h4⟩ := h
  have hlen : (List.replicate a 0 ++ lowFlank wl atStart (b - a) ++ List.replicate (c - b) 1 ++
      highFlank wr (d - c) ++ List.replicate (n - d) (0 : ℝ)).length = n := by
    simp only [List.length_append, List.length_replicate, lowFlank_length, highFlank_length]
    omega
  have hval : ∀ k < n, (List.replicate a 0 ++ lowFlank wl atStart (b - a) ++
      List.replicate (c - b) 1 ++ highFlank wr (d - c) ++ List.replicate (n - d) (0 : ℝ)).getD k 0 =
      at' a b c d wl wr atStart k := by
    intro k hk
    unfold at'
    by_cases ha : k < a
    · rw [if_pos ha, List.append_assoc, List.append_assoc, List.append_assoc,
        List.getD_append _ _ _ _ (by simpa using ha)]
      exact getD_replicate _ _ _ _ ha
    rw [if_neg ha, List.append_assoc, List.append_assoc, List.append_assoc,
      List.getD_append_right _ _ _ _ (by simpa using ha), List.length_replicate]
    by_cases hb : k < b
    · rw [if_pos hb, List.getD_append _ _ _ _ (by rw [lowFlank_length]; omega),
        lowFlank_getD _ _ _ _ (by omega)]
    rw [if_neg hb, List.getD_append_right _ _ _ _ (by rw [lowFlank_length]; omega),
      lowFlank_length]
    by_cases hc : k < c
    · rw [if_pos hc, List.getD_append _ _ _ _ (by simp; omega)]
      exact getD_replicate _ _ _ _ (by omega)
    rw [if_neg hc, List.getD_append_right _ _ _ _ (by simp; omega), List.length_replicate]
    by_cases hd : k < d
    · rw [if_pos hd, List.getD_append _ _ _ _ (by rw [highFlank_length]; omega),
        highFlank_getD _ _ _ (by omega)]
      congr 2
      omega
    rw [if_neg hd, List.getD_append_right _ _ _ _ (by rw [highFlank_length]; omega),
      highFlank_length]
    exact getD_replicate _ _ _ _ (by omega)
  unfold window
  dsimp only
  rw [if_pos ⟨h1, h2, h3, h4⟩]
  refine ⟨_, rfl, ?_, ?_⟩
  · cases inverse
    · exact hlen
    · rw [if_pos rfl, List.length_map]
      exact hlen
  · intro k hk
    cases inverse
    · exact hval k hk
    · rw [if_pos rfl, if_pos rfl, ← hval k hk, List.getD_eq_getElem _ _ (by
        rw [List.length_map, hlen]; exact hk), List.getElem_map, List.getD_eq_getElem _ _ (by
        rw [hlen]; exact hk)]

theorem hann_nonneg (n i : ℕ) : 0 ≤ hann n i := by
  unfold hann
  have := Real.cos_le_one (2 * Real.pi * i / n)
  linarith

theorem hann_le_one (n i : ℕ) : hann n i ≤ 1 := by
  unfold hann
  have := Real.neg_one_le_cos (2 * Real.pi * i / n)
  linarith

/-- The rising half of the Hann window stays below 1. -/
theorem hann_rising (l i : ℕ) (h : i < l) : hann (l * 2) i < 1 := by
  unfold hann
  have hl : (0 : ℝ) < l := by exact_mod_cast (by omega : 0 < l)
  have e1 : 2 * Real.pi * (i : ℝ) / ((l * 2 : ℕ) : ℝ) = Real.pi * (i / l) := by
    push_cast
    field_simp
  have h1 : (i : ℝ) / l < 1 := (div_lt_one hl).2 (by exact_mod_cast h)
  have h2 : Real.pi * (i / l) < Real.pi := by
    have := Real.pi_pos
    nlinarith
  have := Real.cos_lt_cos_of_nonneg_of_le_pi (by positivity) le_rfl h2
  rw [e1]
  rw [Real.cos_pi] at this
  linarith

/-- The falling half of the Hann window is below 1 after its first sample. -/
theorem hann_falling (l i : ℕ) (h : i < l) (h0 : 0 < i) : hann (l * 2) (l + i) < 1 := by
  unfold hann
  have hl : (0 : ℝ) < l := by exact_mod_cast (by omega : 0 < l)
  have e1 : 2 * Real.pi * ((l + i : ℕ) : ℝ) / ((l * 2 : ℕ) : ℝ) = Real.pi * (i / l) + Real.pi := by
    push_cast
    field_simp
    ring
  have h1 : (i : ℝ) / l < 1 := (div_lt_one hl).2 (by exact_mod_cast h)
  have h2 : (0 : ℝ) < Real.pi * (i / l) := by
    have : (0 : ℝ) < i := by exact_mod_cast h0
    have := Real.pi_pos
    positivity
  have h3 : Real.pi * (i / l) ≤ Real.pi := by
    have := Real.pi_pos
    nlinarith
  have := Real.cos_lt_cos_of_nonneg_of_le_pi le_rfl h3 h2
  rw [e1, Real.cos_add_pi]
  rw [Real.cos_zero] at this
  linarith

/-- With Hann flanks the window only reaches 1 from the second to the third point. -/
theorem at'_eq_one (a b c d k : ℕ) (h : at' a b c d hann hann true k = 1) : b ≤ k ∧ k ≤ c := by
  unfold at' at h
  simp only [if_true] at h
  split_ifs at h with h1 h2 h3 h4 h5
  · exact absurd h (by norm_num)
  · exact absurd h (hann_rising _ _ (by omega)).ne
  · omega
  · by_contra hc
    exact absurd h (hann_falling (d - c) (k - c) (by omega) (by omega)).ne
  · omega
  · exact absurd h (by norm_num)

/-- The window lies between 0 and 1 if its flanks do. -/
theorem at'_bounds (a b c d : ℕ) (wl wr : WindowType) (s : Bool)
    (hl : ∀ n i, 0 ≤ wl n i ∧ wl n i ≤ 1) (hr : ∀ n i, 0 ≤ wr n i ∧ wr n i ≤ 1) (k : ℕ) :
    0 ≤ at' a b c d wl wr s k ∧ at' a b c d wl wr s k ≤ 1 := by
  unfold at'
  split_ifs
  any_goals exact ⟨le_rfl, zero_le_one⟩
  any_goals exact ⟨zero_le_one, le_rfl⟩
  · exact hl _ _
  · exact hr _ _

end Verif.Tukey

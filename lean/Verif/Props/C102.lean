import Verif.Lemmas.ExactValue
import Mathlib.Tactic.NormNum

/-!
# C102: the value at one frequency lies on the polygon through the points
-/

set_option linter.unusedSectionVars false

namespace Verif.ExactValue

variable {K : Type} [Field K] [LinearOrder K] [IsStrictOrderedRing K]

/-- Every query within an increasing frequency vector is answered with the polygon. -/
theorem C102_value_partial (f y : List K) (q : K) (hf : Increasing f) (hl : f.length = y.length)
    (h0 : f ≠ []) (h1 : f.getD 0 0 ≤ q) (h2 : q ≤ f.getD (f.length - 1) 0) :
    ∃ v, exactValue f y q = .ok (some v) ∧ OnPolygon f y q v := by
  have hpos : 0 < f.length := List.length_pos_of_ne_nil h0
  unfold exactValue
  rw [if_neg h0, if_neg (not_not.mpr ⟨h1, h2⟩), if_neg (not_not.mpr hl)]
  by_cases he : f.getD (f.length - 1) 0 = q
  · rw [if_pos he]
    refine ⟨_, rfl, ?_⟩
    by_cases h3 : f.length = 1
    · refine ⟨fun i hi => by omega, ?_, Or.inr ⟨f.length - 1, by omega, he⟩⟩
      intro i hi _
      rw [← hl]
      congr 1
      omega
    · obtain ⟨n, hn⟩ : ∃ n, f.length = n + 2 := ⟨f.length - 2, by omega⟩
      rw [hn, show n + 2 - 1 = n + 1 by omega] at he
      refine onPolygon_of_segment hf (i := n) (by omega) ?_ he.ge ?_
      · rw [← he]
        exact (hf n (n + 1) (by omega) (by omega)).le
      · rw [← hl, hn, show n + 2 - 1 = n + 1 by omega, he]
        ring
  · rw [if_neg he]
    have hlt : q < f.getD (f.length - 1) 0 := lt_of_le_of_ne h2 (Ne.symm he)
    have hs : searchsorted f q < f.length := by
      rcases Nat.lt_or_ge (searchsorted f q) f.length with h | h
      · exact h
      · exact absurd (getD_takeWhile_lt f q (f.length - 1) (by omega)) (not_lt.mpr h2)
    dsimp only
    rw [if_neg (not_not.mpr hs)]
    obtain ⟨i, hi, a, b⟩ : ∃ i, (if q < f.getD (searchsorted f q) 0 then searchsorted f q - 1
        else searchsorted f q) = i ∧ f.getD i 0 ≤ q ∧ (i + 1 < f.length ∧ q ≤ f.getD (i + 1) 0) := by
      refine ⟨_, rfl, ?_⟩
      by_cases h : q < f.getD (searchsorted f q) 0
      · rw [if_pos h]
        have : 0 < searchsorted f q := by
          rcases Nat.eq_zero_or_pos (searchsorted f q) with h3 | h3
          · rw [h3] at h
            exact absurd h (not_lt.mpr h1)
          · exact h3
        refine ⟨(getD_takeWhile_lt f q _ (by omega)).le, by omega, ?_⟩
        rw [Nat.sub_add_cancel this]
        exact h.le
      · rw [if_neg h]
        have e := le_antisymm (not_lt.mp h) (searchsorted_le f q hs)
        have hne : searchsorted f q ≠ f.length - 1 := fun h4 => he (h4 ▸ e)
        refine ⟨e.le, by omega, ?_⟩
        calc q = f.getD (searchsorted f q) 0 := e.symm
          _ ≤ _ := (hf _ _ (by omega) (by omega)).le
    rw [hi, if_neg (not_not.mpr b.1)]
    have hd : f.getD (i + 1) 0 - f.getD i 0 ≠ 0 :=
      (sub_pos.mpr (hf i (i + 1) (by omega) b.1)).ne'
    refine ⟨_, by rw [quotient, if_neg hd]; rfl, ?_⟩
    exact onPolygon_of_segment hf b.1 a b.2 (segment_value hd)

/-- Queries outside the vector and vectors of other lengths are refused. -/
theorem C102_refused (f y : List K) (q : K) (h0 : f ≠ [])
    (h : q < f.getD 0 0 ∨ f.getD (f.length - 1) 0 < q ∨ f.length ≠ y.length) :
    exactValue f y q = .error .assertionError := by
  unfold exactValue
  rw [if_neg h0]
  by_cases h1 : f.getD 0 0 ≤ q ∧ q ≤ f.getD (f.length - 1) 0
  · rw [if_neg (not_not.mpr h1), if_pos]
    rcases h with h | h | h
    · exact absurd h1.1 (not_le.mpr h)
    · exact absurd h1.2 (not_le.mpr h)
    · exact h
  · rw [if_pos h1]

/-- A frequency that occurs twice (still ascending order) is answered with nan. -/
theorem C102_repeated_frequency_is_nan :
    exactValue ([500, 1000, 1000, 2000] : List ℚ) [1, 2, 2, 3] 1000 = .ok none := by
  decide +kernel

/-- The gain at 1 kHz lies on the polygon for vectors which go beyond 1 kHz. -/
theorem C102_gain_partial (f y : List K) (hf : Increasing f) (hl : f.length = y.length)
    (h0 : f ≠ []) (h1 : f.getD 0 0 < 1000) (h2 : 1000 < f.getD (f.length - 1) 0) :
    ∃ v, exactGain f y = .ok (some v) ∧ OnPolygon f y 1000 v := by
  have hpos : 0 < f.length := List.length_pos_of_ne_nil h0
  have mem : ∀ i < f.length, f.getD i 0 ∈ f := by
    intro i hi
    rw [List.getD_eq_getElem _ _ hi]
    exact List.getElem_mem hi
  obtain ⟨m, hm, hm1, hm2, -⟩ := Helpers.argmin_spec (f.map fun v => |1000 - v|) (by simpa using h0)
  rw [List.length_map] at hm1 hm2
  have hget : ∀ i < f.length, (f.map fun v => |1000 - v|).getD i 0 = |1000 - f.getD i 0| := by
    intro i hi
    rw [List.getD_eq_getElem _ _ (by simpa using hi), List.getElem_map,
      List.getD_eq_getElem _ _ hi]
  have near : ∀ j < f.length, |1000 - f.getD m 0| ≤ |1000 - f.getD j 0| := by
    intro j hj
    rw [← hget m hm1, ← hget j hj]
    exact hm2 j hj
  unfold exactGain
  rw [if_neg h0, if_neg (not_not.mpr ⟨⟨_, mem 0 hpos, h1⟩, ⟨_, mem (f.length - 1) (by omega), h2.le⟩⟩),
    hm]
  simp only [bind, Except.bind]
  by_cases h : 1000 < f.getD m 0
  · have hm0 : m ≠ 0 := by
      rintro rfl
      exact absurd h (not_lt.mpr h1.le)
    obtain ⟨i, rfl⟩ : ∃ i, m = i + 1 := ⟨m - 1, by omega⟩
    rw [if_pos h, if_pos h, if_neg hm0, show i + 1 - 1 = i by omega,
      if_neg (not_not.mpr ⟨hm1, by omega, by omega⟩)]
    have hd : f.getD (i + 1) 0 - f.getD i 0 ≠ 0 :=
      (sub_pos.mpr (hf i (i + 1) (by omega) hm1)).ne'
    refine ⟨_, by rw [quotient, if_neg hd]; rfl, ?_⟩
    refine onPolygon_of_segment hf hm1 ?_ h.le (segment_value' hd)
    by_contra hc
    rw [not_le] at hc
    have a := near i (by omega)
    have b := hf i (i + 1) (by omega) hm1
    rw [abs_of_neg (by linarith), abs_of_neg (by linarith)] at a
    linarith
  · rw [if_neg h, if_neg h]
    rw [not_lt] at h
    have hne : m ≠ f.length - 1 := by
      rintro rfl
      exact absurd h2 (not_lt.mpr h)
    rw [if_neg (not_not.mpr ⟨by omega, by omega, by omega⟩)]
    have b := hf m (m + 1) (by omega) (by omega)
    have hd : f.getD (m + 1) 0 - f.getD m 0 ≠ 0 := (sub_pos.mpr b).ne'
    refine ⟨_, by rw [quotient, if_neg hd]; rfl, ?_⟩
    refine onPolygon_of_segment hf (by omega) h ?_ (segment_value' hd)
    by_contra hc
    rw [not_le] at hc
    have a := near (m + 1) (by omega)
    rw [abs_of_nonneg (by linarith), abs_of_pos (by linarith)] at a
    linarith

/-- Vectors without 1 kHz between the first and the last entry are refused. -/
theorem C102_gain_refused (f y : List K) (h0 : f ≠ [])
    (h : (∀ v ∈ f, 1000 ≤ v) ∨ ∀ v ∈ f, v < 1000) :
    exactGain f y = .error .assertionError := by
  unfold exactGain
  rw [if_neg h0, if_pos]
  rintro ⟨⟨v, hv, a⟩, w, hw, b⟩
  rcases h with h | h
  · exact absurd (h v hv) (not_le.mpr a)
  · exact absurd (h w hw) (not_lt.mpr b)

/-- A vector which ends at 1 kHz (the spectrum of an even number of samples at 2 kHz) passes the
check, and the query then reads behind the end: it contains 1 kHz, but is never answered. -/
theorem C102_gain_fails_at_the_end (f y : List K) (hf : Increasing f) (h1 : 1 < f.length)
    (h2 : f.getD (f.length - 1) 0 = 1000) :
    exactGain f y = .error .indexError := by
  have h0 : f ≠ [] := by rintro rfl; simp at h1
  have mem : ∀ i < f.length, f.getD i 0 ∈ f := by
    intro i hi
    rw [List.getD_eq_getElem _ _ hi]
    exact List.getElem_mem hi
  obtain ⟨m, hm, hm1, hm2, -⟩ := Helpers.argmin_spec (f.map fun v => |1000 - v|) (by simpa using h0)
  rw [List.length_map] at hm1 hm2
  have hget : ∀ i < f.length, (f.map fun v => |1000 - v|).getD i 0 = |1000 - f.getD i 0| := by
    intro i hi
    rw [List.getD_eq_getElem _ _ (by simpa using hi), List.getElem_map,
      List.getD_eq_getElem _ _ hi]
  have he : m = f.length - 1 := by
    have a := hm2 (f.length - 1) (by omega)
    rw [hget _ hm1, hget _ (by omega), h2, sub_self, abs_zero] at a
    have b : f.getD m 0 = f.getD (f.length - 1) 0 := by
      rw [h2]
      exact (sub_eq_zero.mp (abs_nonpos_iff.mp a)).symm
    have c := incr_le hf (i := f.length - 1) (j := m) (by omega) b.ge
    omega
  unfold exactGain
  have hlow : f.getD 0 0 < 1000 := by
    rw [← h2]
    exact hf 0 (f.length - 1) (by omega) (by omega)
  rw [if_neg h0, if_neg (not_not.mpr ⟨⟨_, mem 0 (by omega), hlow⟩,
    ⟨_, mem (f.length - 1) (by omega), h2.ge⟩⟩), hm]
  simp only [bind, Except.bind]
  rw [he, h2, if_neg (lt_irrefl _), if_neg (lt_irrefl _), if_pos]
  rintro ⟨a, -⟩
  omega

example : exactValue ([500, 1500] : List ℚ) [1, 5] 1000 = .ok (some 3) := by decide +kernel
example : exactGain ([0, 900, 1500] : List ℚ) [0, 1, 7] = .ok (some 2) := by decide +kernel
example : exactGain ([0, 500, 1000] : List ℚ) [0, 1, 7] = .error .indexError := by decide +kernel

end Verif.ExactValue

import Verif.Model.CenteredIR
import Verif.Props.C83Wrong
import Verif.Lemmas.SignalData

/-!
# C84: windows around the peak of impulse responses
-/

namespace Verif.CenteredIR

open WindowIR

/-! ### Specification -/

/-- Value at the distance `d` from the centre of the symmetric window with `2 h + 1` samples; zero
outside. -/
noncomputable def windowAt (sym : ℕ → ℕ → ℝ) (h : ℕ) (d : ℤ) : ℝ :=
  if -(h : ℤ) ≤ d ∧ d ≤ h then sym (h * 2 + 1) (d + h).toNat else 0

/-- The first sample of the result, as a position in the impulse response of `n` samples with its peak
at `p`: the window is moved as little as possible. -/
def firstSample (n p total : ℕ) : ℤ :=
  if p ≤ total / 2 then 0
  else if n - p - 1 < total / 2 then (n : ℤ) - total
  else (p : ℤ) + (total / 2 : ℕ) + 1 - total

/-- Lengths and positions of the peak for which the function is wrong. -/
def Irregular (n p total : ℕ) : Prop :=
  (p + total / 2 = n ∧ n % 2 = 0 ∧ ¬ (p = total / 2 ∧ total = n)) ∨
    (total = 2 * (total / 2) ∧ p = total / 2 ∧ n < total)

/-! ### Lists -/

theorem slice_getD (x : List ℝ) (low up i : ℕ) :
    (slice x low up).getD i 0 = if low + i < up then x.getD (low + i) 0 else 0 := by
  unfold slice
  rw [getD_drop']
  split_ifs with h
  · exact getD_take' _ _ _ h
  · exact List.getD_eq_default _ _ (by simp; omega)

theorem slice_length (x : List ℝ) (low up : ℕ) : (slice x low up).length = min up x.length - low := by
  unfold slice
  simp

theorem window_getD (sym : ℕ → ℕ → ℝ) (n i : ℕ) :
    ((List.range n).map (sym n)).getD i 0 = if i < n then sym n i else 0 := by
  split_ifs with h
  · exact Tukey.getD_range_map _ _ _ _ h
  · exact List.getD_eq_default _ _ (by simpa using h)

theorem padTrim_getD (x : List ℝ) (n i : ℕ) :
    (SignalData.padTrim x n true).getD i 0 = if i < n then x.getD i 0 else 0 := by
  split_ifs with h
  · exact SignalData.padTrim_end _ _ _ h
  · exact List.getD_eq_default _ _ (by rw [SignalData.padTrim_length]; omega)

theorem padded_getD (x : List ℝ) (c : Prop) [Decidable c] (m i : ℕ) :
    (if c then x ++ List.replicate m 0 else x).getD i 0 = x.getD i 0 := by
  split_ifs
  · exact getD_padRight _ _ _
  · rfl

theorem reverse_getD (x : List ℝ) (i : ℕ) :
    x.reverse.getD i 0 = if i < x.length then x.getD (x.length - 1 - i) 0 else 0 := by
  split_ifs with h
  · rw [List.getD_eq_getElem _ _ (by simpa using h), List.getD_eq_getElem _ _ (by omega),
      List.getElem_reverse]
  · exact List.getD_eq_default _ _ (by simpa using h)

/-! ### The window between the flips -/

theorem core_ok (v : List ℝ) (p total : ℕ) (ce : Bool) (sym : ℕ → ℕ → ℝ) (hp : p < v.length)
    (h : (ce = false ∧ (p + total / 2 + 1 ≤ v.length ∨ p + total / 2 + 1 ≤ total)) ∨
      (ce = true ∧ p = total / 2 ∧ total = v.length ∧ p + total / 2 = total)) :
    ∃ td w, core v p total ce sym = .ok (td, w, p - total / 2) ∧ td.length = total ∧ w.length = total ∧
      ∀ i < total, w.getD i 0 = windowAt sym (total / 2) ((p - total / 2 : ℕ) + i - (p : ℤ)) ∧
        td.getD i 0 = v.getD (p - total / 2 + i) 0 * w.getD i 0 := by
  have ht : total / 2 * 2 ≤ total ∧ total ≤ total / 2 * 2 + 1 := by omega
  unfold core
  dsimp only
  generalize hh : total / 2 = half at *
  have e1 : (if p < half then 0 else p - half) = p - half := by split_ifs <;> omega
  have e2 : (if p < half then half - p else 0) = half - p := by split_ifs <;> omega
  rw [e1, e2]
  set V := if (total : ℤ) - ((p - half : ℕ) : ℤ) > v.length then
    v ++ List.replicate (total + (p - half) - v.length) 0 else v with hV
  have hVg : ∀ i, V.getD i 0 = v.getD i 0 := fun i => padded_getD _ _ _ _
  have hVl : v.length ≤ V.length ∧ (total ≤ V.length + (p - half)) ∧
      (p ≤ half → V.length = max v.length total) := by
    rw [hV]
    split_ifs with hc
    · simp only [List.length_append, List.length_replicate]
      refine ⟨?_, ?_, fun _ => ?_⟩ <;> omega
    · refine ⟨?_, ?_, fun _ => ?_⟩ <;> omega
  clear_value V
  have hshort : (decide (p + half + 1 > V.length) && !ce) = false := by
    rcases h with ⟨rfl, h⟩ | ⟨rfl, -⟩
    · have : ¬ (p + half + 1 > V.length) := by
        rcases h with h | h
        · omega
        · have : p ≤ half := by omega
          have := hVl.2.2 this
          omega
      simp [this]
    · simp
  rw [hshort]
  simp only [Bool.false_eq_true, if_false]
  have hlen : (slice V (p - half) (p + half + 1)).length =
      (slice ((List.range (half * 2 + 1)).map (sym (half * 2 + 1))) (half - p)
        (((List.range (half * 2 + 1)).map (sym (half * 2 + 1))).length - if ce = true then 1 else 0)).length ∧
      min (p + half + 1) V.length - (p - half) = half * 2 + 1 - (if ce = true then 1 else 0) - (half - p) := by
    have : min (p + half + 1) V.length - (p - half) =
        half * 2 + 1 - (if ce = true then 1 else 0) - (half - p) := by
      rcases h with ⟨rfl, h⟩ | ⟨rfl, h1, h2, h3⟩
      · have : p + half + 1 ≤ V.length := by
          rcases h with h | h
          · omega
          · have : p ≤ half := by omega
            have := hVl.2.2 this
            omega
        simp only [Bool.false_eq_true, if_false]
        omega
      · have := hVl.2.2 (by omega)
        simp only [if_true]
        omega
    refine ⟨?_, this⟩
    rw [slice_length, slice_length]
    simp only [List.length_map, List.length_range]
    omega
  have hw : ∀ i < total, (slice ((List.range (half * 2 + 1)).map (sym (half * 2 + 1))) (half - p)
        (((List.range (half * 2 + 1)).map (sym (half * 2 + 1))).length - if ce = true then 1 else 0)).getD i 0 =
      windowAt sym half ((p - half : ℕ) + i - (p : ℤ)) := by
    intro i hi
    rw [slice_getD, window_getD, List.length_map, List.length_range]
    unfold windowAt
    have hce : (if ce = true then 1 else 0) = 0 ∨ (half - p = 0 ∧ total = half * 2 ∧
        (if ce = true then 1 else 0) = 1) := by
      rcases h with ⟨rfl, -⟩ | ⟨rfl, h1, h2, h3⟩
      · left; simp
      · right; exact ⟨by omega, by omega, by simp⟩
    by_cases hb : half - p + i < half * 2 + 1 - (if ce = true then 1 else 0)
    · rw [if_pos hb, if_pos (by omega), if_pos (by constructor <;> omega)]
      congr 1
      omega
    · rw [if_neg hb, if_neg (by omega)]
  set W := slice ((List.range (half * 2 + 1)).map (sym (half * 2 + 1))) (half - p)
    (((List.range (half * 2 + 1)).map (sym (half * 2 + 1))).length - if ce = true then 1 else 0)
  clear_value W
  have hb : broadcastMul (slice V (p - half) (p + half + 1)) W =
      .ok (List.zipWith (· * ·) (slice V (p - half) (p + half + 1)) W) := by
    unfold broadcastMul
    rw [if_pos hlen.1]
  rw [hb]
  dsimp only
  have htd : ∀ i < total, (List.zipWith (· * ·) (slice V (p - half) (p + half + 1)) W).getD i 0 =
      v.getD (p - half + i) 0 * W.getD i 0 := by
    intro i hi
    rw [getD_mul, slice_getD, hVg]
    split_ifs with hc
    · rfl
    · rw [hw i hi]
      unfold windowAt
      rw [if_neg (by omega), mul_zero, mul_zero]
  have hzl : (List.zipWith (· * ·) (slice V (p - half) (p + half + 1)) W).length = W.length := by
    simp [hlen.1]
  split_ifs with hlt
  · exact ⟨_, _, rfl, hlt, by omega, fun i hi => ⟨hw i hi, htd i hi⟩⟩
  · refine ⟨_, _, rfl, SignalData.padTrim_length _ _ _, SignalData.padTrim_length _ _ _, fun i hi => ?_⟩
    rw [padTrim_getD, padTrim_getD, if_pos hi, if_pos hi]
    exact ⟨hw i hi, htd i hi⟩

theorem toColumn_same (x : List ℝ) : toColumn x.length x = .ok x := by
  unfold toColumn
  rw [if_pos rfl]

/-- One channel. -/
theorem channel_ok (vec : List ℝ) (p : ℕ) (hp : IsFirstPeak vec p) (total : ℕ)
    (hreg : ¬ Irregular vec.length p total) (sym : ℕ → ℕ → ℝ)
    (hsym : ∀ h i, i ≤ h * 2 → sym (h * 2 + 1) (h * 2 - i) = sym (h * 2 + 1) i) :
    ∃ td w, channel total sym vec = .ok (td, w, if p ≤ total / 2 then 0 else vec.length - p - 1 - total / 2) ∧
      td.length = total ∧ w.length = total ∧
      ∀ j < total, w.getD j 0 = windowAt sym (total / 2) (firstSample vec.length p total + j - p) ∧
        td.getD j 0 = extended vec (firstSample vec.length p total + j) * w.getD j 0 := by
  have hpl := hp.1
  have ht : total / 2 * 2 ≤ total ∧ total ≤ total / 2 * 2 + 1 := by omega
  unfold Irregular at hreg
  have key : ∃ td w, windowThis vec total sym =
      .ok (td, w, if p ≤ total / 2 then 0 else vec.length - p - 1 - total / 2) ∧
      td.length = total ∧ w.length = total ∧
      ∀ j < total, w.getD j 0 = windowAt sym (total / 2) (firstSample vec.length p total + j - p) ∧
        td.getD j 0 = extended vec (firstSample vec.length p total + j) * w.getD j 0 := by
    unfold windowThis
    rw [hp.index]
    dsimp only
    by_cases hf : total / 2 < p
    · rw [if_pos hf]
      have hce : decide (p + total / 2 = vec.length ∧ vec.length % 2 = 0) = false := by
        rw [decide_eq_false_iff_not]
        omega
      obtain ⟨td, w, h1, h2, h3, h4⟩ := core_ok vec.reverse (vec.length - p - 1) total false sym
        (by simp; omega) (Or.inl ⟨rfl, by simp; omega⟩)
      rw [hce, h1]
      dsimp only
      refine ⟨_, _, by rw [if_neg (by omega)], by simpa using h2, by simpa using h3, fun j hj => ?_⟩
      have hS : firstSample vec.length p total = (vec.length : ℤ) - total - (vec.length - p - 1 - total / 2 : ℕ) := by
        unfold firstSample
        rw [if_neg (by omega)]
        split_ifs <;> omega
      obtain ⟨h5, h6⟩ := h4 (total - 1 - j) (by omega)
      rw [reverse_getD, reverse_getD, h2, h3, if_pos hj, if_pos hj, h6, reverse_getD]
      have e : windowAt sym (total / 2) (((vec.length - p - 1 - total / 2 : ℕ) : ℤ) + (total - 1 - j : ℕ) -
          (vec.length - p - 1 : ℕ)) =
          windowAt sym (total / 2) (firstSample vec.length p total + j - p) := by
        rw [hS]
        unfold windowAt
        by_cases hb : -((total / 2 : ℕ) : ℤ) ≤ (((vec.length - p - 1 - total / 2 : ℕ) : ℤ) +
            (total - 1 - j : ℕ) - (vec.length - p - 1 : ℕ)) ∧
            (((vec.length - p - 1 - total / 2 : ℕ) : ℤ) + (total - 1 - j : ℕ) -
            (vec.length - p - 1 : ℕ)) ≤ (total / 2 : ℕ)
        · rw [if_pos hb, if_pos (by omega), ← hsym _ _ (by omega)]
          congr 1
          omega
        · rw [if_neg hb, if_neg (by omega)]
      refine ⟨by rw [h5, e], ?_⟩
      congr 1
      rw [hS]
      by_cases hk : vec.length - p - 1 - total / 2 + (total - 1 - j) < vec.length
      · rw [if_pos hk, ← extended_nat]
        congr 1
        omega
      · rw [if_neg hk, extended_neg _ _ (by omega)]
    · rw [if_neg hf]
      have hS : firstSample vec.length p total = 0 := by
        unfold firstSample
        rw [if_pos (by omega)]
      have hlow : p - total / 2 = 0 := by omega
      obtain ⟨td, w, h1, h2, h3, h4⟩ := core_ok vec p total
        (decide (p + total / 2 = vec.length ∧ vec.length % 2 = 0)) sym hpl (by
          by_cases hce : p + total / 2 = vec.length ∧ vec.length % 2 = 0
          · right
            rw [decide_eq_true_iff]
            exact ⟨hce, by omega, by omega, by omega⟩
          · left
            rw [decide_eq_false_iff_not]
            exact ⟨hce, by omega⟩)
      refine ⟨td, w, by rw [h1, if_pos (by omega), hlow], h2, h3, fun j hj => ?_⟩
      obtain ⟨h5, h6⟩ := h4 j hj
      rw [hlow] at h5 h6
      rw [hS]
      refine ⟨by rw [h5]; simp, ?_⟩
      rw [h6, zero_add, zero_add, extended_nat]
  obtain ⟨td, w, h1, h2, h3, h4⟩ := key
  refine ⟨td, w, ?_, h2, h3, h4⟩
  unfold channel
  rw [h1]
  dsimp only
  have e1 : toColumn total td = .ok td := by rw [← h2]; exact toColumn_same td
  have e2 : toColumn total w = .ok w := by rw [← h3]; exact toColumn_same w
  rw [e1, e2]

/-- **C84**: for every impulse response and length (apart from the irregular ones) and every symmetric
window of two samples or more the result has exactly the given length; the centre of the window lies at the peak and the
window is not moved further than necessary; every sample is the sample of the impulse response
(zero outside) times the window, so that the peak is not changed.  The returned start is right only if
the peak is not in the second half. -/
theorem C84_window_partial (ir : List (List ℝ)) (total : ℕ) (hn : ir.length ≤ total) (h2 : 2 ≤ total) (peak : ℕ → ℕ)
    (hp : ∀ c < ir.length, IsFirstPeak (ir.getD c []) (peak c))
    (hreg : ∀ c < ir.length, ¬ Irregular (ir.getD c []).length (peak c) total) (sym : ℕ → ℕ → ℝ)
    (hsym : ∀ h i, i ≤ h * 2 → sym (h * 2 + 1) (h * 2 - i) = sym (h * 2 + 1) i) :
    ∃ rs, windowCentered ir total sym = .ok rs ∧ rs.length = ir.length ∧ ∀ c < ir.length,
      ∃ td w start, rs.getD c ([], [], 0) = (td, w, start) ∧ td.length = total ∧ w.length = total ∧
        (∀ j < total,
          w.getD j 0 = windowAt sym (total / 2)
            (firstSample (ir.getD c []).length (peak c) total + j - peak c) ∧
          td.getD j 0 = extended (ir.getD c [])
            (firstSample (ir.getD c []).length (peak c) total + j) * w.getD j 0) ∧
        (∃ j < total, (j : ℤ) = peak c - firstSample (ir.getD c []).length (peak c) total ∧
          w.getD j 0 = sym (total / 2 * 2 + 1) (total / 2) ∧
          (sym (total / 2 * 2 + 1) (total / 2) = 1 → td.getD j 0 = (ir.getD c []).getD (peak c) 0)) ∧
        (peak c ≤ total / 2 → (start : ℤ) = firstSample (ir.getD c []).length (peak c) total) := by
  obtain ⟨rs, hrs⟩ := eachChannel_ok (channel total sym) ir (by
    intro x hx
    obtain ⟨c, hc, rfl⟩ := List.getElem_of_mem hx
    have h1 := hp c hc
    have h2 := hreg c hc
    rw [List.getD_eq_getElem _ _ hc] at h1 h2
    obtain ⟨td, w, h, -⟩ := channel_ok _ _ h1 total h2 sym hsym
    exact ⟨_, h⟩)
  obtain ⟨hl, hg⟩ := eachChannel_get _ _ _ hrs
  refine ⟨rs, ?_, hl, fun c hc => ?_⟩
  · unfold windowCentered
    rw [hrs]
    dsimp only
    rw [if_neg (by omega), if_neg (by omega)]
  obtain ⟨td, w, h1, h2, h3, h4⟩ := channel_ok _ _ (hp c hc) total (hreg c hc) sym hsym
  rw [hg c hc] at h1
  have hpl := (hp c hc).1
  have hr := hreg c hc
  unfold Irregular at hr
  have ht : 1 ≤ total := by omega
  refine ⟨td, w, _, Except.ok.inj h1, h2, h3, h4, ?_, fun hle => ?_⟩
  · have hj : 0 ≤ (peak c : ℤ) - firstSample (ir.getD c []).length (peak c) total ∧
        (peak c : ℤ) - firstSample (ir.getD c []).length (peak c) total < total := by
      unfold firstSample
      split_ifs <;> omega
    obtain ⟨j, hj1⟩ := Int.eq_ofNat_of_zero_le hj.1
    have hjt : j < total := by omega
    obtain ⟨h5, h6⟩ := h4 j hjt
    have hw : w.getD j 0 = sym (total / 2 * 2 + 1) (total / 2) := by
      rw [h5, ← hj1]
      unfold windowAt
      rw [if_pos (by omega)]
      congr 1
      omega
    refine ⟨j, hjt, hj1.symm, hw, fun h => ?_⟩
    rw [h6, hw, h, mul_one, ← extended_nat, ← hj1]
    congr 1
    omega
  · rw [if_pos hle]
    unfold firstSample
    rw [if_pos hle]
    rfl

/-- **C84**: the impulse response is not moved if its peak is in the first half, or if it has as many
samples as asked for. -/
theorem C84_position (n p total : ℕ) : (p ≤ total / 2 → firstSample n p total = 0) ∧
    (p < n → total = n → firstSample n p total = 0) := by
  refine ⟨fun h => if_pos h, fun hp e => ?_⟩
  unfold firstSample
  split_ifs <;> omega

end Verif.CenteredIR

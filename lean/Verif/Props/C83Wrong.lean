import Verif.Props.C83

/-!
# C83: where the windows are wrong, and examples
-/

namespace Verif.WindowIR

open Tukey

/-- A unit impulse after `p` zeros, followed by `m` zeros. -/
noncomputable def unit (p m : ℕ) : List ℝ := List.replicate p 0 ++ 1 :: List.replicate m 0

theorem unit_getD (p m i : ℕ) : (unit p m).getD i 0 = if i = p then 1 else 0 := by
  unfold unit
  rw [getD_padLeft]
  by_cases h : i < p
  · rw [extended_neg _ _ (by omega), if_neg (by omega)]
  · have e : (i : ℤ) - p = ((i - p : ℕ) : ℤ) := by omega
    rw [e, extended_nat]
    by_cases h2 : i = p
    · subst h2
      simp
    · obtain ⟨k, hk⟩ : ∃ k, i - p = k + 1 := ⟨i - p - 1, by omega⟩
      rw [if_neg h2, hk, List.getD_cons_succ]
      by_cases h3 : k < m
      · exact getD_replicate _ _ _ _ h3
      · exact List.getD_eq_default _ _ (by simpa using h3)

theorem unit_length (p m : ℕ) : (unit p m).length = p + m + 1 := by
  unfold unit
  simp
  omega

theorem unit_peak (p m : ℕ) : IsFirstPeak (unit p m) p := by
  refine ⟨by rw [unit_length]; omega, fun i => ?_, fun i hi => ?_⟩
  · rw [unit_getD, unit_getD, if_pos rfl]
    split_ifs <;> simp
  · rw [unit_getD, unit_getD, if_pos rfl, if_neg (by omega)]
    simp

/-- **C83**, negation: with `adaptive=False` and an offset beyond the left flank, a unit impulse at the
start is removed: the result is silence, whatever the window, the lengths and the flanks are. -/
theorem C83_offset_wrong (m total : ℕ) (constant : ℚ) (wl wr : WindowType) (rising : Bool)
    (offset : ℕ) (ratio : ℚ) (hlo : leftFlank total constant ratio < offset)
    (rs : List (List ℝ × List ℝ × ℕ))
    (h : windowIR [unit 0 m] total false constant wl wr rising offset ratio = .ok rs) (i : ℕ) :
    (rs.getD 0 ([], [], 0)).1.getD i 0 = 0 := by
  obtain ⟨-, -, -, -, -, -, hch⟩ := windowIR_ok h
  have hc := hch 0 (by simp)
  rw [List.getD_cons_zero] at hc
  set left := leftFlank total constant ratio with hleft
  set right := rightFlank total constant ratio with hright
  have hcut : ∃ pr, (cutFixed (unit 0 m) 0 total left right offset).padLeft = offset ∧
      (∀ i, (cutFixed (unit 0 m) 0 total left right offset).vec.getD i 0 = if i = left ∧ i < total then 1 else 0) ∧
      (cutFixed (unit 0 m) 0 total left right offset).padRight = pr := by
    have hv : ∀ i, ((List.replicate offset 0 ++ unit 0 m).drop (offset - left)).getD i 0 =
        if i = left then 1 else 0 := by
      intro i
      rw [getD_drop', getD_padLeft]
      by_cases hi : i < left
      · rw [extended_neg _ _ (by omega), if_neg (by omega)]
      · have e : ((offset - left + i : ℕ) : ℤ) - offset = ((i - left : ℕ) : ℤ) := by omega
        rw [e, extended_nat, unit_getD]
        by_cases h2 : i = left
        · rw [if_pos h2, if_pos (by omega)]
        · rw [if_neg h2, if_neg (by omega)]
    unfold cutFixed
    rw [if_pos (by omega : 0 < offset)]
    dsimp only
    rw [zero_add, Nat.sub_zero, if_neg (show ¬ offset < left by omega)]
    dsimp only
    split_ifs with hlen
    · refine ⟨_, rfl, fun i => ?_, rfl⟩
      dsimp only
      rw [getD_padRight, hv]
      have : ((List.replicate offset (0 : ℝ) ++ unit 0 m).drop (offset - left)).length = left + m + 1 := by
        simp [unit_length]
        omega
      by_cases h2 : i = left
      · rw [if_pos h2, if_pos ⟨h2, by omega⟩]
      · rw [if_neg h2, if_neg (fun hh => h2 hh.1)]
    · refine ⟨_, rfl, fun i => ?_, rfl⟩
      dsimp only
      by_cases h3 : i < total
      · rw [getD_take' _ _ _ h3, hv]
        by_cases h2 : i = left
        · rw [if_pos h2, if_pos ⟨h2, h3⟩]
        · rw [if_neg h2, if_neg (fun hh => h2 hh.1)]
      · rw [List.getD_eq_default _ _ (by simp; omega), if_neg (fun hh => h3 hh.2)]
  obtain ⟨pr, hpl, hv, hpr⟩ := hcut
  unfold tukeyIR at hc
  rw [(unit_peak 0 m).index] at hc
  dsimp only at hc
  simp only [Bool.false_eq_true, if_false] at hc
  rw [← hleft, ← hright] at hc
  split_ifs at hc with hok
  split at hc
  · cases hc
  · rename_i w hw
    rw [← Except.ok.inj hc]
    dsimp only
    rw [getD_mul, hv]
    by_cases h2 : i = left ∧ i < total
    · rw [if_pos h2, one_mul, getD_range_map _ _ _ _ h2.2, hpl, if_pos (by omega)]
    · rw [if_neg h2, zero_mul]

/-- Default flanks of a window of 64 samples. -/
theorem flanks_64 : leftFlank 64 (3 / 4) 1 = 8 ∧ rightFlank 64 (3 / 4) 1 = 8 := by
  have h1 : flankTotal 64 (3 / 4) = 16 := by
    unfold flankTotal
    rw [show (1 - 3 / 4 : ℚ) * (64 : ℕ) = (16 : ℕ) by norm_num, Nat.floor_natCast]
  have h2 : leftFlank 64 (3 / 4) 1 = 8 := by
    unfold leftFlank
    rw [h1, show ((16 : ℕ) : ℚ) * 0.5 * 1 = (8 : ℕ) by norm_num, Nat.floor_natCast]
  exact ⟨h2, by unfold rightFlank; rw [h1, h2]⟩

/-- The hypotheses of the negation are met with the default percentage and ratio. -/
example (m : ℕ) : ∃ rs, windowIR [unit 0 m] 64 false (3 / 4) hann hann true 20 1 = .ok rs := by
  have hf := flanks_64
  have key : ∃ r, tukeyIR (unit 0 m) 64 hann hann (3 / 4) true 20 1 false = .ok r := by
    unfold tukeyIR
    rw [(unit_peak 0 m).index]
    dsimp only
    simp only [Bool.false_eq_true, if_false]
    rw [hf.1, hf.2]
    have hcut : (cutFixed (unit 0 m) 0 64 8 8 20).left = 8 ∧
        (cutFixed (unit 0 m) 0 64 8 8 20).right = ((8 : ℕ) : ℤ) ∧
        (cutFixed (unit 0 m) 0 64 8 8 20).length = 64 := by
      unfold cutFixed
      dsimp only
      split_ifs <;> exact ⟨rfl, rfl, rfl⟩
    rw [hcut.1, hcut.2.1, hcut.2.2, if_pos (by norm_num), Int.toNat_natCast]
    obtain ⟨w, hw, -⟩ := window_ok 0 8 (64 - 8) 64 64 (by norm_num) hann hann true false
    rw [hw]
    exact ⟨_, rfl⟩
  obtain ⟨r, hr⟩ := key
  refine ⟨[r], ?_⟩
  unfold windowIR
  rw [if_neg (by norm_num), if_neg (by norm_num), if_neg (by norm_num), if_neg (by norm_num)]
  rw [show (20 : ℤ).toNat = 20 from rfl, eachChannel, hr, eachChannel]
  simp

/-- **C83**, negation: with `adaptive=True` the offset is not maintained if the peak is closer to the
start: nothing is moved, and a unit impulse at sample `p` is still at sample `p` (and not at
`offset`), if the impulse response is long enough for a window. -/
theorem C83_adaptive_offset_wrong (p m total : ℕ) (constant : ℚ) (wl wr : WindowType)
    (rising : Bool) (offset : ℕ) (ratio : ℚ) (hpo : p < offset)
    (rs : List (List ℝ × List ℝ × ℕ))
    (h : windowIR [unit p m] total true constant wl wr rising offset ratio = .ok rs)
    (hlen : offset + rightFlank total constant ratio ≤ min total (p + m + 1)) :
    (rs.getD 0 ([], [], 0)).1.getD p 0 = 1 ∧ (rs.getD 0 ([], [], 0)).1.getD offset 0 = 0 ∧
      (rs.getD 0 ([], [], 0)).2.2 = 0 := by
  obtain ⟨-, -, -, -, -, -, hch⟩ := windowIR_ok h
  have hc := hch 0 (by simp)
  rw [List.getD_cons_zero] at hc
  set left := leftFlank total constant ratio with hleft
  set right := rightFlank total constant ratio with hright
  have hul := unit_length p m
  have hcut : cutAdaptive (unit p m) p total left right offset =
      ⟨if total < (unit p m).length then (unit p m).take total else unit p m, 0, 0,
        total - min total (p + m + 1), 0, right, min total (p + m + 1)⟩ := by
    unfold cutAdaptive
    rw [if_pos (by omega)]
    dsimp only
    have e1 : (if (if total < (unit p m).length then (unit p m).take total else unit p m).length <
        total then (if total < (unit p m).length then (unit p m).take total else unit p m).length
        else total) = min total (p + m + 1) := by
      by_cases h1 : total < (unit p m).length
      · rw [if_pos h1, List.length_take]
        split_ifs <;> omega
      · rw [if_neg h1, hul]
        split_ifs <;> omega
    rw [e1, show p - offset = 0 by omega,
      if_neg (show ¬ (((0 : ℕ) : ℤ) + offset > (min total (p + m + 1) : ℕ) - (right : ℤ)) by omega)]
  have hvec : ∀ i < total, (if total < (unit p m).length then (unit p m).take total else unit p m).getD
      i 0 = if i = p then 1 else 0 := by
    intro i hi
    split_ifs with h1 h2 h2
    · rw [getD_take' _ _ _ hi, unit_getD, if_pos h2]
    · rw [getD_take' _ _ _ hi, unit_getD, if_neg h2]
    · rw [unit_getD, if_pos h2]
    · rw [unit_getD, if_neg h2]
  unfold tukeyIR at hc
  rw [(unit_peak p m).index] at hc
  dsimp only at hc
  simp only [if_true] at hc
  rw [← hleft, ← hright, hcut] at hc
  dsimp only at hc
  rw [if_pos (by omega), Int.toNat_natCast] at hc
  obtain ⟨w, hw, hwl, hwv⟩ := window_ok 0 0 (min total (p + m + 1) - right) (min total (p + m + 1))
    (min total (p + m + 1)) (by omega) wl wr rising false
  rw [hw] at hc
  dsimp only at hc
  rw [← Except.ok.inj hc]
  dsimp only
  refine ⟨?_, ?_, rfl⟩
  · rw [getD_mul, getD_padRight, getD_padRight, hvec p (by omega), if_pos rfl, one_mul,
      hwv p (by omega)]
    simp only [Bool.false_eq_true, if_false]
    rw [flanked_eq]
    unfold flanked
    rw [if_neg (by omega), if_pos (by omega)]
  · rw [getD_mul, getD_padRight]
    by_cases ho : offset < total
    · rw [hvec offset ho, if_neg (by omega), zero_mul]
    · rw [getD_padRight, List.getD_eq_default w _ (by omega), mul_zero]

/-- **C83**, negation: with a ratio of two the left flank is not twice as long as the right one: there
is no right flank at all. -/
theorem C83_ratio_wrong (total : ℕ) (constant : ℚ) :
    leftFlank total constant 2 = flankTotal total constant ∧ rightFlank total constant 2 = 0 := by
  have h : leftFlank total constant 2 = flankTotal total constant := by
    unfold leftFlank
    rw [show (flankTotal total constant : ℚ) * 0.5 * 2 = flankTotal total constant by ring,
      Nat.floor_natCast]
  exact ⟨h, by unfold rightFlank; rw [h]; simp⟩

/-- **C83**, negation: the returned start does not tell whether samples were removed or added in front:
it is 4 for the impulse at sample 12, of which 4 samples are removed, and for the one at sample 4, to
which 4 zeros are added; the windowed impulses are the same. -/
theorem C83_start_wrong : ∃ a b,
    windowIR [unit 12 100] 64 false (3 / 4) hann hann true 0 1 = .ok [a] ∧
    windowIR [unit 4 100] 64 false (3 / 4) hann hann true 0 1 = .ok [b] ∧
    a.2.2 = 4 ∧ b.2.2 = 4 ∧ ∀ i < 64, a.1.getD i 0 = b.1.getD i 0 := by
  have hf := flanks_64
  have key : ∀ p, ∃ a, windowIR [unit p 100] 64 false (3 / 4) hann hann true 0 1 = .ok [a] ∧
      a.2.2 = ((p : ℤ) - 8).natAbs ∧ ∀ i < 64, a.1.getD i 0 = (if i = 8 then 1 else 0) *
        flanked hann hann true 8 56 64 i := by
    intro p
    obtain ⟨rs, hrs⟩ := C83_accepts [unit p 100] (by simp [unit]) 64 (3 / 4) (by norm_num)
      (by norm_num) hann hann true 0 (by norm_num) 1 (by norm_num) (by norm_num) (by norm_num) (by norm_num)
      (by intros; omega) false (by rw [hf.1]; norm_num)
    obtain ⟨-, -, -, -, -, hlen, -⟩ := windowIR_ok hrs
    obtain ⟨td, w, start, h1, -, -, h2, h3, -⟩ := C83_fixed_partial [unit p 100] 64 (3 / 4) hann hann
      true 0 1 (by norm_num) rs hrs 0 (by simp) p (by simpa using unit_peak p 100) (by omega)
    obtain ⟨a, rfl⟩ := List.length_eq_one_iff.mp hlen
    rw [List.getD_cons_zero] at h1
    refine ⟨a, hrs, ?_, fun i hi => ?_⟩
    · rw [h1]
      dsimp only
      rw [h2, hf.1]
      simp
    · rw [h1]
      dsimp only
      rw [(h3 i hi).1, hf.1, hf.2, List.getD_cons_zero]
      congr 1
      by_cases hn : 0 ≤ (i : ℤ) + p - (0 : ℕ) - (8 : ℕ)
      · have e : (i : ℤ) + p - (0 : ℕ) - (8 : ℕ) = ((i + p - 8 : ℕ) : ℤ) := by omega
        rw [e, extended_nat, unit_getD]
        by_cases h8 : i = 8
        · rw [if_pos h8, if_pos (by omega)]
        · rw [if_neg h8, if_neg (by omega)]
      · rw [extended_neg _ _ (by omega), if_neg (by omega)]
  obtain ⟨a, ha1, ha2, ha3⟩ := key 12
  obtain ⟨b, hb1, hb2, hb3⟩ := key 4
  exact ⟨a, b, ha1, hb1, by rw [ha2]; rfl, by rw [hb2]; rfl, fun i hi => by rw [ha3 i hi, hb3 i hi]⟩

/-- The hypotheses of the main theorems are met. -/
example : ∃ rs, windowIR [unit 12 100, unit 30 82] 64 true (3 / 4) hann hann true 5 1 = .ok rs :=
  C83_accepts _ (by simp [unit]) 64 (3 / 4) (by norm_num) (by norm_num) hann hann true 5
    (by norm_num) 1 (by norm_num) (by norm_num) (by norm_num) (by norm_num) (by
      intro x hx p hp
      rw [List.mem_cons, List.mem_singleton] at hx
      rcases hx with rfl | rfl
      · have := hp.unique (unit_peak 12 100)
        omega
      · have := hp.unique (unit_peak 30 82)
        omega) true (by rw [flanks_64.1]; norm_num)

/-- A window with Hann flanks of 10 ms and 20 ms. -/
example : ∃ r, windowTukey [unit 100 900] 1001 10000 false (some (1 / 100)) (some (2 / 100)) hann =
    .ok r := by
  rw [C83_tukey_accepts _ _ _ _ _ _ (by rintro t ⟨⟩; norm_num) (by rintro t ⟨⟩; norm_num)]
  refine ⟨by simp, rfl, ?_⟩
  unfold nearestSamples
  norm_num

end Verif.WindowIR

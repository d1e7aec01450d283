import Verif.Model.Echo
import Verif.Lemmas.Peak
import Verif.Lemmas.LFilter
import Mathlib.Tactic.NormNum
import Mathlib.Tactic.FieldSimp
import Mathlib.Tactic.Ring
import Mathlib.Tactic.Linarith

/-!
# C58: the chorus
-/

namespace Verif.Echo

open Verif.Level Verif.Distortion

/-! ## Specification -/

/-- The signal at an arbitrary (also negative) time, silent outside. -/
def at_ (x : List ℝ) (t : ℤ) : ℝ := if t < 0 then 0 else x.getD t.toNat 0

/-- What a chorus should give before the level is restored: the clean sample plus one copy per
voice, DELAYED by `m i v` samples, mixed with the clean sample. -/
noncomputable def chorusSpec (mix : ℝ) (voices : ℕ) (m : ℕ → ℕ → ℤ) (x : List ℝ) (i : ℕ) : ℝ :=
  (at_ x i + ((List.range voices).map fun v => at_ x (i - m i v)).sum) * mix + at_ x i * (1 - mix)

/-! ## Lemmas -/

theorem le_maxDelay (le voices : ℕ) (m : ℕ → ℕ → ℤ) (i v : ℕ) (hi : i < le) (hv : v < voices) :
    (m i v).natAbs ≤ maxDelay le voices m :=
  Finset.le_sup (f := fun p : ℕ × ℕ => (m p.1 p.2).natAbs)
    (Finset.mem_product.mpr ⟨Finset.mem_range.mpr hi, Finset.mem_range.mpr hv⟩ :
      (i, v) ∈ Finset.range le ×ˢ Finset.range voices)

theorem getD_pad (x : List ℝ) (n k : ℕ) : (x ++ List.replicate n 0).getD k 0 = x.getD k 0 := by
  simp only [List.getD_eq_getElem?_getD]
  by_cases h : k < x.length
  · rw [List.getElem?_append_left h]
  · rw [List.getElem?_append_right (by omega), List.getElem?_replicate,
      List.getElem?_eq_none (by omega)]
    split_ifs <;> rfl

/-- An index shifted by at most the length of the padding reads the signal, or silence outside. -/
theorem pyGet_pad (x : List ℝ) (n : ℕ) (t : ℤ) (h : -(n : ℤ) ≤ t) :
    pyGet (x ++ List.replicate n 0) t = at_ x t := by
  unfold pyGet at_
  by_cases h0 : t < 0
  · rw [if_pos h0, if_pos h0, getD_pad, List.getD_eq_getElem?_getD, List.getElem?_eq_none]
    · rfl
    · simp only [List.length_append, List.length_replicate]
      omega
  · rw [if_neg h0, if_neg h0, getD_pad]

theorem at_nat (x : List ℝ) (i : ℕ) : at_ x i = x.getD i 0 := by
  unfold at_
  rw [if_neg (by omega), Int.toNat_natCast]

/-- What the chorus computes before the level is restored: copies ADVANCED by the delays. -/
theorem chorus_eq (mix : ℝ) (voices : ℕ) (m : ℕ → ℕ → ℤ) (x : List ℝ) :
    chorus mix voices m x = restorePeak (maxAbs x)
      ((List.range x.length).map (chorusSpec mix voices (fun i v => -m i v) x)) := by
  unfold chorus
  dsimp only
  congr 1
  refine List.map_congr_left fun i hi => ?_
  have hi' := List.mem_range.mp hi
  rw [LFilter.getD_map_range, if_pos hi', getD_pad]
  unfold chorusSpec
  rw [at_nat]
  congr 3
  refine congrArg List.sum (List.map_congr_left fun v hv => ?_)
  have := le_maxDelay x.length voices m i v hi' (List.mem_range.mp hv)
  rw [pyGet_pad _ _ _ (by omega), sub_neg_eq_add]

theorem restorePeak_isPeak (P : ℝ) (hP : 0 ≤ P) (y z : List ℝ) (h : restorePeak P y = some z) :
    IsPeak z P ∧ z.length = y.length ∧ ∃ c, 0 ≤ c ∧ ∀ i < y.length, z.getD i 0 = c * y.getD i 0 := by
  unfold restorePeak at h
  by_cases h0 : maxAbs y = 0
  · rw [if_pos h0] at h; cases h
  rw [if_neg h0] at h
  cases h
  have hp := maxAbs_pos y h0
  refine ⟨?_, by simp, P / maxAbs y, by positivity, fun i hi => ?_⟩
  · have := isPeak_maxAbs (y.map (· * (P / maxAbs y))) (by simpa using maxAbs_ne_nil y h0)
    rwa [maxAbs_scale, abs_of_nonneg (by positivity), mul_div_cancel₀ _ h0] at this
  · rw [List.getD_eq_getElem _ _ (by simpa using hi), List.getElem_map,
      List.getD_eq_getElem _ _ hi, mul_comm]

/-! ## The property -/

/-- The duration and the peak of every channel are kept, for every mix, number of voices and table
of delays, whenever the result consists of numbers. -/
theorem C58_peak_and_length (mix : ℝ) (voices : ℕ) (m : ℕ → ℕ → ℤ) (x y : List ℝ) (hx : x ≠ [])
    (h : chorus mix voices m x = some y) :
    y.length = x.length ∧ ∃ P, IsPeak x P ∧ IsPeak y P := by
  rw [chorus_eq] at h
  obtain ⟨h1, h2, -⟩ := restorePeak_isPeak _ (maxAbs_nonneg x) _ _ h
  exact ⟨by simpa using h2, maxAbs x, isPeak_maxAbs x hx, h1⟩

/-- The output is, up to one non-negative constant, the clean signal plus one copy per voice; but
the copies are shifted towards the past by the delays (the voice reads sample `i + m i v`). -/
theorem C58_copies_partial (mix : ℝ) (voices : ℕ) (m : ℕ → ℕ → ℤ) (x y : List ℝ)
    (h : chorus mix voices m x = some y) :
    ∃ c, 0 ≤ c ∧ ∀ i < x.length, y.getD i 0 = c *
      ((at_ x i + ((List.range voices).map fun v => at_ x (i + m i v)).sum) * mix
        + at_ x i * (1 - mix)) := by
  rw [chorus_eq] at h
  obtain ⟨-, -, c, hc, h3⟩ := restorePeak_isPeak _ (maxAbs_nonneg x) _ _ h
  refine ⟨c, hc, fun i hi => ?_⟩
  rw [h3 i (by simpa using hi), LFilter.getD_map_range, if_pos hi]
  unfold chorusSpec
  simp only [sub_neg_eq_add]

/-- So the effect is not causal and does not delay: a voice with a delay of one sample makes an
impulse at sample 1 appear at sample 0, before it was played, and nothing after it. -/
theorem C58_advances_instead_of_delaying :
    chorus 1 1 (fun _ _ => 1) [0, 1, 0] = some [1, 1, 0] ∧
      ∀ c : ℝ, some ((List.range 3).map fun i => c * chorusSpec 1 1 (fun _ _ => 1) [0, 1, 0] i)
        ≠ chorus 1 1 (fun _ _ => 1) [0, 1, 0] := by
  have h1 : chorus 1 1 (fun _ _ => 1) [0, 1, 0] = some [1, 1, 0] := by
    rw [chorus_eq]
    have hv : (List.range ([0, 1, 0] : List ℝ).length).map
        (chorusSpec 1 1 (fun _ _ => -1) [0, 1, 0]) = [1, 1, 0] := by
      simp [chorusSpec, at_, List.range_succ]
    have hm : maxAbs ([1, 1, 0] : List ℝ) = 1 := by simp [maxAbs]
    have hm' : maxAbs ([0, 1, 0] : List ℝ) = 1 := by simp [maxAbs]
    rw [hv, hm']
    unfold restorePeak
    rw [hm]
    simp
  refine ⟨h1, fun c hc => ?_⟩
  rw [h1] at hc
  simp [chorusSpec, at_, List.range_succ] at hc

/-- After the constructor the lists have one entry per voice, and every accepted call that passes
all three lists keeps it so. -/
theorem C58_voices_partial (s s' : Voices) (b d m : ℕ)
    (h : setVoices s (some b) (some d) (some m) = .ok s') :
    s'.base = s'.number ∧ s'.depths = s'.number ∧ s'.modulators = s'.number ∧
      s'.number = max (max b d) m := by
  unfold setVoices at h
  simp only [Option.isSome_some, if_true] at h
  split_ifs at h with h1 h2 h3
  cases h
  exact ⟨rfl, rfl, rfl, rfl⟩

/-- Passing `None` to leave a list unchanged breaks this: two base delays given to a chorus with one
voice leave one depth and one modulator for two voices. -/
theorem C58_voices_broken :
    setVoices ⟨1, 1, 1, 1⟩ (some 2) none none = .ok ⟨2, 2, 1, 1⟩ := by decide +kernel

/-- A silent channel comes back as `nan`. -/
theorem C58_silence (mix : ℝ) (voices : ℕ) (m : ℕ → ℕ → ℤ) (n : ℕ) :
    chorus mix voices m (List.replicate n 0) = none := by
  rw [chorus_eq]
  have ha : ∀ t, at_ (List.replicate n 0) t = 0 := by
    intro t
    unfold at_
    split_ifs
    · rfl
    · rw [List.getD_eq_getElem?_getD, List.getElem?_replicate]
      split_ifs <;> rfl
  unfold restorePeak
  refine if_pos ((maxAbs_zero_iff _).mpr fun v hv => ?_)
  obtain ⟨i, -, rfl⟩ := List.mem_map.mp hv
  simp [chorusSpec, ha]

/-! ## The hypotheses are met -/

example : ∃ y, chorus 1 1 (fun _ _ => 1) [0, 1, 0] = some y :=
  ⟨_, C58_advances_instead_of_delaying.1⟩

example : setVoices ⟨0, 0, 0, 0⟩ (some 1) (some 3) (some 1) = .ok ⟨3, 3, 3, 3⟩ := by decide +kernel

end Verif.Echo

import Verif.Model.Fade
import Mathlib.Tactic.NormNum
import Mathlib.Tactic.Linarith
import Mathlib.Tactic.Positivity
import Mathlib.Tactic.FieldSimp
import Mathlib.Data.List.GetD

/-!
# C32: fades only attenuate and only inside the fade region
-/

namespace Verif.Fade

/-- Weights of a proper fade over `l` samples: between 0 and 1, rising from the outer edge
(index 0) to 1 at the inner edge. -/
structure ProperWeights (l : ℕ) (w : ℕ → ℝ) : Prop where
  range : ∀ k < l, 0 ≤ w k ∧ w k ≤ 1
  mono : ∀ j k, j ≤ k → k < l → w j ≤ w k
  inner : w (l - 1) = 1

theorem linspace_getD (a b : ℝ) (l k : ℕ) (hk : k < l) :
    (linspace a b l)[k]? = some (a + (k : ℝ) * ((b - a) / ((l - 1 : ℕ) : ℝ))) := by
  simp [linspace, hk]

theorem logConst_gt : (1 : ℝ) < 50 * (10 : ℝ) ^ (0.5 : ℝ) := by
  have : (1 : ℝ) ≤ (10 : ℝ) ^ (0.5 : ℝ) := Real.one_le_rpow (by norm_num) (by norm_num)
  linarith

/-- With at least two samples every shape has proper weights. -/
theorem fadeArray_proper (mode : FadeType) (hm : mode ≠ .noFade) (l : ℕ) (hl : 2 ≤ l) :
    ∃ w : ℕ → ℝ, ProperWeights l w ∧
      fadeArray mode l = .ok ((List.range l).map fun k => some (w k)) := by
  have hl1 : (0 : ℝ) < ((l - 1 : ℕ) : ℝ) := by
    have : 0 < l - 1 := by omega
    exact_mod_cast this
  have hfrac : ∀ k < l, (0 : ℝ) ≤ k / ((l - 1 : ℕ) : ℝ) ∧ (k : ℝ) / ((l - 1 : ℕ) : ℝ) ≤ 1 := by
    intro k hk
    refine ⟨by positivity, ?_⟩
    rw [div_le_one hl1]
    exact_mod_cast (by omega : k ≤ l - 1)
  have hfm : ∀ j k : ℕ, j ≤ k → (j : ℝ) / ((l - 1 : ℕ) : ℝ) ≤ k / ((l - 1 : ℕ) : ℝ) := by
    intro j k hjk
    exact div_le_div_of_nonneg_right (by exact_mod_cast hjk) hl1.le
  have hf1 : ((l - 1 : ℕ) : ℝ) / ((l - 1 : ℕ) : ℝ) = 1 := div_self hl1.ne'
  cases mode with
  | noFade => exact absurd rfl hm
  | linear =>
    refine ⟨fun k => k / ((l - 1 : ℕ) : ℝ), ⟨hfrac, fun j k hjk _ => hfm j k hjk, hf1⟩, ?_⟩
    simp only [fadeArray, linspace, List.map_map]
    congr 1
    refine List.map_congr_left fun k _ => ?_
    simp only [Function.comp]
    congr 1
    ring
  | exponential =>
    refine ⟨fun k => (10 : ℝ) ^ ((-100 + 100 * (k / ((l - 1 : ℕ) : ℝ))) / 20), ⟨?_, ?_, ?_⟩, ?_⟩
    · intro k hk
      refine ⟨by positivity, ?_⟩
      refine Real.rpow_le_one_of_one_le_of_nonpos (by norm_num) ?_
      have := (hfrac k hk).2
      linarith
    · intro j k hjk _
      refine Real.rpow_le_rpow_of_exponent_le (by norm_num) ?_
      have := hfm j k hjk
      linarith
    · simp only [hf1]
      norm_num
    · simp only [fadeArray, linspace, List.map_map]
      congr 1
      refine List.map_congr_left fun k _ => ?_
      simp only [Function.comp]
      congr 2
      ring
  | logarithmic =>
    set C : ℝ := 50 * (10 : ℝ) ^ (0.5 : ℝ) with hC
    have hC1 : 1 < C := logConst_gt
    have hlogC : 0 < Real.logb 10 C := Real.logb_pos (by norm_num) hC1
    have harg : ∀ k : ℕ, (1 : ℝ) ≤ 1 + (C - 1) * (k / ((l - 1 : ℕ) : ℝ)) := by
      intro k
      have h1 : 0 ≤ (C - 1) * ((k : ℝ) / ((l - 1 : ℕ) : ℝ)) :=
        mul_nonneg (by linarith) (by positivity)
      linarith
    have hle : ∀ j k : ℕ, j ≤ k → 1 + (C - 1) * ((j : ℝ) / ((l - 1 : ℕ) : ℝ)) ≤
        1 + (C - 1) * (k / ((l - 1 : ℕ) : ℝ)) := by
      intro j k hjk
      have := mul_le_mul_of_nonneg_left (hfm j k hjk) (by linarith : 0 ≤ C - 1)
      linarith
    have hlast : 1 + (C - 1) * (((l - 1 : ℕ) : ℝ) / ((l - 1 : ℕ) : ℝ)) = C := by
      rw [hf1]; ring
    have hmono : ∀ j k : ℕ, j ≤ k → Real.logb 10 (1 + (C - 1) * (j / ((l - 1 : ℕ) : ℝ))) ≤
        Real.logb 10 (1 + (C - 1) * (k / ((l - 1 : ℕ) : ℝ))) := by
      intro j k hjk
      exact Real.logb_le_logb_of_le (by norm_num) (by linarith [harg j]) (hle j k hjk)
    refine ⟨fun k => Real.logb 10 (1 + (C - 1) * (k / ((l - 1 : ℕ) : ℝ))) / Real.logb 10 C,
      ⟨?_, ?_, ?_⟩, ?_⟩
    · intro k hk
      refine ⟨div_nonneg (Real.logb_nonneg (by norm_num) (harg k)) hlogC.le, ?_⟩
      rw [div_le_one hlogC]
      have := hmono k (l - 1) (by omega)
      rwa [hlast] at this
    · intro j k hjk _
      exact div_le_div_of_nonneg_right (hmono j k hjk) hlogC.le
    · rw [hlast, div_self hlogC.ne']
    · have hlen : ((linspace 1 C l).map (Real.logb 10)).length = l := by simp [linspace]
      have hgl : ((linspace 1 C l).map (Real.logb 10)).getLast? = some (Real.logb 10 C) := by
        rw [List.getLast?_eq_getElem?, hlen, List.getElem?_map, linspace_getD _ _ _ _ (by omega)]
        simp only [Option.map_some]
        congr 2
        refine Eq.trans ?_ hlast
        ring
      simp only [fadeArray]
      rw [hgl]
      simp only [hlogC.ne', if_false, linspace, List.map_map]
      congr 1
      refine List.map_congr_left fun k _ => ?_
      simp only [Function.comp]
      congr 3
      ring

theorem weighStart_get (s : List (Option ℝ)) (l : ℕ) (w : ℕ → ℝ) (i : ℕ) (hi : i < s.length) :
    (weighStart s ((List.range l).map fun k => some (w k))).getD i none =
      if i < l then nanMul (s.getD i none) (some (w i)) else s.getD i none := by
  unfold weighStart
  have h1 : ((List.range s.length).map fun i =>
      if i < ((List.range l).map fun k => some (w k)).length then
        nanMul (s.getD i none) (((List.range l).map fun k => some (w k)).getD i none)
      else s.getD i none).getD i none =
      (if i < ((List.range l).map fun k => some (w k)).length then
        nanMul (s.getD i none) (((List.range l).map fun k => some (w k)).getD i none)
      else s.getD i none) := by
    rw [List.getD_eq_getElem _ _ (by simpa using hi)]
    simp
  rw [h1]
  simp only [List.length_map, List.length_range]
  by_cases h : i < l
  · rw [if_pos h, if_pos h]
    congr 1
    rw [List.getD_eq_getElem _ _ (by simpa using h)]
    simp
  · rw [if_neg h, if_neg h]

theorem weighStart_length (s w : List (Option ℝ)) : (weighStart s w).length = s.length := by
  simp [weighStart]

theorem getD_reverse (s : List (Option ℝ)) (i : ℕ) (hi : i < s.length) :
    s.reverse.getD i none = s.getD (s.length - 1 - i) none := by
  rw [List.getD_eq_getElem _ _ (by simpa using hi), List.getElem_reverse,
    List.getD_eq_getElem _ _ (by omega)]

/-- One fade: samples closer than `l` to the faded edge are multiplied by the weight of
their distance, all others are unchanged. -/
theorem fadeVec_value (mode : FadeType) (hm : mode ≠ .noFade) (fs : ℕ) (len : ℝ) (l : ℕ)
    (w : ℕ → ℝ) (hlen : 0 < len) (hl : ⌊len * fs⌋₊ = l)
    (hw : fadeArray mode l = .ok ((List.range l).map fun k => some (w k)))
    (s : List (Option ℝ)) (hs : l < s.length) (atStart : Bool) :
    ∃ y, fadeVec s len mode fs atStart = .ok y ∧ y.length = s.length ∧
      ∀ i < s.length, y.getD i none =
        if (if atStart then i else s.length - 1 - i) < l
        then nanMul (s.getD i none) (some (w (if atStart then i else s.length - 1 - i)))
        else s.getD i none := by
  unfold fadeVec
  rw [if_neg hm, if_neg (not_not.mpr hlen)]
  simp only [hl, not_not.mpr hs, if_false, hw]
  cases atStart with
  | true =>
    refine ⟨_, rfl, weighStart_length _ _, fun i hi => ?_⟩
    simp only [if_true]
    exact weighStart_get s l w i hi
  | false =>
    refine ⟨_, rfl, by simp [weighStart_length], fun i hi => ?_⟩
    simp only [Bool.false_eq_true, if_false]
    rw [getD_reverse _ _ (by rw [weighStart_length, List.length_reverse]; exact hi),
      weighStart_length, List.length_reverse,
      weighStart_get _ _ _ _ (by rw [List.length_reverse]; omega),
      getD_reverse _ _ (by omega)]
    have : s.length - 1 - (s.length - 1 - i) = i := by omega
    rw [this]

/-- A fade at the start, at the end or at both, of at least two samples: there are proper
weights such that every sample is the original one times the weight of its distance from
the start (if this is inside the fade at the start) times the weight of its distance from
the end (if this is inside the fade at the end).  All other samples are unchanged.

For fades of fewer samples see `C32_one_sample_fade` and `C32_zero_sample_fade`. -/
theorem C32_fade_partial (mode : FadeType) (hm : mode ≠ .noFade) (fs : ℕ) (len : ℝ)
    (hlen : 0 < len) (hl2 : 2 ≤ ⌊len * fs⌋₊) (x : List ℝ) (hx : ⌊len * fs⌋₊ < x.length)
    (atStart atEnd : Bool) :
    ∃ (w : ℕ → ℝ) (y : List ℝ), ProperWeights ⌊len * fs⌋₊ w ∧
      fadeChannel (x.map some) len mode fs atStart atEnd = .ok (y.map some) ∧
      y.length = x.length ∧
      ∀ i < x.length, y.getD i 0 = x.getD i 0 *
        (if atStart = true ∧ i < ⌊len * fs⌋₊ then w i else 1) *
        (if atEnd = true ∧ x.length - 1 - i < ⌊len * fs⌋₊ then w (x.length - 1 - i) else 1) := by
  obtain ⟨w, hw, harr⟩ := fadeArray_proper mode hm ⌊len * fs⌋₊ hl2
  set l := ⌊len * fs⌋₊ with hl
  have hget : ∀ (z : List ℝ) (i : ℕ), i < z.length → (z.map some).getD i none = some (z.getD i 0) := by
    intro z i hi
    rw [List.getD_eq_getElem _ _ (by simpa using hi), List.getD_eq_getElem _ _ hi]
    simp
  -- one fade applied to real samples
  have one : ∀ (z : List ℝ), z.length = x.length → ∀ b : Bool,
      ∃ y : List ℝ, fadeVec (z.map some) len mode fs b = .ok (y.map some) ∧
        y.length = z.length ∧ ∀ i < z.length, y.getD i 0 = z.getD i 0 *
          (if (if b then i else z.length - 1 - i) < l
            then w (if b then i else z.length - 1 - i) else 1) := by
    intro z hz b
    obtain ⟨y, hy, hylen, hyval⟩ := fadeVec_value mode hm fs len l w hlen hl.symm harr (z.map some)
      (by simpa [hz] using hx) b
    rw [List.length_map] at hylen hyval
    refine ⟨(List.range z.length).map fun i => z.getD i 0 *
      (if (if b then i else z.length - 1 - i) < l
        then w (if b then i else z.length - 1 - i) else 1), ?_, by simp, ?_⟩
    · rw [hy]
      congr 1
      apply List.ext_getElem
      · simp [hylen]
      · intro i h1 h2
        have hi : i < z.length := by omega
        have := hyval i hi
        rw [List.getD_eq_getElem _ _ h1] at this
        rw [this, hget z i hi]
        simp only [List.getElem_map, List.getElem_range]
        split_ifs <;> simp [nanMul]
    · intro i hi
      rw [List.getD_eq_getElem _ _ (by simpa using hi)]
      simp
  cases atStart with
  | false =>
    cases atEnd with
    | false =>
      exact ⟨w, x, hw, rfl, rfl, fun i hi => by simp⟩
    | true =>
      obtain ⟨y, hy, hlen', hval⟩ := one x rfl false
      refine ⟨w, y, hw, ?_, hlen', fun i hi => ?_⟩
      · simp only [fadeChannel, Bool.false_eq_true, if_false, if_true]
        exact hy
      · rw [hval i hi]
        simp
  | true =>
    obtain ⟨y, hy, hlen', hval⟩ := one x rfl true
    cases atEnd with
    | false =>
      refine ⟨w, y, hw, ?_, hlen', fun i hi => ?_⟩
      · simp only [fadeChannel, Bool.false_eq_true, if_false, if_true, hy]
        rfl
      · rw [hval i hi]
        simp
    | true =>
      obtain ⟨y2, hy2, hlen2, hval2⟩ := one y hlen' false
      refine ⟨w, y2, hw, ?_, by omega, fun i hi => ?_⟩
      · simp only [fadeChannel, if_true, hy]
        exact hy2
      · rw [hval2 i (by omega), hval i hi, hlen']
        simp

/-- The magnitude of no sample grows. -/
theorem C32_only_attenuates (mode : FadeType) (hm : mode ≠ .noFade) (fs : ℕ) (len : ℝ)
    (hlen : 0 < len) (hl2 : 2 ≤ ⌊len * fs⌋₊) (x : List ℝ) (hx : ⌊len * fs⌋₊ < x.length)
    (atStart atEnd : Bool) (y : List (Option ℝ))
    (h : fadeChannel (x.map some) len mode fs atStart atEnd = .ok y) :
    ∀ i < x.length, ∃ v, y.getD i none = some v ∧ |v| ≤ |x.getD i 0| := by
  obtain ⟨w, y', hw, hy, hylen, hval⟩ := C32_fade_partial mode hm fs len hlen hl2 x hx atStart atEnd
  rw [hy] at h
  have h' := (Except.ok.inj h).symm
  subst h'
  intro i hi
  refine ⟨y'.getD i 0, ?_, ?_⟩
  · rw [List.getD_eq_getElem _ _ (by simpa [hylen] using hi), List.getD_eq_getElem _ _ (by omega)]
    simp
  · rw [hval i hi, abs_mul, abs_mul]
    have b1 : ∀ c : Prop, ∀ [Decidable c], ∀ k, (c → k < ⌊len * fs⌋₊) →
        |if c then w k else 1| ≤ 1 := by
      intro c _ k hk
      split_ifs with hc
      · obtain ⟨h0, h1⟩ := hw.range k (hk hc)
        rw [abs_of_nonneg h0]
        exact h1
      · simp
    have h1 := b1 (atStart = true ∧ i < ⌊len * fs⌋₊) i (fun h => h.2)
    have h2 := b1 (atEnd = true ∧ x.length - 1 - i < ⌊len * fs⌋₊) (x.length - 1 - i)
      (fun h => h.2)
    calc _ ≤ |x.getD i 0| * 1 * 1 := by
          refine mul_le_mul (mul_le_mul_of_nonneg_left h1 (abs_nonneg _)) h2 (abs_nonneg _) ?_
          positivity
      _ = _ := by ring

/-- A fade that is not shorter than the signal is rejected, as is one whose length is not
positive; so is a length (given or default) that reaches the last entry of the time
vector. -/
theorem C32_rejected (mode : FadeType) (hm : mode ≠ .noFade) (fs : ℕ) (len : ℝ)
    (x : List (Option ℝ)) (atStart : Bool) (h : len ≤ 0 ∨ x.length ≤ ⌊len * fs⌋₊) :
    fadeVec x len mode fs atStart = .error .assertionError := by
  unfold fadeVec
  rw [if_neg hm]
  by_cases h0 : 0 < len
  · rw [if_neg (not_not.mpr h0)]
    simp only
    rw [if_pos]
    rcases h with h | h
    · linarith
    · omega
  · rw [if_pos h0]

theorem C32_signal_too_long_rejected (x : List (List (Option ℝ))) (rows fs : ℕ) (mode : FadeType)
    (len : ℝ) (a b : Bool) (h : (rows : ℝ) / fs ≤ len) :
    fade x rows fs mode (some len) a b = .error .assertionError := by
  unfold fade
  by_cases hab : a = true ∨ b = true
  · rw [if_neg (not_not.mpr hab)]
    simp only [Option.getD_some]
    rw [if_pos]
    unfold lastTime
    split_ifs with h1
    · have : (0 : ℝ) ≤ (rows : ℝ) / fs := by positivity
      linarith
    · linarith
  · rw [if_pos hab]

/-- No fade leaves the signal as it is. -/
theorem C32_no_fade (x : List (Option ℝ)) (len : ℝ) (fs : ℕ) (a b : Bool) :
    fadeChannel x len .noFade fs a b = .ok x := by
  cases a <;> cases b <;> rfl

/-- A fade of a single sample does not reach weight 1 at its inner edge: the linear fade
silences the sample, the exponential fade multiplies it by 10⁻⁵ and the logarithmic fade
makes it `nan`. -/
theorem C32_one_sample_fade (fs : ℕ) (len : ℝ) (hlen : 0 < len) (hl : ⌊len * fs⌋₊ = 1)
    (x : ℝ) (rest : List ℝ) (hr : rest ≠ []) :
    fadeVec ((x :: rest).map some) len .linear fs true = .ok (some 0 :: rest.map some) ∧
    fadeVec ((x :: rest).map some) len .exponential fs true =
      .ok (some (x * 10 ^ (-5 : ℝ)) :: rest.map some) ∧
    fadeVec ((x :: rest).map some) len .logarithmic fs true = .ok (none :: rest.map some) := by
  have hlt : ¬ ¬ (1 < ((x :: rest).map some).length) := by
    have : 0 < rest.length := List.length_pos_of_ne_nil hr
    simp
    omega
  have hws : ∀ w0 : Option ℝ, weighStart ((x :: rest).map some) [w0] =
      nanMul (some x) w0 :: rest.map some := by
    intro w0
    unfold weighStart
    apply List.ext_getElem
    · simp
    · intro i h1 h2
      cases i with
      | zero => simp
      | succ i =>
        have hi : i < rest.length := by simpa using h2
        simp [hi]
  refine ⟨?_, ?_, ?_⟩
  · unfold fadeVec
    rw [if_neg (by decide), if_neg (not_not.mpr hlen)]
    have : fadeArray .linear 1 = .ok [some 0] := by simp [fadeArray, linspace]
    simp only [hl, this, if_neg hlt, if_true, hws]
    simp [nanMul]
  · unfold fadeVec
    rw [if_neg (by decide), if_neg (not_not.mpr hlen)]
    have : fadeArray .exponential 1 = .ok [some (10 ^ (-5 : ℝ))] := by
      simp [fadeArray, linspace]
      norm_num
    simp only [hl, this, if_neg hlt, if_true, hws]
    rfl
  · unfold fadeVec
    rw [if_neg (by decide), if_neg (not_not.mpr hlen)]
    have : fadeArray .logarithmic 1 = .ok [none] := by simp [fadeArray, linspace]
    simp only [hl, this, if_neg hlt, if_true, hws]
    simp [nanMul]

/-- A fade shorter than one sample leaves the signal unchanged, except that the logarithmic
fade raises IndexError. -/
theorem C32_zero_sample_fade (fs : ℕ) (len : ℝ) (hlen : 0 < len) (hl : ⌊len * fs⌋₊ = 0)
    (x : List (Option ℝ)) (hx : x ≠ []) :
    fadeVec x len .linear fs true = .ok x ∧
    fadeVec x len .logarithmic fs true = .error .indexError := by
  have hlt : ¬ ¬ (0 < x.length) := not_not.mpr (List.length_pos_of_ne_nil hx)
  constructor
  · unfold fadeVec
    rw [if_neg (by decide), if_neg (not_not.mpr hlen)]
    have : fadeArray .linear 0 = .ok [] := by simp [fadeArray, linspace]
    simp only [hl, this, if_neg hlt, if_true]
    congr 1
    unfold weighStart
    apply List.ext_getElem
    · simp
    · intro i h1 h2
      simp [h2]
  · unfold fadeVec
    rw [if_neg (by decide), if_neg (not_not.mpr hlen)]
    have : fadeArray .logarithmic 0 = .error .indexError := by simp [fadeArray, linspace]
    simp only [hl, this, if_neg hlt]

/-- Concrete case: a fade of half a second at 8 Hz covers four samples. -/
example : ⌊((1 / 2 : ℝ)) * (8 : ℕ)⌋₊ = 4 := by
  have : ((1 / 2 : ℝ)) * (8 : ℕ) = ((4 : ℕ) : ℝ) := by norm_num
  rw [this, Nat.floor_natCast]

end Verif.Fade

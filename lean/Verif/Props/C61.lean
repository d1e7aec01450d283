import Verif.Model.RoomDescriptors
import Verif.Lemmas.Peak
import Verif.Lemmas.LFilter
import Mathlib.Algebra.BigOperators.Field
import Mathlib.Algebra.Order.BigOperators.Group.List
import Mathlib.Tactic.FieldSimp
import Mathlib.Tactic.Ring
import Mathlib.Tactic.NormNum
import Mathlib.Tactic.Linarith

/-!
# C61: start of an impulse response, definition, clarity and center time

"For every impulse response the start is the last sample before the peak that is below the
threshold relative to the peak; D50 is the part of the energy after the start that arrives within
50 ms, C80 the ratio in dB of the energies before and after 80 ms, the center time the centre of
gravity of the energy; none of them depends on the level of the response or on silence before it."
-/

namespace Verif.Room

open Verif.Level Finset

/-! ## Specification -/

/-- Sample `n`. -/
def at_ (x : List ℝ) (n : ℕ) : ℝ := x.getD n 0

/-- `s` is the start of the response for the threshold `db` below its first peak `p`: no sample
after `s` and up to the peak is below the threshold, and `s` itself is below it, or is the first
sample. -/
def IsStart (db : ℝ) (x : List ℝ) (s : ℕ) : Prop :=
  ∃ p P, IsPeak x P ∧ p < x.length ∧ |at_ x p| = P ∧ (∀ i < p, |at_ x i| < P) ∧ s ≤ p ∧
    (∀ i, s < i → i ≤ p → P * 10 ^ (-|db| / 20) ≤ |at_ x i|) ∧
    (s = 0 ∨ |at_ x s| < P * 10 ^ (-|db| / 20))

/-- Energy of the samples `a, ..., b - 1`. -/
def energyIn (x : List ℝ) (a b : ℕ) : ℝ := ∑ n ∈ Ico a b, at_ x n ^ 2

/-! ## Lemmas -/

theorem descend_le (below : ℕ → Prop) (n : ℕ) : descend below n ≤ n := by
  induction n with
  | zero => exact le_rfl
  | succ n ih =>
    unfold descend
    split_ifs
    · exact le_rfl
    · omega

theorem descend_above (below : ℕ → Prop) (n i : ℕ) (h : descend below n < i) (hi : i ≤ n) :
    ¬ below i := by
  induction n with
  | zero => omega
  | succ n ih =>
    unfold descend at h
    split_ifs at h with hb
    · omega
    · rcases Nat.lt_or_ge n i with h' | h'
      · rwa [show i = n + 1 by omega]
      · exact ih h h'

theorem descend_below (below : ℕ → Prop) (n : ℕ) : descend below n = 0 ∨ below (descend below n) := by
  induction n with
  | zero => exact Or.inl rfl
  | succ n ih =>
    unfold descend
    split_ifs with hb
    · exact Or.inr hb
    · exact ih

theorem getElem_abs (x : List ℝ) (i : ℕ) (h : i < x.length) :
    (x.map fun v => |v|)[i]'(by simpa using h) = |at_ x i| := by
  unfold at_
  rw [List.getElem_map, List.getD_eq_getElem _ _ h]

theorem argmaxAbs_spec (x : List ℝ) (hx : x ≠ []) :
    argmaxAbs x < x.length ∧ |at_ x (argmaxAbs x)| = maxAbs x ∧
      ∀ i < argmaxAbs x, |at_ x i| < maxAbs x := by
  obtain ⟨v, hv, hm⟩ := maxAbs_attained x hx
  have hmem : maxAbs x ∈ x.map fun v => |v| := List.mem_map.mpr ⟨v, hv, hm⟩
  have hlt := List.idxOf_lt_length_iff.mpr hmem
  have hlt' : argmaxAbs x < x.length := by simpa [argmaxAbs] using hlt
  refine ⟨hlt', ?_, fun i hi => ?_⟩
  · rw [← getElem_abs x _ hlt']
    exact List.getElem_idxOf hlt
  · have hi' : i < x.length := by omega
    refine lt_of_le_of_ne ?_ fun h => ?_
    · refine le_maxAbs x _ ?_
      unfold at_
      rw [List.getD_eq_getElem _ _ hi']
      exact List.getElem_mem hi'
    · have := List.not_of_lt_findIdx (p := (· == maxAbs x)) (xs := x.map fun v => |v|) (i := i) hi
      rw [getElem_abs x i hi', h] at this
      simp at this

theorem fromDb_amp (db : ℝ) : fromDb db true = 10 ^ (db / 20) := rfl

theorem threshold_eq (db : ℝ) (x : List ℝ) (hx : x ≠ []) :
    threshold db x = maxAbs x * 10 ^ (-|db| / 20) := by
  unfold threshold
  rw [fromDb_amp]
  have := (argmaxAbs_spec x hx).2.1
  unfold at_ at this
  rw [this]

theorem isStart_unique (db : ℝ) (x : List ℝ) (s s' : ℕ) (h : IsStart db x s)
    (h' : IsStart db x s') : s = s' := by
  obtain ⟨p, P, hP, hp, hpv, hpf, hsp, hab, hbe⟩ := h
  obtain ⟨p', P', hP', hp', hpv', hpf', hsp', hab', hbe'⟩ := h'
  have hPP : P = P' := by rw [isPeak_iff x P hP, isPeak_iff x P' hP']
  subst hPP
  have hpp : p = p' := by
    rcases lt_trichotomy p p' with h | h | h
    · exact absurd hpv (hpf' p h).ne
    · exact h
    · exact absurd hpv' (hpf p' h).ne
  subst hpp
  rcases lt_trichotomy s s' with h | h | h
  · rcases hbe' with h0 | h0
    · omega
    · exact absurd (hab s' h hsp') (not_le.mpr h0)
  · exact h
  · rcases hbe with h0 | h0
    · omega
    · exact absurd (hab' s h hsp) (not_le.mpr h0)

theorem energy_eq (x : List ℝ) : energy x = ∑ n ∈ range x.length, at_ x n ^ 2 := by
  induction x with
  | nil => rfl
  | cons a x ih =>
    have : energy (a :: x) = a ^ 2 + energy x := by simp [energy]
    rw [this, ih, List.length_cons, sum_range_succ']
    simp [at_, add_comm]

theorem energy_nonneg (x : List ℝ) : 0 ≤ energy x := by
  rw [energy_eq]
  exact sum_nonneg fun n _ => sq_nonneg _

theorem energy_append (x y : List ℝ) : energy (x ++ y) = energy x + energy y := by
  simp [energy]

theorem energy_take_drop (x : List ℝ) (w : ℕ) : energy (x.take w) + energy (x.drop w) = energy x := by
  rw [← energy_append, List.take_append_drop]

/-- Energies of slices. -/
theorem energy_slice (x : List ℝ) (a w : ℕ) :
    energy ((x.drop a).take w) = energyIn x a (a + w) ∧ energy (x.drop a) = energyIn x a x.length := by
  have key : ∀ (y : List ℝ) (b : ℕ), energy (y.take b) = ∑ n ∈ range b, at_ y n ^ 2 := by
    intro y b
    rw [energy_eq, List.length_take]
    have h1 : ∀ n, at_ (y.take b) n = if n < b then at_ y n else 0 := by
      intro n
      unfold at_
      rw [List.getD_eq_getElem?_getD, List.getElem?_take]
      split_ifs
      · rw [List.getD_eq_getElem?_getD]
      · rfl
    simp only [h1]
    rw [sum_congr rfl (g := fun n => at_ y n ^ 2) fun n hn => by
      have := mem_range.mp hn
      rw [if_pos (by omega)]]
    refine sum_subset (fun n hn => mem_range.mpr (by have := mem_range.mp hn; omega)) fun n hn hn' => ?_
    have h2 := mem_range.mp hn
    have h3 : y.length ≤ n := by
      by_contra h
      exact hn' (mem_range.mpr (by omega))
    unfold at_
    rw [List.getD_eq_default _ _ h3]
    ring
  have hd : ∀ n, at_ (x.drop a) n = at_ x (a + n) := by
    intro n
    unfold at_
    rw [LFilter.getD_drop]
  constructor
  · rw [key]
    unfold energyIn
    rw [sum_Ico_eq_sum_range, Nat.add_sub_cancel_left]
    exact sum_congr rfl fun n _ => by rw [hd]
  · rw [energy_eq, List.length_drop]
    unfold energyIn
    rw [sum_Ico_eq_sum_range]
    exact sum_congr rfl fun n _ => by rw [hd]

/-! ## The start -/

/-- `find_ir_start` finds the start, for every response and threshold; it is the only one. -/
theorem C61_start (db : ℝ) (x : List ℝ) (hx : x ≠ []) (s : ℕ) :
    irStart db x = s ↔ IsStart db x s := by
  have h : IsStart db x (irStart db x) := by
    obtain ⟨h1, h2, h3⟩ := argmaxAbs_spec x hx
    refine ⟨argmaxAbs x, maxAbs x, isPeak_maxAbs x hx, h1, h2, h3, descend_le _ _, ?_, ?_⟩
    · intro i hi hip
      have := descend_above _ _ _ hi hip
      rw [threshold_eq db x hx] at this
      exact not_lt.mp this
    · have := descend_below (fun i => |x.getD i 0| < threshold db x) (argmaxAbs x)
      rw [threshold_eq db x hx] at this
      unfold irStart
      rw [threshold_eq db x hx]
      exact this
  constructor
  · rintro rfl
    exact h
  · intro h'
    exact isStart_unique db x _ _ h h'

theorem at_map (x : List ℝ) (c : ℝ) (n : ℕ) : at_ (x.map (· * c)) n = at_ x n * c := by
  unfold at_
  rw [List.getD_eq_getElem?_getD, List.getD_eq_getElem?_getD, List.getElem?_map]
  cases x[n]? <;> simp

theorem isStart_scale (db : ℝ) (x : List ℝ) (c : ℝ) (hc : c ≠ 0) (s : ℕ) (h : IsStart db x s) :
    IsStart db (x.map (· * c)) s := by
  obtain ⟨p, P, hP, hp, hpv, hpf, hsp, hab, hbe⟩ := h
  have hc' : 0 < |c| := abs_pos.mpr hc
  refine ⟨p, P * |c|, ⟨?_, ?_⟩, by simpa using hp, ?_, fun i hi => ?_, hsp, fun i h1 h2 => ?_, ?_⟩
  · intro v hv
    obtain ⟨u, hu, rfl⟩ := List.mem_map.mp hv
    rw [abs_mul]
    exact mul_le_mul_of_nonneg_right (hP.1 u hu) hc'.le
  · obtain ⟨u, hu, hu'⟩ := hP.2
    exact ⟨u * c, List.mem_map.mpr ⟨u, hu, rfl⟩, by rw [abs_mul, hu']⟩
  · rw [at_map, abs_mul, hpv]
  · rw [at_map, abs_mul]
    exact mul_lt_mul_of_pos_right (hpf i hi) hc'
  · rw [at_map, abs_mul, mul_right_comm]
    exact mul_le_mul_of_nonneg_right (hab i h1 h2) hc'.le
  · rcases hbe with h0 | h0
    · exact Or.inl h0
    · right
      rw [at_map, abs_mul, mul_right_comm]
      exact mul_lt_mul_of_pos_right h0 hc'

/-- The start does not depend on the level or the polarity of the response. -/
theorem C61_start_level (db : ℝ) (x : List ℝ) (hx : x ≠ []) (c : ℝ) (hc : c ≠ 0) :
    irStart db (x.map (· * c)) = irStart db x :=
  (C61_start db _ (by simpa using hx) _).mpr
    (isStart_scale db x c hc _ ((C61_start db x hx _).mp rfl))

/-! ## Definition and clarity -/

/-- D50 is the part of the energy after the start that arrives in the first 50 ms; it lies between
0 and 1. -/
theorem C61_d50 (fs : ℕ) (x : List ℝ) (s : ℕ) (hs : IsStart (-20) x s) (v : ℝ)
    (h : d50 fs x = some v) :
    v * energyIn x s x.length = energyIn x s (s + 50 * fs / 1000) ∧ 0 ≤ v ∧ v ≤ 1 := by
  have hx : x ≠ [] := by
    rintro rfl
    obtain ⟨p, P, -, hp, -⟩ := hs
    simp at hp
  unfold d50 at h
  rw [(C61_start (-20) x hx s).mpr hs] at h
  dsimp only at h
  by_cases h0 : energy (x.drop s) = 0
  · rw [if_pos h0] at h; cases h
  rw [if_neg h0] at h
  cases h
  have hpos : 0 < energy (x.drop s) := lt_of_le_of_ne (energy_nonneg _) (Ne.symm h0)
  rw [← (energy_slice x s (50 * fs / 1000)).1, ← (energy_slice x s 0).2]
  refine ⟨div_mul_cancel₀ _ h0, div_nonneg (energy_nonneg _) hpos.le, (div_le_one hpos).mpr ?_⟩
  have := energy_take_drop (x.drop s) (50 * fs / 1000)
  have := energy_nonneg ((x.drop s).drop (50 * fs / 1000))
  linarith

/-- It is a number for every response that is not silent. -/
theorem C61_d50_defined (fs : ℕ) (x : List ℝ) (hx : ∃ v ∈ x, v ≠ 0) : ∃ v, d50 fs x = some v := by
  have hne : x ≠ [] := by rintro rfl; simp at hx
  have hm : maxAbs x ≠ 0 := by
    obtain ⟨v, hv, hn⟩ := hx
    exact fun h => hn ((maxAbs_zero_iff x).mp h v hv)
  obtain ⟨h1, h2, -⟩ := argmaxAbs_spec x hne
  unfold d50
  dsimp only
  rw [if_neg]
  · exact ⟨_, rfl⟩
  · rw [(energy_slice x _ 0).2]
    unfold energyIn
    intro h
    have hle : irStart (-20) x ≤ argmaxAbs x := descend_le _ _
    have := (sum_eq_zero_iff_of_nonneg fun n _ => sq_nonneg (at_ x n)).mp h (argmaxAbs x)
      (mem_Ico.mpr ⟨hle, h1⟩)
    have h0 : at_ x (argmaxAbs x) = 0 := pow_eq_zero_iff two_ne_zero |>.mp this
    rw [h0, abs_zero] at h2
    exact hm h2.symm

/-- C80 is the ratio in dB of the energies in and after the first 80 ms. -/
theorem C61_c80 (fs : ℕ) (x : List ℝ) (s : ℕ) (hs : IsStart (-20) x s) (v : ℝ)
    (h : c80 fs x = some v) :
    10 ^ (v / 10) * energyIn x (s + 80 * fs / 1000) x.length = energyIn x s (s + 80 * fs / 1000) := by
  have hx : x ≠ [] := by
    rintro rfl
    obtain ⟨p, P, -, hp, -⟩ := hs
    simp at hp
  unfold c80 at h
  rw [(C61_start (-20) x hx s).mpr hs] at h
  dsimp only at h
  by_cases h0 : energy ((x.drop s).take (80 * fs / 1000)) = 0 ∨
      energy ((x.drop s).drop (80 * fs / 1000)) = 0
  · rw [if_pos h0] at h; cases h
  rw [if_neg h0] at h
  push Not at h0
  cases h
  have hE : 0 < energy ((x.drop s).take (80 * fs / 1000)) :=
    lt_of_le_of_ne (energy_nonneg _) h0.1.symm
  have hL : 0 < energy ((x.drop s).drop (80 * fs / 1000)) :=
    lt_of_le_of_ne (energy_nonneg _) h0.2.symm
  rw [← (energy_slice x s (80 * fs / 1000)).1, ← (energy_slice x _ 0).2]
  rw [List.drop_drop] at hL h0 ⊢
  rw [mul_div_cancel_left₀ _ (by norm_num), Real.rpow_logb (by norm_num) (by norm_num)
    (div_pos hE hL)]
  exact div_mul_cancel₀ _ h0.2

theorem energy_scale (x : List ℝ) (c : ℝ) : energy (x.map (· * c)) = energy x * c ^ 2 := by
  rw [energy_eq, energy_eq, List.length_map, sum_mul]
  exact sum_congr rfl fun n _ => by rw [at_map]; ring

/-- Neither depends on the level of the response. -/
theorem C61_level (fs : ℕ) (x : List ℝ) (hx : x ≠ []) (c : ℝ) (hc : c ≠ 0) :
    d50 fs (x.map (· * c)) = d50 fs x ∧ c80 fs (x.map (· * c)) = c80 fs x := by
  have hc2 : c ^ 2 ≠ 0 := pow_ne_zero 2 hc
  constructor
  · unfold d50
    rw [C61_start_level (-20) x hx c hc]
    dsimp only
    rw [← List.map_drop, ← List.map_take, energy_scale, energy_scale, mul_div_mul_right _ _ hc2]
    simp only [mul_eq_zero, hc2, or_false]
  · unfold c80
    rw [C61_start_level (-20) x hx c hc]
    dsimp only
    rw [← List.map_drop, ← List.map_take, ← List.map_drop, energy_scale, energy_scale,
      mul_div_mul_right _ _ hc2]
    simp only [mul_eq_zero, hc2, or_false]

/-! ## Silence before the response -/

theorem at_pad (k : ℕ) (x : List ℝ) (n : ℕ) :
    at_ (List.replicate k 0 ++ x) n = if n < k then 0 else at_ x (n - k) := by
  unfold at_
  split_ifs with h
  · rw [List.getD_append _ _ _ _ (by simpa using h), List.getD_eq_getElem _ _ (by simpa using h),
      List.getElem_replicate]
  · rw [List.getD_append_right _ _ _ _ (by simpa using h), List.length_replicate]

theorem isPeak_pad (k : ℕ) (x : List ℝ) (P : ℝ) (hP : IsPeak x P) :
    IsPeak (List.replicate k 0 ++ x) P := by
  obtain ⟨u, hu, hu'⟩ := hP.2
  refine ⟨fun v hv => ?_, u, List.mem_append_right _ hu, hu'⟩
  rcases List.mem_append.mp hv with h | h
  · rw [(List.mem_replicate.mp h).2, abs_zero, ← hu']
    exact abs_nonneg u
  · exact hP.1 v h

/-- Silence before the response moves the start by the duration of the silence, if the response
contains a sample below the threshold before its peak... -/
theorem C61_silence_start_partial (db : ℝ) (x : List ℝ) (k s : ℕ) (hx : ∃ v ∈ x, v ≠ 0)
    (h : IsStart db x s)
    (hb : ∀ P, IsPeak x P → |at_ x s| < P * 10 ^ (-|db| / 20)) :
    irStart db (List.replicate k 0 ++ x) = k + s := by
  obtain ⟨p, P, hP, hp, hpv, hpf, hsp, hab, -⟩ := h
  have hP0 : 0 < P := by
    obtain ⟨v, hv, hn⟩ := hx
    exact lt_of_lt_of_le (abs_pos.mpr hn) (hP.1 v hv)
  refine (C61_start db _ (by
    intro h
    rw [List.append_eq_nil_iff] at h
    rw [h.2] at hp
    simp at hp) _).mpr ⟨k + p, P, isPeak_pad k x P hP, ?_, ?_, fun i hi => ?_, by omega,
      fun i h1 h2 => ?_, Or.inr ?_⟩
  · rw [List.length_append, List.length_replicate]
    omega
  · rw [at_pad, if_neg (by omega), Nat.add_sub_cancel_left, hpv]
  · rw [at_pad]
    split_ifs with h
    · simpa using hP0
    · exact hpf _ (by omega)
  · rw [at_pad, if_neg (by omega)]
    exact hab _ (by omega) (by omega)
  · rw [at_pad, if_neg (by omega), Nat.add_sub_cancel_left]
    exact hb P hP

/-- ... and then D50 and C80 do not change. -/
theorem C61_silence_partial (fs : ℕ) (x : List ℝ) (k s : ℕ) (hx : ∃ v ∈ x, v ≠ 0)
    (h : IsStart (-20) x s)
    (hb : ∀ P, IsPeak x P → |at_ x s| < P * 10 ^ (-|(-20 : ℝ)| / 20)) :
    d50 fs (List.replicate k 0 ++ x) = d50 fs x ∧ c80 fs (List.replicate k 0 ++ x) = c80 fs x := by
  have h1 := C61_silence_start_partial (-20) x k s hx h hb
  have hne : x ≠ [] := by rintro rfl; simp at hx
  have h2 := (C61_start (-20) x hne s).mpr h
  have hd : (List.replicate k (0 : ℝ) ++ x).drop (k + s) = x.drop s := by
    rw [List.drop_append, List.length_replicate, Nat.add_sub_cancel_left,
      List.drop_eq_nil_of_le (by simp), List.nil_append]
  unfold d50 c80
  rw [h1, h2, hd]
  exact ⟨rfl, rfl⟩

/-- A response that starts at once (no sample below the threshold up to its peak) is treated
differently when there is silence before it: the start is the last silent sample, one sample too
early. -/
theorem C61_silence_start_early (db : ℝ) (x : List ℝ) (k : ℕ) (hx : ∃ v ∈ x, v ≠ 0)
    (h : IsStart db x 0) (hb : ∀ P, IsPeak x P → P * 10 ^ (-|db| / 20) ≤ |at_ x 0|) :
    irStart db (List.replicate (k + 1) 0 ++ x) = k ∧ irStart db x = 0 := by
  have hne : x ≠ [] := by rintro rfl; simp at hx
  refine ⟨?_, (C61_start db x hne 0).mpr h⟩
  obtain ⟨p, P, hP, hp, hpv, hpf, hsp, hab, -⟩ := h
  have hP0 : 0 < P := by
    obtain ⟨v, hv, hn⟩ := hx
    exact lt_of_lt_of_le (abs_pos.mpr hn) (hP.1 v hv)
  refine (C61_start db _ (by simp) _).mpr ⟨k + 1 + p, P, isPeak_pad _ x P hP, ?_, ?_,
    fun i hi => ?_, by omega, fun i h1 h2 => ?_, Or.inr ?_⟩
  · rw [List.length_append, List.length_replicate]
    omega
  · rw [at_pad, if_neg (by omega), Nat.add_sub_cancel_left, hpv]
  · rw [at_pad]
    split_ifs with h
    · simpa using hP0
    · exact hpf _ (by omega)
  · rw [at_pad, if_neg (by omega)]
    rcases Nat.eq_zero_or_pos (i - (k + 1)) with h0 | h0
    · rw [h0]
      exact hb P hP
    · exact hab _ h0 (by omega)
  · rw [at_pad, if_pos (by omega), abs_zero]
    positivity

/-- So D50 depends on silence before the response: at a rate where 50 ms are one sample, two equal
samples have D50 1/2 and, after one silent sample, 0. -/
theorem C61_silence_changes_d50 : d50 20 [1, 1] = some (1 / 2) ∧ d50 20 [0, 1, 1] = some 0 := by
  have hpk : IsPeak ([1, 1] : List ℝ) 1 := ⟨by simp, 1, by simp, by simp⟩
  have h0 : IsStart (-20) ([1, 1] : List ℝ) 0 :=
    ⟨0, 1, hpk, by simp, by simp [at_], by simp, le_rfl, fun i h1 h2 => by omega, Or.inl rfl⟩
  obtain ⟨h1, h2⟩ := C61_silence_start_early (-20) [1, 1] 0 ⟨1, by simp, one_ne_zero⟩ h0 (by
    intro P hP
    rw [isPeak_iff _ P hP, ← isPeak_iff _ 1 hpk]
    simp only [at_, List.getD_cons_zero, abs_one, one_mul]
    exact Real.rpow_le_one_of_one_le_of_nonpos (by norm_num) (by norm_num))
  simp only [zero_add, List.replicate_one, List.cons_append, List.nil_append] at h1
  unfold d50
  rw [h1, h2]
  norm_num [energy]

/-! ## Center time -/

theorem mapIdx_sum (l : List ℝ) (f : ℕ → ℝ) :
    (l.mapIdx fun n v => v * f n).sum = ∑ n ∈ range l.length, l.getD n 0 * f n := by
  induction l generalizing f with
  | nil => simp
  | cons a l ih =>
    rw [List.mapIdx_cons, List.sum_cons, ih fun n => f (n + 1), List.length_cons, sum_range_succ']
    simp [add_comm]

/-- The center time is the centre of gravity of the energy after the start, but multiplied by
`L / (L - 1)`, where `L` is the number of samples after the start (the time axis ends at `L / fs`
instead of `(L - 1) / fs`). -/
theorem C61_center_time_partial (fs : ℕ) (x : List ℝ) (s : ℕ) (hs : IsStart (-20) x s)
    (v : ℝ) (h : centerTime fs x = some v) (hL : 2 ≤ x.length - s) :
    v * energyIn x s x.length = ((x.length - s : ℕ) : ℝ) / ((x.length - s : ℕ) - 1) *
      ∑ n ∈ Ico s x.length, ((n - s : ℕ) : ℝ) / fs * at_ x n ^ 2 := by
  have hx : x ≠ [] := by
    rintro rfl
    simp at hL
  unfold centerTime at h
  rw [(C61_start (-20) x hx s).mpr hs] at h
  dsimp only at h
  have hE : ((x.drop s).map (· ^ 2)).sum = energyIn x s x.length := (energy_slice x s 0).2
  by_cases h0 : ((x.drop s).map (· ^ 2)).sum = 0
  · rw [if_pos h0] at h; cases h
  rw [if_neg h0] at h
  cases h
  rw [← hE, div_mul_cancel₀ _ h0, mapIdx_sum, sum_Ico_eq_sum_range, mul_sum, List.length_map,
    List.length_drop]
  refine sum_congr rfl fun n hn => ?_
  have hn' := mem_range.mp hn
  rw [List.getD_eq_getElem _ _ (by simpa using hn'), List.getElem_map, List.getElem_drop]
  unfold at_ timeVector
  rw [List.getD_eq_getElem _ _ (by omega), Nat.add_sub_cancel_left,
    Nat.cast_sub (show 1 ≤ x.length - s by omega)]
  push_cast
  ring

/-- Hence it is wrong for every response with energy after the first sample. -/
theorem C61_center_time_wrong (fs : ℕ) (hfs : 0 < fs) (x : List ℝ) (s : ℕ) (hs : IsStart (-20) x s)
    (v : ℝ) (h : centerTime fs x = some v) (m : ℕ) (hm : s < m) (hml : m < x.length)
    (hnz : at_ x m ≠ 0) :
    v * energyIn x s x.length ≠ ∑ n ∈ Ico s x.length, ((n - s : ℕ) : ℝ) / fs * at_ x n ^ 2 := by
  rw [C61_center_time_partial fs x s hs v h (by omega)]
  have hfs' : (0 : ℝ) < fs := by exact_mod_cast hfs
  have hpos : 0 < ∑ n ∈ Ico s x.length, ((n - s : ℕ) : ℝ) / fs * at_ x n ^ 2 := by
    refine sum_pos' (fun n _ => by positivity) ⟨m, mem_Ico.mpr ⟨hm.le, hml⟩, ?_⟩
    have : (0 : ℝ) < ((m - s : ℕ) : ℝ) := by exact_mod_cast Nat.sub_pos_of_lt hm
    have := sq_pos_of_ne_zero hnz
    positivity
  have hL : (2 : ℝ) ≤ ((x.length - s : ℕ) : ℝ) := by
    exact_mod_cast (show 2 ≤ x.length - s by omega)
  intro he
  have h1 : ((x.length - s : ℕ) : ℝ) / ((x.length - s : ℕ) - 1) = 1 := by
    refine mul_right_cancel₀ hpos.ne' ?_
    rw [one_mul]
    exact he
  rw [div_eq_one_iff_eq (by linarith)] at h1
  linarith

/-! ## Concrete cases -/

example : IsStart (-20) ([0.01, 0.02, 0.5, -1, 0.3] : List ℝ) 1 := by
  have hthr : (10 : ℝ) ^ (-|(-20 : ℝ)| / 20) = 1 / 10 := by
    rw [show -|(-20 : ℝ)| / 20 = -1 by norm_num, Real.rpow_neg_one]
    norm_num
  refine ⟨3, 1, ⟨?_, -1, by simp, by simp⟩, by simp, by simp [at_], ?_, by norm_num, ?_, Or.inr ?_⟩
  · intro v hv
    simp only [List.mem_cons, List.not_mem_nil, or_false] at hv
    rcases hv with rfl | rfl | rfl | rfl | rfl <;> rw [abs_le] <;> norm_num
  · intro i hi
    have : i = 0 ∨ i = 1 ∨ i = 2 := by omega
    rcases this with rfl | rfl | rfl <;> simp only [at_] <;> norm_num [abs_lt]
  · intro i h1 h2
    rw [hthr]
    have : i = 2 ∨ i = 3 := by omega
    rcases this with rfl | rfl <;> norm_num [at_, abs_of_pos]
  · rw [hthr]
    norm_num [at_, abs_of_pos]

end Verif.Room

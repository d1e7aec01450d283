import Verif.Model.Level
import Mathlib.Tactic.NormNum
import Mathlib.Tactic.Linarith
import Mathlib.Tactic.Positivity
import Mathlib.Tactic.FieldSimp

/-!
# C30: decibel conversions
-/

namespace Verif.Level

theorem dbFactor_pos (a : Bool) : 0 < dbFactor a := by cases a <;> norm_num [dbFactor]

theorem fromDb_pos (g : ℝ) (a : Bool) : 0 < fromDb g a := by
  unfold fromDb
  positivity

theorem fromDb_log (a : Bool) (y : ℝ) (hy : 0 < y) :
    fromDb (dbFactor a * Real.logb 10 y) a = y := by
  unfold fromDb
  have := (dbFactor_pos a).ne'
  rw [mul_div_cancel_left₀ _ this, Real.rpow_logb (by norm_num) (by norm_num) hy]

theorem log_fromDb (a : Bool) (g : ℝ) : dbFactor a * Real.logb 10 (fromDb g a) = g := by
  unfold fromDb
  have := (dbFactor_pos a).ne'
  rw [Real.logb_rpow (by norm_num) (by norm_num)]
  field_simp

/-- Back from decibels: with a floor `m > 0`, every value whose magnitude is not below the
floor is recovered up to its sign, for amplitudes and powers. -/
theorem C30_from_to (x : List ℝ) (a : Bool) (m : ℝ) (hm : 0 < m) :
    ∃ y, toDb x a none (some m) = .ok y ∧ y.length = x.length ∧
      ∀ i (hi : i < x.length), m ≤ |x[i]| →
        ∃ d : ℝ, y[i]? = some (d : WithBot ℝ) ∧ fromDb d a = |x[i]| := by
  refine ⟨_, rfl, by simp, fun i hi h => ?_⟩
  have hpos : 0 < |x[i]| := lt_of_lt_of_le hm h
  refine ⟨dbFactor a * Real.logb 10 |x[i]|, ?_, fromDb_log a _ hpos⟩
  have hc : clipMin m |x[i]| = |x[i]| := max_eq_left h
  simp only [List.getElem?_map, List.getElem?_eq_getElem hi, Option.map_some, hc, logDb,
    hpos.ne', if_false]

/-- The floor clamps: smaller values all get the level of the floor. -/
theorem C30_floor (x : List ℝ) (a : Bool) (m : ℝ) (hm : 0 < m) :
    ∃ y, toDb x a none (some m) = .ok y ∧
      ∀ i (hi : i < x.length), ∃ d : ℝ, y[i]? = some (d : WithBot ℝ) ∧
        fromDb d a = max |x[i]| m := by
  refine ⟨_, rfl, fun i hi => ?_⟩
  have hpos : 0 < max |x[i]| m := lt_of_lt_of_le hm (le_max_right _ _)
  refine ⟨dbFactor a * Real.logb 10 (max |x[i]| m), ?_, fromDb_log a _ hpos⟩
  simp only [List.getElem?_map, List.getElem?_eq_getElem hi, Option.map_some, clipMin, logDb,
    hpos.ne', if_false]

/-- Decibels to values and back: exact when no floor is set, and with a floor for every
level that is not below it. -/
theorem C30_to_from (g : List ℝ) (a : Bool) :
    toDb (g.map fun d => fromDb d a) a none none = .ok (g.map (WithBot.some : ℝ → WithBot ℝ)) ∧
    ∀ m, (∀ d ∈ g, m ≤ fromDb d a) →
      toDb (g.map fun d => fromDb d a) a none (some m) = .ok (g.map (WithBot.some : ℝ → WithBot ℝ)) := by
  constructor
  · simp only [toDb, List.map_map]
    congr 1
    refine List.map_congr_left fun d _ => ?_
    have hp := fromDb_pos d a
    simp only [Function.comp, abs_of_pos hp, logDb, hp.ne', if_false, log_fromDb]
  · intro m hm
    simp only [toDb, List.map_map]
    congr 1
    refine List.map_congr_left fun d hd => ?_
    have hp := fromDb_pos d a
    have hc : clipMin m (fromDb d a) = fromDb d a := max_eq_left (hm d hd)
    simp only [Function.comp, abs_of_pos hp, hc, logDb, hp.ne', if_false, log_fromDb]

/-- Both directions are strictly increasing. -/
theorem C30_monotone (a : Bool) :
    (∀ g g' : ℝ, g < g' → fromDb g a < fromDb g' a) ∧
    (∀ y y' : ℝ, 0 ≤ y → y < y' → logDb (dbFactor a) y < logDb (dbFactor a) y') := by
  have hf := dbFactor_pos a
  constructor
  · intro g g' h
    unfold fromDb
    exact Real.rpow_lt_rpow_of_exponent_lt (by norm_num) (div_lt_div_of_pos_right h hf)
  · intro y y' hy h
    have hy' : 0 < y' := lt_of_le_of_lt hy h
    unfold logDb
    rw [if_neg hy'.ne']
    split_ifs with h0
    · exact WithBot.bot_lt_coe _
    · have hpos : 0 < y := lt_of_le_of_ne hy (Ne.symm h0)
      rw [WithBot.coe_lt_coe]
      exact mul_lt_mul_of_pos_left (Real.logb_lt_logb (by norm_num) hpos h) hf

theorem maxAbs_ge (x : List ℝ) : ∀ v ∈ x, |v| ≤ maxAbs x := by
  induction x with
  | nil => simp
  | cons u x ih =>
    intro v hv
    rcases List.mem_cons.mp hv with rfl | h
    · exact le_max_left _ _
    · exact le_trans (ih v h) (le_max_right _ _)

theorem maxAbs_mem (x : List ℝ) (hx : x ≠ []) : ∃ v ∈ x, maxAbs x = |v| := by
  induction x with
  | nil => exact absurd rfl hx
  | cons u x ih =>
    by_cases h : x = []
    · subst h
      exact ⟨u, by simp, by simp [maxAbs]⟩
    · obtain ⟨v, hv, hm⟩ := ih h
      have : maxAbs (u :: x) = max |u| (maxAbs x) := rfl
      rcases le_total (maxAbs x) |u| with h1 | h1
      · exact ⟨u, by simp, by rw [this, max_eq_left h1]⟩
      · exact ⟨v, by simp [hv], by rw [this, max_eq_right h1, hm]⟩

/-- Dynamic range: for an array with a non-zero value, the largest level is that of the
largest magnitude, no level is more than the range below it, and levels inside the range are
exact (whatever floor was given). -/
theorem C30_dynamic_range_partial (x : List ℝ) (a : Bool) (r : ℝ) (m : Option ℝ) (v0 : ℝ)
    (hv0 : v0 ∈ x) (h0 : v0 ≠ 0) :
    ∃ (y : List (WithBot ℝ)) (top : ℝ), toDb x a (some r) m = .ok y ∧ y.length = x.length ∧
      (∀ v ∈ x, |v| ≤ fromDb top a) ∧ (∃ v ∈ x, |v| = fromDb top a) ∧
      ∀ i (hi : i < x.length), ∃ d : ℝ, y[i]? = some (d : WithBot ℝ) ∧
        top - |r| ≤ d ∧ d ≤ top ∧ (x[i] ≠ 0 → top - |r| ≤ dbFactor a * Real.logb 10 |x[i]| →
          fromDb d a = |x[i]|) ∧ (fromDb (top - |r|) a ≤ fromDb d a) ∧
          (|x[i]| ≤ fromDb (top - |r|) a → d = top - |r|) := by
  have hne : x ≠ [] := List.ne_nil_of_mem hv0
  have hf := dbFactor_pos a
  have hmax : 0 < maxAbs x := lt_of_lt_of_le (abs_pos.mpr h0) (maxAbs_ge x v0 hv0)
  set top := dbFactor a * Real.logb 10 (maxAbs x) with htop
  have htopv : fromDb top a = maxAbs x := fromDb_log a _ hmax
  have hlo : maxAbs x * 10 ^ (-|r| / dbFactor a) = fromDb (top - |r|) a := by
    rw [← htopv]
    unfold fromDb
    rw [← Real.rpow_add (by norm_num)]
    congr 1
    ring
  refine ⟨x.map fun v => logDb (dbFactor a) (clipMin (maxAbs x * 10 ^ (-|r| / dbFactor a)) |v|),
    top, ?_, by simp, ?_, ?_, ?_⟩
  · simp only [toDb, hne, if_false]
  · intro v hv
    rw [htopv]
    exact maxAbs_ge x v hv
  · obtain ⟨v, hv, h⟩ := maxAbs_mem x hne
    exact ⟨v, hv, by rw [htopv, h]⟩
  · intro i hi
    set lo := fromDb (top - |r|) a with hlodef
    have hlopos : 0 < lo := fromDb_pos _ a
    have hpos : 0 < max |x[i]| lo := lt_of_lt_of_le hlopos (le_max_right _ _)
    have hmono := (C30_monotone a).1
    have hval : fromDb (dbFactor a * Real.logb 10 (max |x[i]| lo)) a = max |x[i]| lo :=
      fromDb_log a _ hpos
    have hinj : ∀ g g' : ℝ, fromDb g a ≤ fromDb g' a → g ≤ g' := by
      intro g g' h
      by_contra hc
      exact absurd (hmono g' g (not_le.mp hc)) (not_lt.mpr h)
    refine ⟨dbFactor a * Real.logb 10 (max |x[i]| lo), ?_, ?_, ?_, ?_, ?_, ?_⟩
    · simp only [List.getElem?_map, List.getElem?_eq_getElem hi, Option.map_some, clipMin, hlo,
        logDb, hpos.ne', if_false]
    · apply hinj
      rw [hval]
      exact le_max_right _ _
    · apply hinj
      rw [hval, htopv]
      refine max_le (maxAbs_ge x _ (List.getElem_mem hi)) ?_
      rw [← htopv, hlodef]
      rcases (abs_nonneg r).lt_or_eq with h | h
      · exact (hmono _ _ (by linarith)).le
      · rw [← h, sub_zero]
    · intro hx hge
      rw [hval]
      refine max_eq_left ?_
      have hxp : 0 < |x[i]| := abs_pos.mpr hx
      rw [← fromDb_log a _ hxp, hlodef]
      rcases hge.lt_or_eq with h | h
      · exact (hmono _ _ h).le
      · rw [h]
    · rw [hval]
      exact le_max_right _ _
    · intro hle
      rw [max_eq_right hle, hlodef, log_fromDb]

/-- A silent array: with a dynamic range the floor is ignored and every level is `-inf`. -/
theorem C30_silent_dynamic_range (n : ℕ) (a : Bool) (r : ℝ) (m : Option ℝ) :
    toDb (List.replicate (n + 1) 0) a (some r) m = .ok (List.replicate (n + 1) ⊥) := by
  have hne : List.replicate (n + 1) (0 : ℝ) ≠ [] := by simp
  have hmax : maxAbs (List.replicate (n + 1) 0) = 0 := by
    obtain ⟨v, hv, h⟩ := maxAbs_mem _ hne
    rw [h, List.eq_of_mem_replicate hv, abs_zero]
  simp only [toDb, hne, if_false, hmax, zero_mul, List.map_replicate, abs_zero, clipMin,
    max_self, logDb, if_true]

/-- Amplitudes and powers agree: the level of an amplitude is the level of its square. -/
theorem C30_power_level (g : ℝ) : (fromDb g true) ^ 2 = fromDb g false := by
  unfold fromDb dbFactor
  simp only [if_true, Bool.false_eq_true, if_false]
  rw [← Real.rpow_natCast, ← Real.rpow_mul (by norm_num)]
  congr 1
  push_cast
  ring

/-- Concrete cases: 20 dB is a factor of 10 for amplitudes and 100 for powers. -/
example : fromDb 20 true = 10 ∧ fromDb 20 false = 100 := by
  have h1 : fromDb 20 true = 10 := by norm_num [fromDb, dbFactor]
  exact ⟨h1, by rw [← C30_power_level, h1]; norm_num⟩

/-- Concrete case: the floor of the default (the smallest normal double) is positive. -/
example : (0 : ℝ) < 2 ^ (-1022 : ℤ) := by positivity

/-- A gain in decibels raises the level of every sample other than zero by that many decibels and keeps zeros;
gains add up, and a gain of 0 dB changes nothing. -/
theorem C30_amplify (s : List ℝ) (db db' : ℝ) :
    (amplifyDb s db).length = s.length ∧
    (∀ i < s.length, (s.getD i 0 = 0 → (amplifyDb s db).getD i 0 = 0) ∧
      (s.getD i 0 ≠ 0 → 20 * Real.logb 10 |(amplifyDb s db).getD i 0| = 20 * Real.logb 10 |s.getD i 0| + db)) ∧
    amplifyDb (amplifyDb s db) db' = amplifyDb s (db + db') ∧ amplifyDb s 0 = s := by
  unfold amplifyDb
  refine ⟨by simp, fun i hi => ?_, ?_, by simp⟩
  · have hg : (s.map (· * (10 : ℝ) ^ (db / 20))).getD i 0 = s.getD i 0 * 10 ^ (db / 20) := by
      simp [List.getD_eq_getElem?_getD, List.getElem?_map, List.getElem?_eq_getElem hi]
    rw [hg]
    have hp : (0 : ℝ) < 10 ^ (db / 20) := by positivity
    refine ⟨fun h => by rw [h, zero_mul], fun h => ?_⟩
    rw [abs_mul, abs_of_pos hp, Real.logb_mul (abs_ne_zero.2 h) hp.ne',
      Real.logb_rpow (by norm_num) (by norm_num)]
    ring
  · rw [List.map_map]
    refine List.map_congr_left fun v _ => ?_
    rw [Function.comp_apply, mul_assoc, ← Real.rpow_add (by norm_num), add_div]

end Verif.Level

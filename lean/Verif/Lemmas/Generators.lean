import Verif.Model.Generators
import Verif.Props.C32
import Verif.Spec.Peak
import Verif.Spec.Waves
import Mathlib.Algebra.BigOperators.Intervals
import Mathlib.Order.Interval.Finset.Nat

/-!
# Lemmas on the generators
-/

namespace Verif.Generators

open Fade Waves

theorem peakVec_some (x : List ℝ) (a : ℝ) (ha : 0 ≤ a) :
    ∃ p, (x.map some).foldl (fun acc v => match acc, v with
      | some a, some b => some (max a |b|)
      | _, _ => none) (some a) = some p ∧ a ≤ p ∧ (∀ v ∈ x, |v| ≤ p) ∧ (p = a ∨ ∃ v ∈ x, |v| = p) := by
  induction x generalizing a with
  | nil => exact ⟨a, rfl, le_refl _, by simp, .inl rfl⟩
  | cons b x ih =>
    obtain ⟨p, h1, h2, h3, h4⟩ := ih (max a |b|) (ha.trans (le_max_left _ _))
    refine ⟨p, h1, (le_max_left _ _).trans h2, fun v hv => ?_, ?_⟩
    · rcases List.mem_cons.1 hv with rfl | hv
      · exact (le_max_right _ _).trans h2
      · exact h3 v hv
    · rcases h4 with h4 | ⟨v, hv, h4⟩
      · rcases max_choice a |b| with h | h
        · exact .inl (h4.trans h)
        · exact .inr ⟨b, List.mem_cons_self, by rw [h4, h]⟩
      · exact .inr ⟨v, List.mem_cons_of_mem _ hv, h4⟩

/-- The peak of defined samples. -/
theorem peakVec_spec (x : List ℝ) (hx : x ≠ []) : ∃ p, peakVec (x.map some) = some p ∧ IsPeak x p := by
  obtain ⟨p, h1, h2, h3, h4⟩ := peakVec_some x 0 le_rfl
  refine ⟨p, h1, h3, ?_⟩
  rcases h4 with h4 | h4
  · obtain ⟨v, hv⟩ := List.exists_mem_of_ne_nil x hx
    exact ⟨v, hv, le_antisymm (h3 v hv) (h4 ▸ abs_nonneg v)⟩
  · exact h4

theorem peak_unique (x : List ℝ) (p q : ℝ) (hp : IsPeak x p) (hq : IsPeak x q) : p = q := by
  obtain ⟨h1, v, hv, h2⟩ := hp
  obtain ⟨h3, w, hw, h4⟩ := hq
  exact le_antisymm (h2 ▸ h3 v hv) (h4 ▸ h1 w hw)

theorem peakVec_none (x : List (Option ℝ)) (hx : none ∈ x) : peakVec x = none := by
  have hn : ∀ l : List (Option ℝ), l.foldl (fun acc v => match acc, v with
      | some a, some b => some (max a |b|)
      | _, _ => none) (none : Option ℝ) = none := by
    intro l
    induction l with
    | nil => rfl
    | cons a l ih => exact ih
  have h : ∀ (l : List (Option ℝ)) (a : Option ℝ), none ∈ l → l.foldl (fun acc v => match acc, v with
      | some a, some b => some (max a |b|)
      | _, _ => none) a = none := by
    intro l
    induction l with
    | nil => intro a h; cases h
    | cons b l ih =>
      intro a h
      rw [List.foldl_cons]
      rcases List.mem_cons.1 h with rfl | h
      · cases a <;> exact hn l
      · exact ih _ h
  exact h x _ hx

/-- Normalization of a vector that is not silent. -/
theorem normVec_ok (x : List ℝ) (P db : ℝ) (hP : IsPeak x P) (h0 : P ≠ 0) :
    normVec (x.map some) db = .ok ((x.map fun v => Level.fromDb db true / P * v).map some) := by
  have hx : x ≠ [] := by
    rintro rfl
    obtain ⟨-, v, hv, -⟩ := hP
    cases hv
  obtain ⟨p, h1, h2⟩ := peakVec_spec x hx
  rw [peak_unique x p P h2 hP] at h1
  unfold normVec
  rw [if_neg (by simpa using hx)]
  simp only [h1, if_neg h0, List.map_map]
  congr 1
  refine List.map_congr_left fun v _ => ?_
  simp only [Function.comp, nanMul]
  rw [mul_comm]

/-- Silence and undefined samples make everything undefined. -/
theorem normVec_nan (x : List (Option ℝ)) (db : ℝ) (hx : x ≠ [])
    (h : none ∈ x ∨ ∀ v ∈ x, v = some 0) : normVec x db = .ok (List.replicate x.length none) := by
  have hp : peakVec x = none ∨ peakVec x = some 0 := by
    rcases h with h | h
    · exact .inl (peakVec_none x h)
    · right
      have : ∀ l : List (Option ℝ), (∀ v ∈ l, v = some 0) → l.foldl (fun acc v => match acc, v with
          | some a, some b => some (max a |b|)
          | _, _ => none) (some (0 : ℝ)) = some 0 := by
        intro l
        induction l with
        | nil => intro _; rfl
        | cons b l ih =>
          intro h
          rw [List.foldl_cons, h b List.mem_cons_self]
          simp only [abs_zero, max_self]
          exact ih fun v hv => h v (List.mem_cons_of_mem _ hv)
      exact this x h
  unfold normVec
  rw [if_neg hx]
  have hm : ∀ v : Option ℝ, nanMul v none = none := by
    intro v
    cases v <;> rfl
  rcases hp with hp | hp
  · simp only [hp, hm]
    congr 1
    exact List.map_const'
  · simp only [hp, if_true, hm]
    congr 1
    exact List.map_const'

theorem getD_map_some (x : List ℝ) (i : ℕ) :
    (x.map some).getD i (some 0) = some (if i < x.length then x.getD i 0 else 0) := by
  by_cases h : i < x.length
  · rw [List.getD_eq_getElem _ _ (by simpa using h), if_pos h, List.getD_eq_getElem _ _ h]
    simp
  · rw [List.getD_eq_default _ _ (by simpa using h), if_neg h]

/-- The end of the generators, for a vector that is not silent and a fade of at least two samples. -/
theorem finish_value (x : List ℝ) (P : ℝ) (hP : IsPeak x P) (h0 : P ≠ 0) (len db : ℝ)
    (fade : Option FadeType) (fs total : ℕ)
    (hf : fade = none ∨ fade = some .noFade ∨
      0 < len ∧ 2 ≤ ⌊0.05 * len * fs⌋₊ ∧ ⌊0.05 * len * fs⌋₊ < x.length) :
    ∃ e, Envelope x.length ⌊0.05 * len * fs⌋₊ e ∧
      (fade = none ∨ fade = some .noFade → ∀ i, e i = 1) ∧
      finish (x.map some) len db fade fs total = .ok ((List.range total).map fun i =>
        some (if i < x.length then Level.fromDb db true / P * x.getD i 0 * e i else 0)) := by
  have hone : Envelope x.length ⌊0.05 * len * fs⌋₊ (fun _ => 1) :=
    ⟨fun _ _ => ⟨zero_le_one, le_rfl⟩, fun _ _ _ _ => rfl⟩
  have hget : ∀ i < x.length, (x.map fun v => Level.fromDb db true / P * v).getD i 0 =
      Level.fromDb db true / P * x.getD i 0 := by
    intro i hi
    rw [List.getD_eq_getElem _ _ (by simpa using hi), List.getD_eq_getElem _ _ hi]
    simp
  have hplain : ∀ total, (List.range total).map (fun i => ((x.map fun v => Level.fromDb db true / P * v).map
      some).getD i (some 0)) = (List.range total).map fun i =>
        some (if i < x.length then Level.fromDb db true / P * x.getD i 0 * 1 else 0) := by
    intro total
    refine List.map_congr_left fun i _ => ?_
    rw [getD_map_some, List.length_map]
    by_cases hi : i < x.length
    · rw [if_pos hi, if_pos hi, hget i hi, mul_one]
    · rw [if_neg hi, if_neg hi]
  unfold finish
  rw [normVec_ok x P db hP h0]
  simp only [bind, Except.bind, pure, Except.pure]
  by_cases hn : fade = none ∨ fade = some .noFade
  · refine ⟨fun _ => 1, hone, fun _ _ => rfl, ?_⟩
    rcases hn with rfl | rfl
    · simp only [hplain]
    · simp only [C32_no_fade, hplain]
  · obtain ⟨m, rfl⟩ : ∃ m, fade = some m := by
      cases fade with
      | none => exact absurd (.inl rfl) hn
      | some m => exact ⟨m, rfl⟩
    have hm : m ≠ .noFade := fun h => hn (.inr (by rw [h]))
    obtain ⟨hlen, hl2, hlt⟩ : 0 < len ∧ 2 ≤ ⌊0.05 * len * fs⌋₊ ∧ ⌊0.05 * len * fs⌋₊ < x.length := by
      rcases hf with h | h | h
      · exact absurd (.inl h) hn
      · exact absurd (.inr h) hn
      · exact h
    obtain ⟨w, y, hw, hy, hylen, hval⟩ := C32_fade_partial m hm fs (0.05 * len) (by positivity) hl2
      (x.map fun v => Level.fromDb db true / P * v) (by simpa using hlt) true true
    rw [List.length_map] at hylen hval
    simp only [true_and] at hval
    simp only [hy]
    set l := ⌊0.05 * len * fs⌋₊ with hl
    have hr : ∀ c : Prop, ∀ [Decidable c], ∀ k, (c → k < l) →
        0 ≤ (if c then w k else 1) ∧ (if c then w k else 1) ≤ 1 := by
      intro c _ k hk
      split_ifs with hc
      · exact hw.range k (hk hc)
      · exact ⟨zero_le_one, le_rfl⟩
    refine ⟨fun i => (if i < l then w i else 1) * (if x.length - 1 - i < l then w (x.length - 1 - i) else 1),
      ⟨fun i hi => ?_, fun i hi h1 h2 => ?_⟩, fun h => absurd h hn, ?_⟩
    · obtain ⟨a1, a2⟩ := hr (i < l) i id
      obtain ⟨b1, b2⟩ := hr (x.length - 1 - i < l) (x.length - 1 - i) id
      exact ⟨mul_nonneg a1 b1, mul_le_one₀ a2 b1 b2⟩
    · rw [if_neg (by omega), if_neg (by omega), one_mul]
    · congr 1
      refine List.map_congr_left fun i _ => ?_
      rw [getD_map_some, hylen]
      by_cases hi : i < x.length
      · rw [if_pos hi, if_pos hi, hval i hi, hget i hi, mul_assoc]
      · rw [if_neg hi, if_neg hi]

/-- The fade of 5 % is always shorter than the signal. -/
theorem fade_fits (len : ℝ) (hlen : 0 < len) (fs : ℕ) (h : 2 ≤ ⌊0.05 * len * fs⌋₊) :
    ⌊0.05 * len * fs⌋₊ < roundHalf (fs * len) := by
  have hp : (0 : ℝ) ≤ 0.05 * len * fs := by positivity
  have h1 : (⌊0.05 * len * fs⌋₊ : ℝ) ≤ 0.05 * len * fs := Nat.floor_le hp
  have h2 : (2 : ℝ) ≤ 0.05 * len * fs := le_trans (by exact_mod_cast h) h1
  unfold roundHalf
  refine Nat.lt_of_lt_of_le (Nat.lt_succ_self _) (Nat.le_floor ?_)
  push_cast
  nlinarith

open Classical in
theorem loopSum_eq (cond : ℕ → Prop) (term : ℕ → ℝ) (hc : ∀ k, cond (k + 1) → cond k) (fuel k : ℕ) (acc : ℝ) :
    loopSum cond term fuel k acc =
      acc + ∑ i ∈ Finset.Ico k (k + fuel), if cond i then term i else 0 := by
  induction fuel generalizing k acc with
  | zero => simp [loopSum]
  | succ fuel ih =>
    unfold loopSum
    by_cases h : cond k
    · rw [if_pos h, ih, Finset.sum_eq_sum_Ico_succ_bot (by omega : k < k + (fuel + 1)), if_pos h,
        show k + (fuel + 1) = k + 1 + fuel by omega, add_assoc]
    · rw [if_neg h]
      have : ∀ j, ¬ cond (k + j) := by
        intro j
        induction j with
        | zero => exact h
        | succ j ih => exact fun hj => ih (hc _ hj)
      rw [Finset.sum_eq_zero, add_zero]
      intro i hi
      rw [Finset.mem_Ico] at hi
      rw [if_neg]
      have := this (i - k)
      rwa [show k + (i - k) = i by omega] at this

end Verif.Generators

import Verif.Model.WindowIR
import Verif.Lemmas.TukeyWindow
import Verif.Props.C45
import Mathlib.Tactic.Linarith
import Mathlib.Tactic.IntervalCases

/-!
# C83: windows for impulse responses
-/

namespace Verif.WindowIR

open Tukey

/-! ### Specification -/

/-- The first sample of the largest magnitude. -/
def IsFirstPeak (x : List ℝ) (p : ℕ) : Prop :=
  p < x.length ∧ (∀ i, |x.getD i 0| ≤ |x.getD p 0|) ∧ ∀ i < p, |x.getD i 0| < |x.getD p 0|

/-- Samples continued by zeros on both sides. -/
def extended (x : List ℝ) (i : ℤ) : ℝ := if 0 ≤ i then x.getD i.toNat 0 else 0

/-- A window with a rising flank before `a`, ones until `b`, a falling flank until `n`, and zero
afterwards.  Flanks are halves of windows of twice their length; a falling flank of one
sample is 1. -/
noncomputable def flanked (wl wr : WindowType) (rising : Bool) (a b n i : ℕ) : ℝ :=
  if i < a then (if rising then wl (2 * a) i else 1)
  else if i < b then 1
  else if i < n then (if n - b = 1 then 1 else wr (2 * (n - b)) ((n - b) + (i - b)))
  else 0

/-- Duration rounded to samples; zero for no flank. -/
def nearestSamples (fs : ℕ) : Option ℚ → ℤ
  | none => 0
  | some t => ⌊t * fs + 1 / 2⌋

/-! ### Lemmas -/

theorem peakIndex_spec (x : List ℝ) (hx : x ≠ []) : ∃ p, peakIndex x = .ok p ∧ IsFirstPeak x p := by
  obtain ⟨p, hp, h1, h2, h3⟩ := Helpers.argmin_spec (x.map fun a => -|a|) (by simpa using hx)
  rw [List.length_map] at h1 h2
  have hg : ∀ i < x.length, (x.map fun a => -|a|).getD i 0 = -|x.getD i 0| := fun i hi => by
    rw [List.getD_eq_getElem _ _ (by simpa using hi), List.getElem_map,
      List.getD_eq_getElem _ _ hi]
  refine ⟨p, hp, h1, fun i => ?_, fun i hi => ?_⟩
  · by_cases hi : i < x.length
    · have := h2 i hi
      rw [hg i hi, hg p h1] at this
      linarith
    · rw [List.getD_eq_default _ _ (by omega), abs_zero]
      exact abs_nonneg _
  · have := h3 i hi
    rw [hg i (by omega), hg p h1] at this
    linarith

theorem IsFirstPeak.unique {x : List ℝ} {p q : ℕ} (hp : IsFirstPeak x p) (hq : IsFirstPeak x q) :
    p = q := by
  rcases lt_trichotomy p q with h | h | h
  · exact absurd (hq.2.2 p h) (not_lt.mpr (hp.2.1 q))
  · exact h
  · exact absurd (hp.2.2 q h) (not_lt.mpr (hq.2.1 p))

theorem IsFirstPeak.index {x : List ℝ} {p : ℕ} (hp : IsFirstPeak x p) : peakIndex x = .ok p := by
  obtain ⟨q, h1, h2⟩ := peakIndex_spec x (by
    intro h
    rw [h] at hp
    exact absurd hp.1 (by simp))
  rw [h1, hp.unique h2]

theorem extended_nat (x : List ℝ) (i : ℕ) : extended x i = x.getD i 0 := by
  unfold extended
  rw [if_pos (by omega), Int.toNat_natCast]

theorem extended_neg (x : List ℝ) (i : ℤ) (h : i < 0) : extended x i = 0 := by
  unfold extended
  rw [if_neg (by omega)]

theorem getD_padLeft (x : List ℝ) (m i : ℕ) :
    (List.replicate m 0 ++ x).getD i 0 = extended x ((i : ℤ) - m) := by
  by_cases h : i < m
  · rw [List.getD_append _ _ _ _ (by simpa using h), getD_replicate _ _ _ _ h,
      extended_neg _ _ (by omega)]
  · rw [List.getD_append_right _ _ _ _ (by simpa using h), List.length_replicate]
    have : (i : ℤ) - m = ((i - m : ℕ) : ℤ) := by omega
    rw [this, extended_nat]

theorem getD_padRight (x : List ℝ) (m i : ℕ) :
    (x ++ List.replicate m 0).getD i 0 = x.getD i 0 := by
  by_cases h : i < x.length
  · rw [List.getD_append _ _ _ _ h]
  · rw [List.getD_append_right _ _ _ _ (by omega), List.getD_eq_default x _ (by omega)]
    by_cases h2 : i - x.length < m
    · exact getD_replicate _ _ _ _ h2
    · exact List.getD_eq_default _ _ (by simpa using h2)

theorem getD_drop' (x : List ℝ) (m i : ℕ) : (x.drop m).getD i 0 = x.getD (m + i) 0 := by
  simp [List.getD, List.getElem?_drop]

theorem getD_take' (x : List ℝ) (m i : ℕ) (h : i < m) : (x.take m).getD i 0 = x.getD i 0 := by
  simp [List.getD, h]

theorem getD_mul (x y : List ℝ) (i : ℕ) :
    (List.zipWith (· * ·) x y).getD i 0 = x.getD i 0 * y.getD i 0 := by
  by_cases h : i < x.length ∧ i < y.length
  · rw [List.getD_eq_getElem _ _ (by simp [h]), List.getElem_zipWith, List.getD_eq_getElem _ _ h.1,
      List.getD_eq_getElem _ _ h.2]
  · rw [List.getD_eq_default _ _ (by
      rw [List.length_zipWith]
      omega)]
    by_cases h1 : i < x.length
    · rw [List.getD_eq_default y _ (by omega), mul_zero]
    · rw [List.getD_eq_default x _ (by omega), zero_mul]

theorem flanked_eq (wl wr : WindowType) (rising : Bool) (a b n i : ℕ) :
    at' 0 a b n wl wr rising i = flanked wl wr rising a b n i := by
  unfold at' flanked
  rw [if_neg (by omega), Nat.sub_zero, Nat.sub_zero, mul_comm a 2, mul_comm (n - b) 2]
  by_cases h1 : i < a
  · rw [if_pos h1, if_pos h1]
  rw [if_neg h1, if_neg h1]
  by_cases h2 : i < b
  · rw [if_pos h2, if_pos h2]
  rw [if_neg h2, if_neg h2]
  by_cases h3 : i < n
  · rw [if_pos h3, if_pos h3]
    by_cases h4 : n - b = 1
    · rw [if_pos h4, if_neg (by omega)]
    · rw [if_neg h4, if_pos (by omega)]
  · rw [if_neg h3, if_neg h3]

theorem flankTotal_le (total : ℕ) (constant : ℚ) (h : 0 ≤ constant) :
    flankTotal total constant ≤ total := by
  unfold flankTotal
  refine Nat.floor_le_of_le ?_
  have : (0 : ℚ) ≤ total := by positivity
  nlinarith

theorem flankTotal_mul (total : ℕ) (constant : ℚ) (h : constant < 1) :
    (flankTotal total constant : ℚ) ≤ (1 - constant) * total := by
  unfold flankTotal
  refine Nat.floor_le ?_
  have : (0 : ℚ) ≤ total := by positivity
  have : 0 < 1 - constant := by linarith
  positivity

theorem leftFlank_le (total : ℕ) (constant ratio : ℚ) (h : ratio ≤ 2) :
    leftFlank total constant ratio ≤ flankTotal total constant := by
  unfold leftFlank
  refine Nat.floor_le_of_le ?_
  have : (0 : ℚ) ≤ flankTotal total constant := by positivity
  norm_num
  nlinarith

/-- The samples without adaptation. -/
theorem cutFixed_eq (vec : List ℝ) (peak total left right offset : ℕ) (hp : peak < vec.length)
    (ho : offset ≤ peak) :
    (cutFixed vec peak total left right offset).left = left ∧
    (cutFixed vec peak total left right offset).right = right ∧
    (cutFixed vec peak total left right offset).length = total ∧
    (cutFixed vec peak total left right offset).padLeft = left - (peak - offset) ∧
    (cutFixed vec peak total left right offset).padRight =
      total - (vec.length + left - (peak - offset)) ∧
    (cutFixed vec peak total left right offset).vec.length = total ∧
    (cutFixed vec peak total left right offset).start = ((peak : ℤ) - offset - left).natAbs ∧
    (∀ i < total, (cutFixed vec peak total left right offset).vec.getD i 0 =
      extended vec ((i : ℤ) + peak - offset - left)) := by
  have key : ∀ (v : List ℝ) (st pl : ℕ), v.length = vec.length + left - (peak - offset) →
      st = ((peak : ℤ) - offset - left).natAbs →
      (∀ i, v.getD i 0 = extended vec ((i : ℤ) + peak - offset - left)) →
      ∀ c : Cut, c = (if v.length < total then
        ⟨v ++ List.replicate (total - v.length) 0, st, pl, total - v.length, left, right, total⟩
        else ⟨v.take total, st, pl, 0, left, right, total⟩) →
      c.left = left ∧ c.right = right ∧ c.length = total ∧ c.padLeft = pl ∧
      c.padRight = total - (vec.length + left - (peak - offset)) ∧ c.vec.length = total ∧
      c.start = ((peak : ℤ) - offset - left).natAbs ∧ ∀ i < total, c.vec.getD i 0 = extended vec ((i : ℤ) + peak - offset - left) := by
    intro v st pl hl hst hv c hc
    by_cases h : v.length < total
    · rw [if_pos h] at hc
      subst hc
      refine ⟨rfl, rfl, rfl, rfl, by rw [← hl], by simp; omega, hst, fun i hi => ?_⟩
      dsimp only
      rw [getD_padRight, hv]
    · rw [if_neg h] at hc
      subst hc
      refine ⟨rfl, rfl, rfl, rfl, by dsimp only; omega, by simp; omega, hst, fun i hi => ?_⟩
      dsimp only
      rw [getD_take' _ _ _ hi, hv]
  have hno : ¬ peak < offset := by omega
  by_cases h : peak - offset < left
  · refine key (List.replicate (left - (peak - offset)) 0 ++ vec) (left - (peak - offset)) _ (by simp; omega)
      (by omega) (fun i => ?_)
      _ (by unfold cutFixed; rw [if_neg hno]; dsimp only; rw [if_pos h, zero_add])
    rw [getD_padLeft]
    congr 1
    omega
  · have e : left - (peak - offset) = 0 := by omega
    rw [e]
    refine key (vec.drop (peak - offset - left)) (peak - offset - left) _ (by simp; omega)
      (by omega) (fun i => ?_)
      _ (by unfold cutFixed; rw [if_neg hno]; dsimp only; rw [if_neg h])
    rw [getD_drop', ← extended_nat]
    congr 1
    omega

/-- One channel without adaptation. -/
theorem fixed_channel (vec : List ℝ) (peak : ℕ) (hp : IsFirstPeak vec peak) (total : ℕ)
    (wl wr : WindowType) (constant : ℚ) (h0 : 0 ≤ constant) (rising : Bool) (offset : ℕ)
    (ho : offset ≤ peak) (ratio : ℚ) (hl : leftFlank total constant ratio ≤ total) :
    ∃ td w start, tukeyIR vec total wl wr constant rising offset ratio false = .ok (td, w, start) ∧
      td.length = total ∧ w.length = total ∧
      start = ((peak : ℤ) - offset - leftFlank total constant ratio).natAbs ∧ ∀ i < total,
        td.getD i 0 = extended vec ((i : ℤ) + peak - offset - leftFlank total constant ratio) *
          flanked wl wr rising (leftFlank total constant ratio)
            (total - rightFlank total constant ratio) total i ∧
        w.getD i 0 = if 0 ≤ (i : ℤ) + peak - offset - leftFlank total constant ratio ∧
            (i : ℤ) + peak - offset - leftFlank total constant ratio < vec.length then
          flanked wl wr rising (leftFlank total constant ratio)
            (total - rightFlank total constant ratio) total i else 0 := by
  have hF := flankTotal_le total constant h0
  have hsum : leftFlank total constant ratio + rightFlank total constant ratio ≤ total := by
    unfold rightFlank
    omega
  set left := leftFlank total constant ratio
  set right := rightFlank total constant ratio
  obtain ⟨c1, c2, c3, c4, c5, c6, c8, c7⟩ := cutFixed_eq vec peak total left right offset hp.1 ho
  obtain ⟨w, hw, hwl, hwv⟩ := window_ok 0 left (total - right) total total (by omega) wl wr rising
    false
  simp only [Bool.false_eq_true, if_false] at hwv
  unfold tukeyIR
  rw [hp.index]
  dsimp only
  simp only [Bool.false_eq_true, if_false]
  rw [show leftFlank total constant ratio = left from rfl,
    show rightFlank total constant ratio = right from rfl, c1, c2, c3,
    if_pos ⟨by omega, by omega⟩, Int.toNat_natCast, hw]
  dsimp only
  rw [c4, c5]
  have hW : ∀ i < total, ((List.range total).map fun i =>
      if i < left - (peak - offset) ∨ total - (total - (vec.length + left - (peak - offset))) ≤ i then 0
      else w.getD i 0).getD i 0 = if 0 ≤ (i : ℤ) + peak - offset - left ∧
        (i : ℤ) + peak - offset - left < vec.length then
        flanked wl wr rising left (total - right) total i else 0 := by
    intro i hi
    have hp1 := hp.1
    rw [getD_range_map _ _ _ _ hi, hwv i hi, flanked_eq]
    by_cases h : i < left - (peak - offset) ∨
        total - (total - (vec.length + left - (peak - offset))) ≤ i
    · rw [if_pos h, if_neg]
      omega
    · rw [if_neg h, if_pos]
      omega
  refine ⟨_, _, _, rfl, by simp [c6], by simp, c8, fun i hi => ⟨?_, hW i hi⟩⟩
  rw [getD_mul, c7 i hi, hW i hi]
  split_ifs with h
  · rfl
  · have : extended vec ((i : ℤ) + peak - offset - left) = 0 := by
      by_cases h1 : 0 ≤ (i : ℤ) + peak - offset - left
      · unfold extended
        rw [if_pos h1, List.getD_eq_default _ _ (by omega)]
      · exact extended_neg _ _ (by omega)
    rw [this, zero_mul, zero_mul]

/-- The samples with adaptation. -/
theorem cutAdaptive_eq (vec : List ℝ) (peak total left right offset : ℕ)
    (ho : offset ≤ peak) (c : Cut) (hc : c = cutAdaptive vec peak total left right offset) :
    c.left = min left (peak - offset) ∧ c.start = peak - offset - c.left ∧
    c.length = min total (vec.length - c.start) ∧
    c.right = (if c.left + offset + right ≤ c.length then (right : ℤ)
      else c.length - c.left - offset - 1) ∧
    c.padRight = total - c.length ∧ c.vec.length = c.length ∧
    (∀ i < c.length, c.vec.getD i 0 = vec.getD (c.start + i) 0) := by
  have key : ∀ (v : List ℝ) (st l : ℕ), v = vec.drop st → l = min left (peak - offset) →
      st = peak - offset - l → ∀ c : Cut,
      c = ⟨if total < v.length then v.take total else v, st, 0,
        total - (if (if total < v.length then v.take total else v).length < total then
          (if total < v.length then v.take total else v).length else total), l,
        if (l + offset : ℤ) > ((if (if total < v.length then v.take total else v).length < total then
          (if total < v.length then v.take total else v).length else total : ℕ) : ℤ) - right then
          ((if (if total < v.length then v.take total else v).length < total then
          (if total < v.length then v.take total else v).length else total : ℕ) : ℤ) - l - offset - 1
          else right, if (if total < v.length then v.take total else v).length < total then
          (if total < v.length then v.take total else v).length else total⟩ →
      c.left = min left (peak - offset) ∧ c.start = peak - offset - c.left ∧
      c.length = min total (vec.length - c.start) ∧
      c.right = (if c.left + offset + right ≤ c.length then (right : ℤ)
        else c.length - c.left - offset - 1) ∧
      c.padRight = total - c.length ∧ c.vec.length = c.length ∧
      (∀ i < c.length, c.vec.getD i 0 = vec.getD (c.start + i) 0) := by
    intro v st l hv hl hst c hc
    have hvl : v.length = vec.length - st := by rw [hv, List.length_drop]
    set u := if total < v.length then v.take total else v with hu
    have hul : u.length = min total v.length := by
      rw [hu]
      split_ifs
      · rw [List.length_take]
      · omega
    have hug : ∀ i < min total v.length, u.getD i 0 = vec.getD (st + i) 0 := by
      intro i hi
      rw [hu, hv]
      split_ifs
      · rw [getD_take' _ _ _ (by omega), getD_drop']
      · rw [getD_drop']
    set n := if u.length < total then u.length else total with hn
    have hnl : n = min total (vec.length - st) := by
      rw [hn, hul, hvl]
      split_ifs <;> omega
    subst hc
    refine ⟨hl, hst, hnl, ?_, rfl, ?_, fun i hi => ?_⟩
    · dsimp only
      by_cases h : l + offset + right ≤ n
      · rw [if_pos h, if_neg (by omega)]
      · rw [if_neg h, if_pos (by omega)]
    · dsimp only
      rw [hul, hnl, hvl]
    · refine hug i ?_
      rw [hvl, ← hnl]
      exact hi
  by_cases h : peak < offset + left
  · refine key vec 0 (peak - offset) (by simp) (by omega) (by omega) c ?_
    rw [hc]
    unfold cutAdaptive
    rw [if_pos h]
  · refine key (vec.drop (peak - offset - left)) (peak - offset - left) left rfl (by omega) rfl c ?_
    rw [hc]
    unfold cutAdaptive
    rw [if_neg h]

/-- One channel with adaptation. -/
theorem adaptive_channel (vec : List ℝ) (peak : ℕ) (hp : IsFirstPeak vec peak) (total : ℕ)
    (wl wr : WindowType) (constant : ℚ) (rising : Bool) (offset : ℕ)
    (ho : offset ≤ peak) (ratio : ℚ) (hl : leftFlank total constant ratio + offset < total) :
    ∃ td w start left right n, tukeyIR vec total wl wr constant rising offset ratio true =
        .ok (td, w, start) ∧
      left = min (leftFlank total constant ratio) (peak - offset) ∧
      start + left + offset = peak ∧
      n = min total (vec.length - start) ∧
      right = (if left + offset + rightFlank total constant ratio ≤ n then
        rightFlank total constant ratio else n - left - offset - 1) ∧
      left + offset + right ≤ n ∧ left + offset < n ∧
      td.length = total ∧ w.length = total ∧
      ∀ i < total, td.getD i 0 = vec.getD (start + i) 0 * w.getD i 0 ∧
        w.getD i 0 = flanked wl wr rising left (n - right) n i := by
  set left := leftFlank total constant ratio with hleft
  set right := rightFlank total constant ratio with hright
  obtain ⟨c1, c2, c3, c4, c5, c6, c7⟩ :=
    cutAdaptive_eq vec peak total left right offset ho _ rfl
  have hp1 := hp.1
  set c := cutAdaptive vec peak total left right offset with hc
  set r := if c.left + offset + right ≤ c.length then right else c.length - c.left - offset - 1
    with hr
  have hlen : c.left + offset < c.length := by omega
  have hcr : c.right = (r : ℤ) := by
    rw [c4, hr]
    split_ifs <;> omega
  have hsum : c.left + offset + r ≤ c.length := by
    rw [hr]
    split_ifs <;> omega
  obtain ⟨w, hw, hwl, hwv⟩ := window_ok 0 c.left (c.length - r) c.length c.length (by omega) wl wr
    rising false
  simp only [Bool.false_eq_true, if_false] at hwv
  have ht : tukeyIR vec total wl wr constant rising offset ratio true =
      .ok (List.zipWith (· * ·) (c.vec ++ List.replicate c.padRight 0)
        (w ++ List.replicate c.padRight 0), w ++ List.replicate c.padRight 0, c.start) := by
    unfold tukeyIR
    rw [hp.index]
    dsimp only
    simp only [if_true]
    rw [← hleft, ← hright, ← hc, hcr, if_pos ⟨by omega, by omega⟩, Int.toNat_natCast, hw]
  have hW : ∀ i < total, (w ++ List.replicate c.padRight 0).getD i 0 =
      flanked wl wr rising c.left (c.length - r) c.length i := by
    intro i hi
    rw [getD_padRight]
    by_cases h : i < c.length
    · rw [hwv i h, flanked_eq]
    · rw [List.getD_eq_default _ _ (by omega)]
      unfold flanked
      rw [if_neg (by omega), if_neg (by omega), if_neg h]
  refine ⟨_, _, _, c.left, r, c.length, ht, c1, by omega, c3, rfl, hsum, hlen, ?_, ?_,
    fun i hi => ⟨?_, hW i hi⟩⟩
  · simp [c6, hwl]
    omega
  · simp [hwl]
    omega
  · rw [getD_mul, getD_padRight]
    by_cases h : i < c.length
    · rw [c7 i h]
    · rw [hW i hi]
      unfold flanked
      rw [if_neg (by omega), if_neg (by omega), if_neg h, mul_zero, mul_zero]

/-! ### `window_ir` -/

theorem eachChannel_get (f : List ℝ → Except Err (List ℝ × List ℝ × ℕ)) (l : List (List ℝ))
    (rs : List (List ℝ × List ℝ × ℕ)) (h : eachChannel f l = .ok rs) : rs.length = l.length ∧
      ∀ c < l.length, f (l.getD c []) = .ok (rs.getD c ([], [], 0)) := by
  induction l generalizing rs with
  | nil =>
    unfold eachChannel at h
    cases h
    exact ⟨rfl, fun c hc => absurd hc (by simp)⟩
  | cons x l ih =>
    unfold eachChannel at h
    cases hf : f x with
    | error e => rw [hf] at h; cases h
    | ok r =>
      rw [hf] at h
      dsimp only at h
      cases hl : eachChannel f l with
      | error e => rw [hl] at h; cases h
      | ok rs' =>
        rw [hl] at h
        cases h
        obtain ⟨h1, h2⟩ := ih rs' hl
        refine ⟨by simp [h1], fun c hc => ?_⟩
        cases c with
        | zero => simpa using hf
        | succ c =>
          rw [List.getD_cons_succ, List.getD_cons_succ]
          exact h2 c (by simpa using hc)

theorem eachChannel_ok (f : List ℝ → Except Err (List ℝ × List ℝ × ℕ)) (l : List (List ℝ))
    (h : ∀ x ∈ l, ∃ r, f x = .ok r) : ∃ rs, eachChannel f l = .ok rs := by
  induction l with
  | nil => exact ⟨[], rfl⟩
  | cons x l ih =>
    obtain ⟨r, hr⟩ := h x (by simp)
    obtain ⟨rs, hrs⟩ := ih fun y hy => h y (by simp [hy])
    exact ⟨r :: rs, by rw [eachChannel, hr]; dsimp only; rw [hrs]⟩

theorem windowIR_ok {ir : List (List ℝ)} {total : ℕ} {adaptive : Bool} {constant : ℚ}
    {wl wr : WindowType} {rising : Bool} {offset : ℕ} {ratio : ℚ}
    {rs : List (List ℝ × List ℝ × ℕ)}
    (h : windowIR ir total adaptive constant wl wr rising offset ratio = .ok rs) :
    constant < 1 ∧ 0 ≤ constant ∧ (offset : ℚ) ≤ constant * total ∧ 0 ≤ ratio ∧
      ir.length ≤ total ∧ rs.length = ir.length ∧
      ∀ c < ir.length, tukeyIR (ir.getD c []) total wl wr constant rising offset ratio adaptive =
        .ok (rs.getD c ([], [], 0)) := by
  unfold windowIR at h
  by_cases h1 : constant < 1 ∧ 0 ≤ constant
  swap; · rw [if_pos h1] at h; cases h
  rw [if_neg (not_not.mpr h1), if_neg (by simp)] at h
  by_cases h2 : ((offset : ℤ) : ℚ) ≤ constant * total
  swap; · rw [if_pos h2] at h; cases h
  rw [if_neg (not_not.mpr h2)] at h
  by_cases h3 : 0 ≤ ratio
  swap; · rw [if_pos h3] at h; cases h
  rw [if_neg (not_not.mpr h3), Int.toNat_natCast] at h
  split at h
  · cases h
  · rename_i r hr
    by_cases h4 : total < ir.length
    · rw [if_pos h4] at h; cases h
    rw [if_neg h4] at h
    by_cases h7 : total = 1 ∧ ir.length = 1
    · rw [if_pos h7] at h; cases h
    rw [if_neg h7] at h
    cases h
    obtain ⟨h5, h6⟩ := eachChannel_get _ _ _ hr
    exact ⟨h1.1, h1.2, by exact_mod_cast h2, h3, by omega, h5, h6⟩

theorem flanked_peak (wl wr : WindowType) (hwr : ∀ n, 0 < n → wr (2 * n) n = 1) (rising : Bool)
    (a b n i : ℕ) (h1 : a ≤ i) (h2 : i ≤ b) (h3 : i < n) :
    flanked wl wr rising a b n i = 1 := by
  unfold flanked
  rw [if_neg (by omega)]
  by_cases h : i < b
  · rw [if_pos h]
  · have hib : i = b := by omega
    subst hib
    rw [if_neg h, if_pos h3, Nat.sub_self, add_zero, hwr _ (by omega)]
    simp

theorem flanked_bounds (wl wr : WindowType) (hl : ∀ n i, 0 ≤ wl n i ∧ wl n i ≤ 1)
    (hr : ∀ n i, 0 ≤ wr n i ∧ wr n i ≤ 1) (rising : Bool) (a b n i : ℕ) :
    0 ≤ flanked wl wr rising a b n i ∧ flanked wl wr rising a b n i ≤ 1 := by
  unfold flanked
  split_ifs
  any_goals exact ⟨le_rfl, zero_le_one⟩
  any_goals exact ⟨zero_le_one, le_rfl⟩
  · exact hl _ _
  · exact hr _ _

/-- **C83**, `adaptive=False`: if the peak is not before the offset, every channel of the result is
the impulse response (continued by zeros), moved such that its peak lies `offset` samples behind the
left flank, times the window; the window is set to zero where there were no samples.  The peak is
multiplied by one.  The returned start is the number of samples that were removed or, as the case
may be, added in front. -/
theorem C83_fixed_partial (ir : List (List ℝ)) (total : ℕ) (constant : ℚ) (wl wr : WindowType)
    (rising : Bool) (offset : ℕ) (ratio : ℚ) (hratio : ratio ≤ 2)
    (rs : List (List ℝ × List ℝ × ℕ))
    (h : windowIR ir total false constant wl wr rising offset ratio = .ok rs)
    (c : ℕ) (hc : c < ir.length) (peak : ℕ) (hp : IsFirstPeak (ir.getD c []) peak)
    (ho : offset ≤ peak) :
    ∃ td w start, rs.getD c ([], [], 0) = (td, w, start) ∧ td.length = total ∧ w.length = total ∧
      start = ((peak : ℤ) - offset - leftFlank total constant ratio).natAbs ∧
      (∀ i < total,
        td.getD i 0 = extended (ir.getD c []) ((i : ℤ) + peak - offset - leftFlank total constant ratio) *
          flanked wl wr rising (leftFlank total constant ratio)
            (total - rightFlank total constant ratio) total i ∧
        w.getD i 0 = if 0 ≤ (i : ℤ) + peak - offset - leftFlank total constant ratio ∧
            (i : ℤ) + peak - offset - leftFlank total constant ratio < (ir.getD c []).length then
          flanked wl wr rising (leftFlank total constant ratio)
            (total - rightFlank total constant ratio) total i else 0) ∧
      ((∀ n, 0 < n → wr (2 * n) n = 1) → leftFlank total constant ratio + offset < total →
        td.getD (leftFlank total constant ratio + offset) 0 = (ir.getD c []).getD peak 0) := by
  obtain ⟨h1, h0, hoff, -, -, -, hch⟩ := windowIR_ok h
  have hF := flankTotal_le total constant h0
  have hle := leftFlank_le total constant ratio hratio
  obtain ⟨td, w, start, ht, hl1, hl2, hst, hv⟩ := fixed_channel (ir.getD c []) peak hp total wl wr
    constant h0 rising offset ho ratio (hle.trans hF)
  rw [hch c hc] at ht
  refine ⟨td, w, start, Except.ok.inj ht, hl1, hl2, hst, hv, fun hwr hlt => ?_⟩
  rw [(hv _ hlt).1, flanked_peak wl wr hwr _ _ _ _ _ (by omega) _ hlt, mul_one]
  · have e : ((leftFlank total constant ratio + offset : ℕ) : ℤ) + peak - offset -
        leftFlank total constant ratio = (peak : ℤ) := by
      push_cast
      ring
    rw [e, extended_nat]
  · have hsum : leftFlank total constant ratio + rightFlank total constant ratio =
        flankTotal total constant := by
      unfold rightFlank
      omega
    have hq : (offset : ℚ) + flankTotal total constant ≤ total := by
      have := flankTotal_mul total constant h1
      linarith
    have : offset + flankTotal total constant ≤ total := by exact_mod_cast hq
    omega

/-- **C83**, `adaptive=True`: if the peak is not before the offset, every channel of the result is
the part of the impulse response from the returned start sample, times the window, and the left
flank is shortened to the samples that there are, the right flank such that it begins behind the
peak; behind the last sample everything is zero.  The peak lies `offset` samples behind the left
flank and is multiplied by one. -/
theorem C83_adaptive_partial (ir : List (List ℝ)) (total : ℕ) (constant : ℚ) (wl wr : WindowType)
    (rising : Bool) (offset : ℕ) (ratio : ℚ)
    (rs : List (List ℝ × List ℝ × ℕ))
    (h : windowIR ir total true constant wl wr rising offset ratio = .ok rs)
    (c : ℕ) (hc : c < ir.length) (peak : ℕ) (hp : IsFirstPeak (ir.getD c []) peak)
    (ho : offset ≤ peak) (hlt : leftFlank total constant ratio + offset < total) :
    ∃ td w start left right n, rs.getD c ([], [], 0) = (td, w, start) ∧
      left = min (leftFlank total constant ratio) (peak - offset) ∧
      start + left + offset = peak ∧
      n = min total ((ir.getD c []).length - start) ∧
      right = (if left + offset + rightFlank total constant ratio ≤ n then
        rightFlank total constant ratio else n - left - offset - 1) ∧
      td.length = total ∧ w.length = total ∧
      (∀ i < total, td.getD i 0 = (ir.getD c []).getD (start + i) 0 * w.getD i 0 ∧
        w.getD i 0 = flanked wl wr rising left (n - right) n i) ∧
      ((∀ n, 0 < n → wr (2 * n) n = 1) →
        td.getD (left + offset) 0 = (ir.getD c []).getD peak 0) := by
  obtain ⟨h1, h0, hoff, -, -, -, hch⟩ := windowIR_ok h
  obtain ⟨td, w, start, left, right, n, ht, e1, e2, e3, e4, e5, e6, e7, e8, hv⟩ :=
    adaptive_channel (ir.getD c []) peak hp total wl wr constant rising offset ho ratio hlt
  rw [hch c hc] at ht
  refine ⟨td, w, start, left, right, n, Except.ok.inj ht, e1, e2, e3, e4, e7, e8, hv,
    fun hwr => ?_⟩
  have hlt' : left + offset < total := by omega
  rw [(hv _ hlt').1, (hv _ hlt').2, flanked_peak wl wr hwr _ _ _ _ _ (by omega) (by omega) e6,
    mul_one]
  congr 1
  omega

/-- **C83**: with valid arguments, two samples or more and at most as many channels as samples, windows without
adaptation are always made if the ratio of the flanks is at most two. -/
theorem C83_accepts (ir : List (List ℝ)) (hir : ∀ x ∈ ir, x ≠ []) (total : ℕ) (constant : ℚ)
    (h0 : 0 ≤ constant) (h1 : constant < 1) (wl wr : WindowType) (rising : Bool) (offset : ℕ)
    (hoff : (offset : ℚ) ≤ constant * total) (ratio : ℚ) (hr0 : 0 ≤ ratio) (hr : ratio ≤ 2)
    (hn : ir.length ≤ total) (h2 : 2 ≤ total) (hpeak : ∀ x ∈ ir, ∀ p, IsFirstPeak x p → offset ≤ p)
    (adaptive : Bool) (hlt : leftFlank total constant ratio + offset < total) :
    ∃ rs, windowIR ir total adaptive constant wl wr rising offset ratio = .ok rs := by
  obtain ⟨rs, hrs⟩ := eachChannel_ok
    (fun x => tukeyIR x total wl wr constant rising offset ratio adaptive) ir (by
      intro x hx
      obtain ⟨p, -, hp⟩ := peakIndex_spec x (hir x hx)
      cases adaptive
      · obtain ⟨td, w, st, h, -⟩ := fixed_channel x p hp total wl wr constant h0 rising offset
          (hpeak x hx p hp) ratio ((leftFlank_le _ _ _ hr).trans (flankTotal_le _ _ h0))
        exact ⟨_, h⟩
      · obtain ⟨td, w, st, -, -, -, h, -⟩ := adaptive_channel x p hp total wl wr constant rising
          offset (hpeak x hx p hp) ratio hlt
        exact ⟨_, h⟩)
  refine ⟨rs, ?_⟩
  unfold windowIR
  have hq : ((offset : ℤ) : ℚ) ≤ constant * total := by exact_mod_cast hoff
  rw [if_neg (not_not.mpr ⟨h1, h0⟩), if_neg (by simp), if_neg (not_not.mpr hq),
    if_neg (not_not.mpr hr0), Int.toNat_natCast, hrs]
  dsimp only
  rw [if_neg (by omega), if_neg (by omega)]

/-- **C83**, refusal: percentages outside [0, 1), negative offsets, offsets outside the constant
part, negative ratios and more channels than samples are refused. -/
theorem C83_refused (ir : List (List ℝ)) (hir : ∀ x ∈ ir, x ≠ []) (total : ℕ) (adaptive : Bool)
    (constant : ℚ) (wl wr : WindowType) (rising : Bool) (offset : ℤ) (ratio : ℚ)
    (h : ¬ (0 ≤ constant ∧ constant < 1 ∧ 0 ≤ offset ∧ (offset : ℚ) ≤ constant * total ∧ 0 ≤ ratio ∧
      ir.length ≤ total)) :
    windowIR ir total adaptive constant wl wr rising offset ratio = .error .assertionError := by
  unfold windowIR
  by_cases h1 : constant < 1 ∧ 0 ≤ constant
  swap; · rw [if_pos h1]
  rw [if_neg (not_not.mpr h1)]
  by_cases h2 : 0 ≤ offset
  swap; · rw [if_pos h2]
  rw [if_neg (not_not.mpr h2)]
  by_cases h3 : (offset : ℚ) ≤ constant * total
  swap; · rw [if_pos h3]
  rw [if_neg (not_not.mpr h3)]
  by_cases h4 : 0 ≤ ratio
  swap; · rw [if_pos h4]
  rw [if_neg (not_not.mpr h4)]
  have h5 : total < ir.length := by
    by_contra h5
    exact h ⟨h1.2, h1.1, h2, h3, h4, by omega⟩
  have herr : ∀ x ∈ ir, ∀ e, tukeyIR x total wl wr constant rising offset.toNat ratio adaptive =
      .error e → e = .assertionError := by
    intro x hx e he
    unfold tukeyIR at he
    obtain ⟨p, hp, -⟩ := peakIndex_spec x (hir x hx)
    rw [hp] at he
    dsimp only at he
    generalize hcut : (if adaptive = true then cutAdaptive x p total (leftFlank total constant ratio)
      (rightFlank total constant ratio) offset.toNat else cutFixed x p total
      (leftFlank total constant ratio) (rightFlank total constant ratio) offset.toNat) = cut at he
    by_cases hv : (cut.left : ℤ) ≤ cut.length - cut.right ∧ 0 ≤ cut.right
    · rw [if_pos hv] at he
      obtain ⟨w, hw, -⟩ := window_ok 0 cut.left (cut.length - cut.right.toNat) cut.length cut.length
        (by omega) wl wr rising false
      rw [hw] at he
      dsimp only at he
      split_ifs at he
    · rw [if_neg hv] at he
      cases he
      rfl
  have hall : ∀ l : List (List ℝ), (∀ x ∈ l, x ∈ ir) → ∀ e, eachChannel (fun x => tukeyIR x total wl
      wr constant rising offset.toNat ratio adaptive) l = .error e → e = .assertionError := by
    intro l
    induction l with
    | nil =>
      intro _ e he
      cases he
    | cons x l ih =>
      intro hl e he
      unfold eachChannel at he
      cases hf : tukeyIR x total wl wr constant rising offset.toNat ratio adaptive with
      | error e' =>
        simp only [hf] at he
        cases he
        exact herr x (hl x (by simp)) _ hf
      | ok r =>
        simp only [hf] at he
        cases hg : eachChannel (fun x => tukeyIR x total wl wr constant rising offset.toNat ratio
            adaptive) l with
        | error e' =>
          rw [hg] at he
          cases he
          exact ih (fun y hy => hl y (by simp [hy])) _ hg
        | ok rs =>
          rw [hg] at he
          cases he
  cases hc : eachChannel (fun x => tukeyIR x total wl wr constant rising offset.toNat ratio adaptive)
      ir with
  | error e => rw [hall ir (fun _ h => h) e hc]
  | ok r =>
    dsimp only
    rw [if_pos h5]

/-! ### `window_ir_tukey` -/

theorem flankSamples_eq (fs : ℕ) (o : Option ℚ) (ho : ∀ t, o = some t → 0 ≤ t) :
    flankSamples fs o = nearestSamples fs o ∧ 0 ≤ flankSamples fs o := by
  cases o with
  | none => exact ⟨rfl, le_rfl⟩
  | some t =>
    have ht := ho t rfl
    have hpos : (0 : ℚ) ≤ t * fs + 1 / 2 := by positivity
    have e : flankSamples fs (some t) = ⌊t * fs + 1 / 2⌋ := by
      unfold flankSamples truncate
      dsimp only
      rw [show (0.5 : ℚ) = 1 / 2 by norm_num, if_pos hpos]
    exact ⟨e, by rw [e]; exact Int.floor_nonneg.mpr hpos⟩

/-- **C83**, `window_ir_tukey`: all channels are multiplied by the same window, nothing is moved,
samples between the flanks are not changed, and (for windows with values in [0, 1]) no sample
grows. -/
theorem C83_tukey (ir : List (List ℝ)) (n fs : ℕ) (hn : ∀ x ∈ ir, x.length = n)
    (left right : Option ℚ) (hl : ∀ t, left = some t → 0 ≤ t) (hr : ∀ t, right = some t → 0 ≤ t)
    (w : WindowType) (hw : ∀ n i, 0 ≤ w n i ∧ w n i ≤ 1)
    (new : List (List ℝ)) (win : List ℝ)
    (h : windowTukey ir n fs false left right w = .ok (new, win)) :
    ∃ l r : ℕ, (l : ℤ) = nearestSamples fs left ∧ (r : ℤ) = nearestSamples fs right ∧ l + r ≤ n ∧
      new.length = ir.length ∧ win.length = n ∧
      (∀ i < n, win.getD i 0 =
        if i < l then w (2 * l) i else if i < n - r then 1 else w (2 * r) (r + (i - (n - r)))) ∧
      ∀ c < ir.length, (new.getD c []).length = n ∧ ∀ i < n,
        (new.getD c []).getD i 0 = (ir.getD c []).getD i 0 * win.getD i 0 ∧
        (l ≤ i → i < n - r → (new.getD c []).getD i 0 = (ir.getD c []).getD i 0) ∧
        |(new.getD c []).getD i 0| ≤ |(ir.getD c []).getD i 0| := by
  unfold windowTukey at h
  by_cases h1 : left = none ∧ right = none
  · rw [if_pos h1] at h; cases h
  rw [if_neg h1, if_neg (by simp)] at h
  dsimp only at h
  obtain ⟨hl1, hl2⟩ := flankSamples_eq fs left hl
  obtain ⟨hr1, hr2⟩ := flankSamples_eq fs right hr
  obtain ⟨l, hl3⟩ := Int.eq_ofNat_of_zero_le hl2
  obtain ⟨r, hr3⟩ := Int.eq_ofNat_of_zero_le hr2
  have hl2 : (l : ℤ) = nearestSamples fs left := by rw [← hl1, hl3]
  have hr2 : (r : ℤ) = nearestSamples fs right := by rw [← hr1, hr3]
  rw [hl3, hr3] at h
  by_cases h2 : (l : ℤ) + r ≤ n
  swap; · rw [if_pos h2] at h; cases h
  rw [if_neg (not_not.mpr h2)] at h
  unfold flankWindow at h
  rw [if_neg (by omega)] at h
  dsimp only at h
  cases h
  have hwin : ∀ i < n, ((List.range n).map fun i =>
      if (0 : ℤ) < r ∧ n - (r : ℤ).toNat ≤ i then
        w ((r : ℤ).toNat * 2) ((r : ℤ).toNat + (i - (n - (r : ℤ).toNat)))
      else if (0 : ℤ) < l ∧ i < (l : ℤ).toNat then w ((l : ℤ).toNat * 2) i else 1).getD i 0 =
      if i < l then w (2 * l) i else if i < n - r then 1 else w (2 * r) (r + (i - (n - r))) := by
    intro i hi
    rw [getD_range_map _ _ _ _ hi, Int.toNat_natCast, Int.toNat_natCast, mul_comm r 2, mul_comm l 2]
    by_cases h3 : i < l
    · rw [if_pos h3, if_neg (by omega), if_pos (by omega)]
    · rw [if_neg h3]
      by_cases h4 : i < n - r
      · rw [if_pos h4, if_neg (by omega), if_neg (by omega)]
      · rw [if_neg h4, if_pos (by omega)]
  refine ⟨l, r, hl2, hr2, by omega, by simp, by simp, hwin, fun c hc => ⟨?_, fun i hi => ?_⟩⟩
  · rw [List.getD_eq_getElem (List.map _ ir) _ (by simpa using hc), List.getElem_map,
      List.length_zipWith, hn _ (List.getElem_mem hc)]
    simp
  have hval : ((ir.map fun x => List.zipWith (· * ·) x ((List.range n).map fun i =>
      if (0 : ℤ) < r ∧ n - (r : ℤ).toNat ≤ i then
        w ((r : ℤ).toNat * 2) ((r : ℤ).toNat + (i - (n - (r : ℤ).toNat)))
      else if (0 : ℤ) < l ∧ i < (l : ℤ).toNat then w ((l : ℤ).toNat * 2) i else 1)).getD c []).getD i 0 =
      (ir.getD c []).getD i 0 * (if i < l then w (2 * l) i else if i < n - r then 1
        else w (2 * r) (r + (i - (n - r)))) := by
    rw [List.getD_eq_getElem (List.map _ ir) _ (by simpa using hc), List.getElem_map, getD_mul,
      hwin i hi, List.getD_eq_getElem ir _ hc]
  rw [hwin i hi]
  refine ⟨hval, fun h3 h4 => ?_, ?_⟩
  · rw [hval, if_neg (by omega), if_pos h4, mul_one]
  · rw [hval, abs_mul]
    have hb : |(if i < l then w (2 * l) i else if i < n - r then (1 : ℝ)
        else w (2 * r) (r + (i - (n - r))))| ≤ 1 := by
      rw [abs_le]
      split_ifs
      · exact ⟨by linarith [(hw (2 * l) i).1], (hw _ _).2⟩
      · norm_num
      · exact ⟨by linarith [(hw (2 * r) (r + (i - (n - r)))).1], (hw _ _).2⟩
    exact mul_le_of_le_one_right (abs_nonneg _) hb

/-- **C83**, `window_ir_tukey` succeeds exactly if a flank is given, the type of the window is not
Tukey, and the flanks (rounded to samples) fit into the impulse response. -/
theorem C83_tukey_accepts (ir : List (List ℝ)) (n fs : ℕ) (isTukey : Bool) (left right : Option ℚ)
    (hl : ∀ t, left = some t → 0 ≤ t) (hr : ∀ t, right = some t → 0 ≤ t) (w : WindowType) :
    (∃ r, windowTukey ir n fs isTukey left right w = .ok r) ↔
      (left ≠ none ∨ right ≠ none) ∧ isTukey = false ∧
      nearestSamples fs left + nearestSamples fs right ≤ n := by
  obtain ⟨hl1, hl2⟩ := flankSamples_eq fs left hl
  obtain ⟨hr1, hr2⟩ := flankSamples_eq fs right hr
  rw [← hl1, ← hr1]
  unfold windowTukey
  by_cases h1 : left = none ∧ right = none
  · rw [if_pos h1]
    refine ⟨fun ⟨r, h⟩ => ?_, fun h => ?_⟩
    · cases h
    · rcases h.1 with h2 | h2
      · exact absurd h1.1 h2
      · exact absurd h1.2 h2
  rw [if_neg h1]
  have h1' : left ≠ none ∨ right ≠ none := by
    by_contra h2
    push Not at h2
    exact h1 h2
  cases isTukey
  swap
  · rw [if_pos rfl]
    refine ⟨fun ⟨r, h⟩ => ?_, fun h => ?_⟩
    · cases h
    · exact absurd h.2.1 (by simp)
  rw [if_neg (by simp)]
  dsimp only
  by_cases h2 : flankSamples fs left + flankSamples fs right ≤ n
  · rw [if_neg (not_not.mpr h2)]
    unfold flankWindow
    rw [if_neg (by omega)]
    exact ⟨fun _ => ⟨h1', rfl, h2⟩, fun _ => ⟨_, rfl⟩⟩
  · rw [if_pos h2]
    refine ⟨fun ⟨r, h⟩ => ?_, fun h => absurd h.2.2 h2⟩
    cases h

end Verif.WindowIR

import Verif.Model.Compressor
import Verif.Lemmas.Peak
import Verif.Props.C44
import Mathlib.Tactic.NormNum
import Mathlib.Tactic.FieldSimp
import Mathlib.Tactic.Ring
import Mathlib.Tactic.Linarith

/-!
# C55: the compressor
-/

namespace Verif.Compressor

open Verif.Level (fromDb maxAbs)
open Verif.Smoothing (factorOr)

/-! ## The curve -/

/-- How much is taken off (in units of `1 - 1/R`) at the distance `d` above the threshold. -/
noncomputable def loss (W d : ℝ) : ℝ :=
  if d < -W / 2 then 0 else if |d| ≤ W / 2 then (d + W / 2) ^ 2 / 2 / W else d

theorem loss_low (W d : ℝ) (h : d < -W / 2) : loss W d = 0 := if_pos h

theorem loss_mid (W d : ℝ) (h : |d| ≤ W / 2) : loss W d = (d + W / 2) ^ 2 / 2 / W := by
  have := (abs_le.mp h).1
  unfold loss
  rw [if_neg (by linarith), if_pos h]

theorem loss_high (W d : ℝ) (hW : 0 ≤ W) (h : W / 2 < d) : loss W d = d := by
  unfold loss
  rw [if_neg (by linarith), if_neg (fun h' => by have := (abs_le.mp h').2; linarith)]

theorem cases3 (W d : ℝ) : d < -W / 2 ∨ |d| ≤ W / 2 ∨ W / 2 < d := by
  by_cases h : d < -W / 2
  · exact Or.inl h
  · by_cases h' : d ≤ W / 2
    · exact Or.inr (Or.inl (abs_le.mpr ⟨by linarith, h'⟩))
    · exact Or.inr (Or.inr (not_le.mp h'))

theorem loss_slope (W a b : ℝ) (hW : 0 < W) (hab : a ≤ b) :
    0 ≤ loss W b - loss W a ∧ loss W b - loss W a ≤ b - a := by
  have mid : ∀ d, |d| ≤ W / 2 → loss W d * (2 * W) = (d + W / 2) ^ 2 := by
    intro d h
    rw [loss_mid W d h]
    field_simp
  have h2W : 0 < 2 * W := by linarith
  rcases cases3 W a with ha | ha | ha <;> rcases cases3 W b with hb | hb | hb
  · rw [loss_low W a ha, loss_low W b hb]; constructor <;> linarith
  · rw [loss_low W a ha]
    have := mid b hb
    obtain ⟨b1, b2⟩ := abs_le.mp hb
    constructor
    · by_contra hc
      nlinarith [sq_nonneg (b + W / 2)]
    · by_contra hc
      nlinarith
  · rw [loss_low W a ha, loss_high W b hW.le hb]; constructor <;> linarith
  · exact absurd hab (by have := (abs_le.mp ha).1; linarith)
  · have m1 := mid a ha
    have m2 := mid b hb
    obtain ⟨a1, a2⟩ := abs_le.mp ha
    obtain ⟨b1, b2⟩ := abs_le.mp hb
    have key : (loss W b - loss W a) * (2 * W) = (b - a) * (a + b + W) := by
      rw [sub_mul, m1, m2]; ring
    constructor
    · by_contra hc
      have : (loss W b - loss W a) * (2 * W) < 0 := mul_neg_of_neg_of_pos (by linarith) h2W
      have : 0 ≤ (b - a) * (a + b + W) := mul_nonneg (by linarith) (by linarith)
      linarith
    · by_contra hc
      have h1 : (b - a) * (2 * W) < (loss W b - loss W a) * (2 * W) :=
        mul_lt_mul_of_pos_right (by linarith) h2W
      have h2 : (b - a) * (a + b + W) ≤ (b - a) * (2 * W) :=
        mul_le_mul_of_nonneg_left (by linarith) (by linarith)
      linarith
  · have m1 := mid a ha
    obtain ⟨a1, a2⟩ := abs_le.mp ha
    rw [loss_high W b hW.le hb]
    constructor
    · have : loss W a ≤ W / 2 := by
        by_contra hc
        nlinarith
      linarith
    · have : a ≤ loss W a := by
        by_contra hc
        nlinarith [sq_nonneg (a - W / 2)]
      linarith
  · exact absurd hab (by linarith)
  · exact absurd hab (by have := (abs_le.mp hb).2; linarith)
  · rw [loss_high W a hW.le ha, loss_high W b hW.le hb]; constructor <;> linarith

theorem loss_nonneg (W d : ℝ) (hW : 0 ≤ W) : 0 ≤ loss W d := by
  rcases cases3 W d with h | h | h
  · rw [loss_low W d h]
  · rw [loss_mid W d h]; positivity
  · rw [loss_high W d hW h]; linarith

theorem knee_down (T R W x : ℝ) (hR : 0 < R) (h : 0 < W ∨ (W = 0 ∧ x ≠ T)) :
    knee true T R W x = some (x - (1 - 1 / R) * loss W (x - T)) := by
  have hW : 0 ≤ W := by rcases h with h | h; exacts [h.le, h.1.ge]
  unfold knee
  rcases cases3 W (x - T) with hx | hx | hx
  · rw [if_pos hx, loss_low _ _ hx]; simp
  · have hW' : 0 < W := by
      rcases h with h | ⟨h, hn⟩
      · exact h
      · rw [h, zero_div] at hx
        exact absurd (sub_eq_zero.mp (abs_nonpos_iff.mp hx)) hn
    have := (abs_le.mp hx).1
    rw [if_neg (by linarith), if_pos hx, if_neg hW'.ne', loss_mid _ _ hx]
    simp only [if_true, Option.some.injEq]
    ring
  · rw [if_neg (by linarith), if_neg (fun h' => by have := (abs_le.mp h').2; linarith),
      loss_high _ _ hW hx]
    simp only [if_true, Option.some.injEq]
    field_simp
    ring

theorem knee_up (T R W x : ℝ) (hR : 0 < R) (h : 0 < W ∨ (W = 0 ∧ x ≠ T)) :
    knee false T R W x = some (x + (1 - 1 / R) * loss W (T - x)) := by
  have hW : 0 ≤ W := by rcases h with h | h; exacts [h.le, h.1.ge]
  have habs : |T - x| = |x - T| := abs_sub_comm T x
  unfold knee
  rcases cases3 W (x - T) with hx | hx | hx
  · rw [if_pos hx, loss_high _ _ hW (by linarith)]
    simp only [Bool.false_eq_true, if_false, Option.some.injEq]
    field_simp
    ring
  · have hW' : 0 < W := by
      rcases h with h | ⟨h, hn⟩
      · exact h
      · rw [h, zero_div] at hx
        exact absurd (sub_eq_zero.mp (abs_nonpos_iff.mp hx)) hn
    have := (abs_le.mp hx).1
    rw [if_neg (by linarith), if_pos hx, if_neg hW'.ne', loss_mid _ _ (habs ▸ hx)]
    simp only [Bool.false_eq_true, if_false, Option.some.injEq]
    ring
  · rw [if_neg (by linarith), if_neg (fun h' => by have := (abs_le.mp h').2; linarith),
      loss_low _ _ (by linarith)]
    simp

theorem slope_range (R : ℝ) (hR : 1 ≤ R) : 0 ≤ 1 - 1 / R ∧ 1 - 1 / R < 1 := by
  have h : 0 < 1 / R := by positivity
  have h' : 1 / R ≤ 1 := by rw [div_le_one (by linarith)]; exact hR
  constructor <;> linarith

/-- The downward curve with a soft knee: never above the input level, the input level below the
knee, the line of slope `1/R` above it; and between two levels the output rises by at least `1/R`
and at most once the difference (so it is continuous, increasing and never expands). -/
theorem C55_curve_down (T R W : ℝ) (hR : 1 ≤ R) (hW : 0 < W) (x : ℝ) :
    ∃ y, knee true T R W x = some y ∧ y ≤ x ∧
      (x ≤ T - W / 2 → y = x) ∧ (T + W / 2 ≤ x → y = T + (x - T) / R) ∧
      ∀ x', x ≤ x' → ∃ y', knee true T R W x' = some y' ∧
        (x' - x) / R ≤ y' - y ∧ y' - y ≤ x' - x := by
  have hR0 : 0 < R := by linarith
  obtain ⟨s0, s1⟩ := slope_range R hR
  refine ⟨_, knee_down T R W x hR0 (Or.inl hW), ?_, ?_, ?_, ?_⟩
  · have := mul_nonneg s0 (loss_nonneg W (x - T) hW.le)
    linarith
  · intro h
    rcases h.lt_or_eq with h | h
    · rw [loss_low _ _ (by linarith)]; ring
    · rw [loss_mid _ _ (abs_le.mpr ⟨by linarith, by linarith⟩), h]; ring
  · intro h
    rcases h.lt_or_eq with h | h
    · rw [loss_high _ _ hW.le (by linarith)]; field_simp; ring
    · rw [loss_mid _ _ (abs_le.mpr ⟨by linarith, by linarith⟩), ← h]; field_simp; ring
  · intro x' hx
    refine ⟨_, knee_down T R W x' hR0 (Or.inl hW), ?_⟩
    obtain ⟨l0, l1⟩ := loss_slope W (x - T) (x' - T) hW (by linarith)
    have m0 := mul_nonneg s0 l0
    have m1 := mul_le_mul_of_nonneg_left l1 s0
    constructor
    · have : (x' - x) / R = (x' - x) - (1 - 1 / R) * (x' - T - (x - T)) := by field_simp; ring
      rw [this]
      linarith
    · linarith

/-- The upward curve, with the same guarantees the other way round. -/
theorem C55_curve_up (T R W : ℝ) (hR : 1 ≤ R) (hW : 0 < W) (x : ℝ) :
    ∃ y, knee false T R W x = some y ∧ x ≤ y ∧
      (T + W / 2 ≤ x → y = x) ∧ (x ≤ T - W / 2 → y = T + (x - T) / R) ∧
      ∀ x', x ≤ x' → ∃ y', knee false T R W x' = some y' ∧
        (x' - x) / R ≤ y' - y ∧ y' - y ≤ x' - x := by
  have hR0 : 0 < R := by linarith
  obtain ⟨s0, s1⟩ := slope_range R hR
  refine ⟨_, knee_up T R W x hR0 (Or.inl hW), ?_, ?_, ?_, ?_⟩
  · have := mul_nonneg s0 (loss_nonneg W (T - x) hW.le)
    linarith
  · intro h
    rcases h.lt_or_eq with h | h
    · rw [loss_low _ _ (by linarith)]; ring
    · rw [loss_mid _ _ (abs_le.mpr ⟨by linarith, by linarith⟩), ← h]; ring
  · intro h
    rcases h.lt_or_eq with h | h
    · rw [loss_high _ _ hW.le (by linarith)]; field_simp; ring
    · rw [loss_mid _ _ (abs_le.mpr ⟨by linarith, by linarith⟩), h]; field_simp; ring
  · intro x' hx
    refine ⟨_, knee_up T R W x' hR0 (Or.inl hW), ?_⟩
    obtain ⟨l0, l1⟩ := loss_slope W (T - x') (T - x) hW (by linarith)
    have m0 := mul_nonneg s0 l0
    have m1 := mul_le_mul_of_nonneg_left l1 s0
    constructor
    · have : (x' - x) / R = (x' - x) - (1 - 1 / R) * (T - x - (T - x')) := by field_simp; ring
      rw [this]
      linarith
    · linarith

/-- The branch for python floats uses the upward formula for the downward curve: at the lower end
of the knee it is above the input level. -/
theorem C55_float_branch_wrong (T R W : ℝ) (hR : 1 < R) (hW : 0 < W) :
    ∃ y, kneeFloat true T R W (T - W / 2) = .ok y ∧ T - W / 2 < y := by
  unfold kneeFloat
  rw [if_neg (by linarith), if_pos (abs_le.mpr ⟨by linarith, by linarith⟩), if_neg hW.ne']
  refine ⟨_, rfl, ?_⟩
  have h1 : 1 / R < 1 := by rw [div_lt_one (by linarith)]; exact hR
  have : (1 / R - 1) * (T - W / 2 - T - W / 2) ^ 2 / 2 / W < 0 :=
    div_neg_of_neg_of_pos (div_neg_of_neg_of_pos (mul_neg_of_neg_of_pos (by linarith)
      (by nlinarith)) two_pos) hW
  linarith

/-- Apart from the downward knee, the branch for python floats agrees with the one for arrays; on the threshold
of a hard knee it raises ZeroDivisionError. -/
theorem C55_float_branch (down : Bool) (T R W x : ℝ) :
    (down = false ∨ W / 2 < |x - T| → 0 < W ∨ (W = 0 ∧ x ≠ T) →
      ∃ y, kneeFloat down T R W x = .ok y ∧ knee down T R W x = some y) ∧
    kneeFloat down T R 0 T = .error .zeroDivision ∧ knee down T R 0 T = none := by
  refine ⟨fun h hW => ?_, ?_, ?_⟩
  · unfold kneeFloat knee
    by_cases h1 : x - T < -W / 2
    · exact ⟨_, if_pos h1, if_pos h1⟩
    rw [if_neg h1, if_neg h1]
    by_cases h2 : |x - T| ≤ W / 2
    · rw [if_pos h2, if_pos h2]
      have h3 : W ≠ 0 := by
        rcases hW with hW | ⟨hW, hx⟩
        · exact hW.ne'
        · subst hW
          rw [zero_div, abs_nonpos_iff, sub_eq_zero] at h2
          exact absurd h2 hx
      rw [if_neg h3, if_neg h3]
      rcases h with h | h
      · subst h
        exact ⟨_, rfl, by simp⟩
      · exact absurd h2 (not_le.2 h)
    · rw [if_neg h2, if_neg h2]
      exact ⟨_, rfl, rfl⟩
  · unfold kneeFloat
    simp
  · unfold knee
    simp

/-! ## The gain -/

/-- No sample sits exactly on the threshold of a hard knee (where the code computes `0 / 0`). -/
def Clear (T W : ℝ) (x : List ℝ) : Prop := 0 < W ∨ (W = 0 ∧ ∀ v ∈ x, levelDb v ≠ T)

theorem Clear.head {T W : ℝ} {v : ℝ} {x : List ℝ} (h : Clear T W (v :: x)) :
    0 < W ∨ (W = 0 ∧ levelDb v ≠ T) := h.imp_right fun h => ⟨h.1, h.2 v (by simp)⟩

theorem Clear.tail {T W : ℝ} {v : ℝ} {x : List ℝ} (h : Clear T W (v :: x)) : Clear T W x :=
  h.imp_right fun h => ⟨h.1, fun u hu => h.2 u (List.mem_cons_of_mem _ hu)⟩

theorem wanted_down (T R W x : ℝ) (hR : 1 ≤ R) (h : 0 < W ∨ (W = 0 ∧ levelDb x ≠ T)) :
    ∃ w, wanted true T R W x = some w ∧ 0 < w ∧ w ≤ 1 := by
  have hW : 0 ≤ W := by rcases h with h | h; exacts [h.le, h.1.ge]
  unfold wanted
  rw [knee_down T R W _ (by linarith) h, Option.map_some]
  refine ⟨_, rfl, by positivity, ?_⟩
  refine Real.rpow_le_one_of_one_le_of_nonpos (by norm_num) ?_
  have := mul_nonneg (slope_range R hR).1 (loss_nonneg W (levelDb x - T) hW)
  linarith

theorem wanted_up (T R W x : ℝ) (hR : 1 ≤ R) (h : 0 < W ∨ (W = 0 ∧ levelDb x ≠ T)) :
    ∃ w, wanted false T R W x = some w ∧ 1 ≤ w := by
  have hW : 0 ≤ W := by rcases h with h | h; exacts [h.le, h.1.ge]
  unfold wanted
  rw [knee_up T R W _ (by linarith) h, Option.map_some]
  refine ⟨_, rfl, ?_⟩
  refine Real.one_le_rpow (by norm_num) ?_
  have := mul_nonneg (slope_range R hR).1 (loss_nonneg W (T - levelDb x) hW)
  linarith

theorem run_down (T R W att rel : ℝ) (hR : 1 ≤ R) (ha : 0 ≤ att ∧ att ≤ 1) (hr : 0 ≤ rel ∧ rel ≤ 1)
    (x : List ℝ) (hx : Clear T W x) (g : ℝ) (hg : 0 < g ∧ g ≤ 1) (i : ℕ) (hi : i < x.length) :
    ∃ G, 0 < G ∧ G ≤ 1 ∧ (run true T R W att rel (some g) x)[i]? = some (some (x[i] * G)) := by
  induction x generalizing g i with
  | nil => simp at hi
  | cons v x ih =>
    obtain ⟨w, hw, w0, w1⟩ := wanted_down T R W v hR hx.head
    have hn : ∃ G, nextGain att rel (some g) (some w) = some G ∧ 0 < G ∧ G ≤ 1 := by
      refine ⟨_, rfl, ?_⟩
      have key : ∀ c : ℝ, 0 ≤ c → c ≤ 1 → 0 < c * w + (1 - c) * g ∧ c * w + (1 - c) * g ≤ 1 := by
        intro c c0 c1
        constructor
        · rcases c0.eq_or_lt with h | h
          · rw [← h]; linarith [hg.1]
          · have := mul_pos h w0
            have := mul_nonneg (by linarith : 0 ≤ 1 - c) hg.1.le
            linarith
        · have := mul_le_mul_of_nonneg_left w1 c0
          have := mul_le_mul_of_nonneg_left hg.2 (by linarith : 0 ≤ 1 - c)
          linarith
      split_ifs
      · exact key att ha.1 ha.2
      · exact key rel hr.1 hr.2
    obtain ⟨G, hG, G0, G1⟩ := hn
    simp only [run, hw, hG]
    cases i with
    | zero => exact ⟨G, G0, G1, by simp⟩
    | succ i =>
      obtain ⟨G', a, b, c⟩ := ih hx.tail G ⟨G0, G1⟩ i (by simpa using hi)
      exact ⟨G', a, b, by simpa using c⟩

theorem run_up (T R W att rel : ℝ) (hR : 1 ≤ R) (ha : 0 ≤ att ∧ att ≤ 1) (hr : 0 ≤ rel ∧ rel ≤ 1)
    (x : List ℝ) (hx : Clear T W x) (g : ℝ) (hg : 1 ≤ g) (i : ℕ) (hi : i < x.length) :
    ∃ G, 1 ≤ G ∧ (run false T R W att rel (some g) x)[i]? = some (some (x[i] * G)) := by
  induction x generalizing g i with
  | nil => simp at hi
  | cons v x ih =>
    obtain ⟨w, hw, w1⟩ := wanted_up T R W v hR hx.head
    have hn : ∃ G, nextGain att rel (some g) (some w) = some G ∧ 1 ≤ G := by
      refine ⟨_, rfl, ?_⟩
      have key : ∀ c : ℝ, 0 ≤ c → c ≤ 1 → 1 ≤ c * w + (1 - c) * g := by
        intro c c0 c1
        have := mul_le_mul_of_nonneg_left w1 c0
        have := mul_le_mul_of_nonneg_left hg (by linarith : 0 ≤ 1 - c)
        linarith
      split_ifs
      · exact key att ha.1 ha.2
      · exact key rel hr.1 hr.2
    obtain ⟨G, hG, G1⟩ := hn
    simp only [run, hw, hG]
    cases i with
    | zero => exact ⟨G, G1, by simp⟩
    | succ i =>
      obtain ⟨G', b, c⟩ := ih hx.tail G G1 i (by simpa using hi)
      exact ⟨G', b, by simpa using c⟩

theorem run_length (d : Bool) (T R W att rel : ℝ) (g : Option ℝ) (x : List ℝ) :
    (run d T R W att rel g x).length = x.length := by
  induction x generalizing g with
  | nil => rfl
  | cons v x ih => simp [run, ih]

/-- Downward compression never makes a sample louder and never changes its sign; for every signal
(with no sample exactly on the threshold of a hard knee), ratio, knee and times. -/
theorem C55_never_louder (x : List ℝ) (T R W : ℝ) (att rel : ℕ) (mix : ℝ) (hR : 1 ≤ R)
    (hx : Clear T W x) :
    (compress x T R W att rel mix true).length = x.length ∧
    ∀ i (hi : i < x.length), ∃ y, (compress x T R W att rel mix true)[i]? = some (some y) ∧
      |y| ≤ |x[i]| ∧ 0 ≤ y * x[i] ∧ (y = 0 ↔ x[i] = 0) := by
  refine ⟨run_length .., fun i hi => ?_⟩
  obtain ⟨G, h0, h1, h⟩ := run_down T R W _ _ hR (Smoothing.factorOr_range att 1 one_pos)
    (Smoothing.factorOr_range rel 1 one_pos) x hx 1 ⟨one_pos, le_rfl⟩ i hi
  refine ⟨_, h, ?_, ?_, ?_⟩
  · rw [abs_mul, abs_of_pos h0]
    exact mul_le_of_le_one_right (abs_nonneg _) h1
  · nlinarith [sq_nonneg x[i]]
  · simp [h0.ne']

/-- Upward compression never makes a sample quieter. -/
theorem C55_never_quieter (x : List ℝ) (T R W : ℝ) (att rel : ℕ) (mix : ℝ) (hR : 1 ≤ R)
    (hx : Clear T W x) :
    (compress x T R W att rel mix false).length = x.length ∧
    ∀ i (hi : i < x.length), ∃ y, (compress x T R W att rel mix false)[i]? = some (some y) ∧
      |x[i]| ≤ |y| ∧ 0 ≤ y * x[i] := by
  refine ⟨run_length .., fun i hi => ?_⟩
  obtain ⟨G, h1, h⟩ := run_up T R W _ _ hR (Smoothing.factorOr_range att 1 one_pos)
    (Smoothing.factorOr_range rel 1 one_pos) x hx 1 le_rfl i hi
  refine ⟨_, h, ?_, ?_⟩
  · rw [abs_mul, abs_of_nonneg (by linarith : 0 ≤ G)]
    exact le_mul_of_one_le_right (abs_nonneg _) h1
  · nlinarith [sq_nonneg x[i]]

theorem wanted_one (T R W x : ℝ) (h : levelDb x < T - W / 2) :
    wanted true T R W x = some 1 := by
  unfold wanted knee
  rw [if_pos (by linarith)]
  simp

/-- A signal that stays below the knee passes unchanged. -/
theorem C55_below_threshold (x : List ℝ) (T R W : ℝ) (att rel : ℕ) (mix : ℝ)
    (hx : ∀ v ∈ x, levelDb v < T - W / 2) :
    compress x T R W att rel mix true = x.map some := by
  unfold compress
  induction x with
  | nil => rfl
  | cons v x ih =>
    have hw := wanted_one T R W v (hx v (by simp))
    have hg : nextGain (factorOr att 1) (factorOr rel 1) (some 1) (some 1) = some 1 := by
      simp [nextGain]
    simp only [run, hw, hg, Option.map_some, mul_one, List.map_cons]
    rw [ih fun u hu => hx u (List.mem_cons_of_mem _ hu)]

theorem levelDb_sq (x : ℝ) (h : fromDb (-300) false ≤ x ^ 2) :
    levelDb x = 10 * Real.logb 10 (x ^ 2) := by rw [levelDb, max_eq_left h]

/-- With times of zero samples the output level is the level given by the curve, sample by sample. -/
theorem C55_static_level (x : List ℝ) (T R W : ℝ) (mix : ℝ) (down : Bool) (hR : 1 ≤ R)
    (hx : Clear T W x) (hfloor : ∀ v ∈ x, fromDb (-300) false ≤ v ^ 2) (i : ℕ) (hi : i < x.length) :
    ∃ y l, (compress x T R W 0 0 mix down)[i]? = some (some y) ∧
      knee down T R W (10 * Real.logb 10 (x[i] ^ 2)) = some l ∧ 10 * Real.logb 10 (y ^ 2) = l := by
  have hone : factorOr ((0 : ℕ) : ℝ) 1 = 1 := by simp [factorOr]
  unfold compress
  rw [hone]
  generalize hg : some (1 : ℝ) = g0
  have hg' : ∃ g, g0 = some g := ⟨1, hg.symm⟩
  clear hg
  induction x generalizing g0 i with
  | nil => simp at hi
  | cons v x ih =>
    obtain ⟨g, rfl⟩ := hg'
    obtain ⟨l, hl⟩ : ∃ l, knee down T R W (levelDb v) = some l := by
      cases down
      · exact ⟨_, knee_up T R W _ (by linarith) hx.head⟩
      · exact ⟨_, knee_down T R W _ (by linarith) hx.head⟩
    have hw : wanted down T R W v = some (10 ^ ((l - levelDb v) / 20)) := by
      unfold wanted; rw [hl, Option.map_some]
    have hn : nextGain 1 1 (some g) (some (10 ^ ((l - levelDb v) / 20)))
        = some ((10 : ℝ) ^ ((l - levelDb v) / 20)) := by
      simp [nextGain]
    simp only [run, hw, hn]
    cases i with
    | zero =>
      have hv := hfloor v (by simp)
      have hlv := levelDb_sq v hv
      have hvpos : 0 < v ^ 2 := lt_of_lt_of_le (by unfold fromDb; positivity) hv
      refine ⟨_, l, by simp; rfl, ?_, ?_⟩
      · simp only [List.getElem_cons_zero, ← hlv]; exact hl
      · rw [mul_pow, Real.logb_mul hvpos.ne' (by positivity), mul_add, ← hlv,
          ← Real.rpow_natCast ((10 : ℝ) ^ ((l - levelDb v) / 20)) 2, ← Real.rpow_mul (by norm_num),
          Real.logb_rpow (by norm_num) (by norm_num)]
        push_cast
        ring
    | succ i =>
      obtain ⟨y, l', a, b, c⟩ := ih hx.tail (fun u hu => hfloor u (List.mem_cons_of_mem _ hu)) i
        (by simpa using hi) _ ⟨_, rfl⟩
      exact ⟨y, l', by simpa using a, by simpa using b, c⟩

/-- Reaction to a constant level: the gain moves from 1 to the wanted gain `w` geometrically, with
the factor of the RELEASE time, although the gain is being reduced; the attack time has no
influence. -/
theorem C55_onset_uses_release (v T R W : ℝ) (att rel : ℕ) (mix : ℝ) (hR : 1 ≤ R)
    (hx : 0 < W ∨ (W = 0 ∧ levelDb v ≠ T)) (n : ℕ) :
    ∃ w, wanted true T R W v = some w ∧ ∀ i < n,
      (compress (List.replicate n v) T R W att rel mix true)[i]?
        = some (some (v * (w + (1 - factorOr rel 1) ^ (i + 1) * (1 - w)))) := by
  obtain ⟨w, hw, w0, w1⟩ := wanted_down T R W v hR hx
  refine ⟨w, hw, ?_⟩
  unfold compress
  have hr := Smoothing.factorOr_range rel 1 one_pos
  generalize factorOr rel 1 = r at hr ⊢
  generalize factorOr att 1 = a
  have main : ∀ (n : ℕ) (e : ℝ), 0 ≤ e → ∀ i < n,
      (run true T R W a r (some (w + e)) (List.replicate n v))[i]?
        = some (some (v * (w + (1 - r) ^ (i + 1) * e))) := by
    intro n
    induction n with
    | zero => intro e _ i hi; omega
    | succ n ih =>
      intro e he i hi
      have hn : nextGain a r (some (w + e)) (some w) = some (w + (1 - r) * e) := by
        unfold nextGain
        dsimp only
        rw [if_neg (not_lt.mpr (by linarith : w ≤ w + e))]
        congr 1
        ring
      simp only [List.replicate_succ, run, hw, hn]
      cases i with
      | zero => simp
      | succ i =>
        have := ih ((1 - r) * e) (mul_nonneg (by linarith [hr.2]) he) i (by omega)
        simp only [List.getElem?_cons_succ, this]
        congr 3
        ring
  intro i hi
  have := main n (1 - w) (by linarith) i hi
  rwa [add_sub_cancel] at this

/-- In numbers: after as many samples as the release time, 95 % of the change is done. -/
theorem C55_release_time (rel : ℕ) (h : 0 < rel) : (1 - factorOr rel 1) ^ rel = 1 / 20 := by
  have hr : (0 : ℝ) < rel := by exact_mod_cast h
  unfold factorOr
  rw [if_pos hr]
  unfold Smoothing.emaFactor
  rw [sub_sub_cancel, ← Real.exp_nat_mul, div_one, mul_div_cancel₀ _ hr.ne',
    Real.exp_log (by norm_num)]
  norm_num

/-! ## The effect -/

theorem numbers_map (l : List ℝ) : numbers (l.map some) = some l := by
  induction l with
  | nil => rfl
  | cons a l ih => simp [numbers, ih]

theorem numbers_none (l : List (Option ℝ)) (h : none ∈ l) : numbers l = none := by
  induction l with
  | nil => cases h
  | cons a l ih =>
    cases a with
    | none => rfl
    | some v =>
      simp only [List.mem_cons, reduceCtorEq, false_or] at h
      simp [numbers, ih h]

theorem run_nan (d : Bool) (T R W att rel : ℝ) (g : Option ℝ) (x : List ℝ) (v : ℝ) (hv : v ∈ x)
    (h : wanted d T R W v = none) : none ∈ run d T R W att rel g x := by
  have all : ∀ x : List ℝ, ∀ y ∈ run d T R W att rel none x, y = none := by
    intro x
    induction x with
    | nil => simp [run]
    | cons u x ih =>
      intro y hy
      have : nextGain att rel none (wanted d T R W u) = none := rfl
      simp only [run, this, Option.map_none, List.mem_cons] at hy
      exact hy.elim id (ih y)
  induction x generalizing g with
  | nil => cases hv
  | cons u x ih =>
    rcases List.mem_cons.mp hv with rfl | hv
    · have : nextGain att rel g (wanted d T R W v) = none := by
        rw [h]; cases g <;> rfl
      simp [run, this]
    · simp only [run, List.mem_cons]
      exact Or.inr (ih _ hv)

theorem std_scale (x : List ℝ) (c : ℝ) (hc : 0 ≤ c) : std (x.map (· * c)) = std x * c := by
  have hsum : (x.map (· * c)).sum = x.sum * c := by
    induction x with
    | nil => simp
    | cons a x ih => simp [ih, add_mul]
  have hsq : ∀ (m : ℝ) (l : List ℝ),
      ((l.map (· * c)).map fun v => (v - m * c) ^ 2).sum = (l.map fun v => (v - m) ^ 2).sum * c ^ 2 := by
    intro m l
    induction l with
    | nil => simp
    | cons a l ih =>
      simp only [List.map_cons, List.sum_cons, ih]
      ring
  unfold std
  rw [hsum, List.length_map, mul_div_right_comm, hsq, mul_div_right_comm,
    Real.sqrt_mul' _ (sq_nonneg c), Real.sqrt_sq hc]

theorem std_nonneg (x : List ℝ) : 0 ≤ std x := Real.sqrt_nonneg _

/-- With automatic make-up gain and no pre gain, the level (standard deviation) of every channel is
kept: whenever the result consists of numbers. -/
theorem C55_make_up_gain_partial (s : Settings) (hm : s.makeUp = true) (hp : s.preGain = 0)
    (x y : List ℝ) (h : apply s x = some y) : std y = std x := by
  unfold apply at h
  simp only [hp, zero_div, Real.rpow_zero, mul_one, List.map_id', hm, if_true] at h
  by_cases h0 : s.relative = true ∧ maxAbs x = 0
  · rw [if_pos h0] at h; cases h
  rw [if_neg h0] at h
  split at h
  · cases h
  · rename_i z hz
    simp only [restoreRms] at h
    by_cases h1 : std (z.map (· * if s.relative = true then maxAbs x else 1)) = 0
    · rw [if_pos h1] at h; cases h
    · rw [if_neg h1] at h
      simp only [Option.map_some, Option.some.injEq] at h
      subst h
      rw [std_scale _ _ (div_nonneg (std_nonneg _) (std_nonneg _)), mul_div_cancel₀ _ h1]

/-- With a pre gain the level is off: the pre gain is applied a second time at the end. -/
theorem C55_pre_gain_twice (s : Settings) (hm : s.makeUp = true)
    (x y : List ℝ) (h : apply s x = some y) :
    std y = std x * 10 ^ (s.preGain / 20) * 10 ^ (s.preGain / 20) := by
  have hg : (0 : ℝ) < 10 ^ (s.preGain / 20) := by positivity
  unfold apply at h
  simp only [hm, if_true] at h
  generalize (10 : ℝ) ^ (s.preGain / 20) = p at h hg ⊢
  by_cases h0 : s.relative = true ∧ maxAbs (x.map (· * p)) = 0
  · rw [if_pos h0] at h; cases h
  rw [if_neg h0] at h
  split at h
  · cases h
  · rename_i z hz
    simp only [restoreRms] at h
    by_cases h1 : std (z.map (· * if s.relative = true then maxAbs (x.map (· * p)) else 1)) = 0
    · rw [if_pos h1] at h; cases h
    · rw [if_neg h1] at h
      simp only [Option.map_some, Option.some.injEq] at h
      subst h
      rw [std_scale _ _ hg.le, std_scale _ _ (div_nonneg (std_nonneg _) (std_nonneg _)),
        mul_div_cancel₀ _ h1, std_scale _ _ hg.le]

/-- The post gain and the mix have no effect: on every signal with a sample that is not zero in the
result, the output for a post gain of `d ≠ 0` dB is not the output without post gain scaled by it,
and the output does not depend on the mix. -/
theorem C55_post_gain_and_mix_ignored (s : Settings) (d m : ℝ) (hd : d ≠ 0) (x y : List ℝ)
    (hy : ∃ v ∈ y, v ≠ 0) (h : apply { s with postGain := 0 } x = some y) :
    apply { s with postGain := d } x ≠ some (y.map (· * 10 ^ (d / 20))) ∧
      apply { s with postGain := 0, mix := m } x = some y := by
  refine ⟨fun h' => ?_, h⟩
  have he : apply { s with postGain := d } x = apply { s with postGain := 0 } x := rfl
  rw [he, h, Option.some.injEq] at h'
  obtain ⟨v, hv, hv0⟩ := hy
  have hmax : maxAbs y = maxAbs y * |(10 : ℝ) ^ (d / 20)| := by
    conv_lhs => rw [h', Level.maxAbs_scale]
  have hpos := Level.maxAbs_pos y (fun h0 => hv0 ((Level.maxAbs_zero_iff y).mp h0 v hv))
  rw [abs_of_pos (by positivity)] at hmax
  have h1 : (10 : ℝ) ^ (d / 20) = 1 := by
    have := mul_left_cancel₀ hpos.ne' (hmax.symm.trans (mul_one _).symm)
    exact this
  have h2 := congrArg (Real.logb 10) h1
  rw [Real.logb_rpow (by norm_num) (by norm_num), Real.logb_one] at h2
  exact hd (by linarith)

/-- A threshold of 0 dB with the default hard knee, relative to the peak: the loudest sample sits
exactly on the threshold, the code computes `0 / 0` and the result of every signal contains `nan`. -/
theorem C55_threshold_at_peak (s : Settings) (ht : s.threshold = 0) (hk : s.kneeDb = 0)
    (hr : s.relative = true) (x : List ℝ) (hx : x ≠ []) : apply s x = none := by
  unfold apply
  simp only [hr, true_and, if_true, ht, hk]
  generalize (10 : ℝ) ^ (s.preGain / 20) = p
  by_cases h0 : maxAbs (x.map (· * p)) = 0
  · rw [if_pos h0]
  rw [if_neg h0]
  obtain ⟨v, hv, hva⟩ := Level.maxAbs_attained (x.map (· * p)) (by simpa using hx)
  have hpos := Level.maxAbs_pos _ h0
  have hsq : (v / maxAbs (x.map (· * p))) ^ 2 = 1 := by
    rw [← sq_abs, abs_div, hva, abs_of_pos hpos, div_self h0, one_pow]
  have hlev : levelDb (v / maxAbs (x.map (· * p))) = 0 := by
    unfold levelDb
    rw [hsq, max_eq_left, Real.logb_one, mul_zero]
    unfold fromDb
    exact Real.rpow_le_one_of_one_le_of_nonpos (by norm_num) (by norm_num [Level.dbFactor])
  have hw : wanted s.down 0 s.ratio 0 (v / maxAbs (x.map (· * p))) = none := by
    unfold wanted knee
    rw [hlev]
    simp
  have : none ∈ compress ((x.map (· * p)).map (· / maxAbs (x.map (· * p)))) 0 s.ratio 0 s.attack
      s.release s.mix s.down :=
    run_nan _ _ _ _ _ _ _ _ _ (List.mem_map.mpr ⟨v, hv, rfl⟩) hw
  rw [numbers_none _ this]

/-! ## The hypotheses are met -/

example : Clear (-10) 6 [1, 0, -1 / 2] := Or.inl (by norm_num)

example : Clear (-10) 0 [1, -1] := by
  refine Or.inr ⟨rfl, ?_⟩
  have h : levelDb 1 = 0 := by
    unfold levelDb
    rw [one_pow, max_eq_left, Real.logb_one, mul_zero]
    unfold fromDb
    exact Real.rpow_le_one_of_one_le_of_nonpos (by norm_num) (by norm_num [Level.dbFactor])
  have h' : levelDb (-1) = levelDb 1 := by simp [levelDb]
  intro v hv
  simp only [List.mem_cons, List.not_mem_nil, or_false] at hv
  rcases hv with rfl | rfl
  · rw [h]; norm_num
  · rw [h', h]; norm_num

/-- A signal below the threshold comes through the whole effect: the hypotheses of the theorems on
`apply` are met. -/
example : ∃ y, apply ⟨10, 5, 7, 3, false, 2, 0, 0, 1, true, true⟩ [1, -1] = some y := by
  have hl : ∀ v : ℝ, v ^ 2 = 1 → levelDb v = 0 := by
    intro v hv
    unfold levelDb
    rw [hv, max_eq_left, Real.logb_one, mul_zero]
    unfold fromDb
    exact Real.rpow_le_one_of_one_le_of_nonpos (by norm_num) (by norm_num [Level.dbFactor])
  have hc := C55_below_threshold [1, -1] 10 3 2 5 7 1 (by
    intro v hv
    simp only [List.mem_cons, List.not_mem_nil, or_false] at hv
    rw [hl v (by rcases hv with rfl | rfl <;> norm_num)]
    norm_num)
  have hstd : std [1, -1] ≠ 0 := by
    unfold std
    norm_num
  refine ⟨[1, -1], ?_⟩
  unfold apply
  simp only [zero_div, Real.rpow_zero, mul_one, List.map_id', Bool.false_eq_true, false_and,
    if_false, div_one, hc, numbers_map, if_true, restoreRms, if_neg hstd, div_self hstd,
    Option.map_some]

end Verif.Compressor

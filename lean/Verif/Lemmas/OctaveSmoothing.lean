import Verif.Model.OctaveSmoothing
import Verif.Lemmas.ExactValue
import Mathlib.Algebra.BigOperators.Field
import Mathlib.Algebra.Order.BigOperators.Ring.Finset
import Mathlib.Analysis.SpecialFunctions.Pow.NNReal

/-!
# Lemmas on the fractional octave smoothing
-/

namespace Verif.OctaveSmoothing

/-- `d` is a derivative that keeps the interpolation monotone on an interval with slope `m`. -/
def Tame (d m : ℝ) : Prop := (0 ≤ m → 0 ≤ d ∧ d ≤ 3 * m) ∧ (m ≤ 0 → 3 * m ≤ d ∧ d ≤ 0)

theorem tame_zero (m : ℝ) : Tame 0 m := ⟨fun h => ⟨le_rfl, by linarith⟩, fun h => ⟨by linarith, le_rfl⟩⟩

theorem tame_self (m : ℝ) : Tame m m :=
  ⟨fun h => ⟨h, by linarith⟩, fun h => ⟨by linarith, h⟩⟩

theorem inner_tame (a b : ℝ) : Tame (inner a b) a ∧ Tame (inner a b) b := by
  unfold inner
  by_cases h : SignType.sign a ≠ SignType.sign b ∨ a = 0 ∨ b = 0
  · rw [if_pos h]
    exact ⟨tame_zero _, tame_zero _⟩
  · rw [if_neg h]
    simp only [not_or, ne_eq, not_not] at h
    obtain ⟨hs, ha, hb⟩ := h
    rcases lt_or_gt_of_ne ha with h1 | h1
    · have h2 : b < 0 := by
        rw [sign_neg h1] at hs
        exact sign_eq_neg_one_iff.mp hs.symm
      have e : 1 / ((3 / a + 3 / b) / 6) = 2 * (a * b) / (a + b) := by
        have : a + b ≠ 0 := by linarith
        have h3 : b + a ≠ 0 := by linarith
        field_simp
        ring
      rw [e]
      have hab : a + b < 0 := by linarith
      have hm : 0 < a * b := mul_pos_of_neg_of_neg h1 h2
      have hle : 2 * (a * b) / (a + b) ≤ 0 := div_nonpos_of_nonneg_of_nonpos (by linarith) hab.le
      refine ⟨⟨fun h => absurd h1 (not_lt.mpr h), fun _ => ⟨?_, hle⟩⟩,
        ⟨fun h => absurd h2 (not_lt.mpr h), fun _ => ⟨?_, hle⟩⟩⟩ <;>
      · rw [le_div_iff_of_neg hab]
        nlinarith
    · have h2 : 0 < b := by
        rw [sign_pos h1] at hs
        exact sign_eq_one_iff.mp hs.symm
      have e : 1 / ((3 / a + 3 / b) / 6) = 2 * (a * b) / (a + b) := by
        have : a + b ≠ 0 := by linarith
        have h3 : b + a ≠ 0 := by linarith
        field_simp
        ring
      rw [e]
      have hab : 0 < a + b := by linarith
      have hm : 0 < a * b := mul_pos h1 h2
      have hle : 0 ≤ 2 * (a * b) / (a + b) := div_nonneg (by linarith) hab.le
      refine ⟨⟨fun _ => ⟨hle, ?_⟩, fun h => absurd h1 (not_lt.mpr h)⟩,
        ⟨fun _ => ⟨hle, ?_⟩, fun h => absurd h2 (not_lt.mpr h)⟩⟩ <;>
      · rw [div_le_iff₀ hab]
        nlinarith

theorem edge_tame (a b : ℝ) : Tame (edge a b) a := by
  unfold edge
  dsimp only
  by_cases h : SignType.sign ((3 * a - b) / 2) ≠ SignType.sign a
  · rw [if_pos h]; exact tame_zero _
  · rw [if_neg h]
    rw [not_not] at h
    by_cases h' : SignType.sign a ≠ SignType.sign b ∧ |(3 * a - b) / 2| > 3 * |a|
    · rw [if_pos h']
      exact ⟨fun h => ⟨by linarith, le_rfl⟩, fun h => ⟨le_rfl, by linarith⟩⟩
    · rw [if_neg h']
      rcases lt_trichotomy a 0 with h1 | h1 | h1
      · have hd : (3 * a - b) / 2 < 0 := by
          rw [sign_neg h1] at h
          exact sign_eq_neg_one_iff.mp h
        refine ⟨fun h => absurd h1 (not_lt.mpr h), fun _ => ⟨?_, hd.le⟩⟩
        by_cases hb : b < 0
        · linarith
        · rw [not_and_or, not_not, not_lt] at h'
          rcases h' with h' | h'
          · rw [sign_neg h1] at h'
            exact absurd (sign_eq_neg_one_iff.mp h'.symm) hb
          · rw [abs_of_neg hd, abs_of_neg h1] at h'
            linarith
      · subst h1
        rw [sign_zero] at h
        have := sign_eq_zero_iff.mp h
        rw [this]
        exact tame_zero _
      · have hd : 0 < (3 * a - b) / 2 := by
          rw [sign_pos h1] at h
          exact sign_eq_one_iff.mp h
        refine ⟨fun _ => ⟨hd.le, ?_⟩, fun h => absurd h1 (not_lt.mpr h)⟩
        by_cases hb : 0 < b
        · linarith
        · rw [not_and_or, not_not, not_lt] at h'
          rcases h' with h' | h'
          · rw [sign_pos h1] at h'
            exact absurd (sign_eq_one_iff.mp h'.symm) hb
          · rw [abs_of_pos hd, abs_of_pos h1] at h'
            linarith

theorem deriv_tame (N : ℕ) (y : ℕ → ℝ) (i : ℕ) (hi : i + 1 < N) :
    Tame (deriv N y i) (slope y i) ∧ Tame (deriv N y (i + 1)) (slope y i) := by
  unfold deriv
  by_cases h2 : N = 2
  · rw [if_pos h2, if_pos h2]
    have : i = 0 := by omega
    subst this
    exact ⟨tame_self _, tame_self _⟩
  · rw [if_neg h2, if_neg h2, if_neg (by omega : ¬ i + 1 = 0)]
    constructor
    · by_cases h0 : i = 0
      · rw [if_pos h0, h0]; exact edge_tame _ _
      · rw [if_neg h0, if_neg (by omega : ¬ i = N - 1)]
        exact (inner_tame _ _).2
    · by_cases h1 : i + 1 = N - 1
      · rw [if_pos h1, show N - 2 = i by omega]; exact edge_tame _ _
      · rw [if_neg h1, Nat.add_sub_cancel]
        exact (inner_tame _ _).1

/-- Hermite interpolation with tame derivatives stays between the values at the ends. -/
theorem hermite_between {p q d e t : ℝ} (h0 : 0 ≤ t) (h1 : t ≤ 1) (hd : Tame d (q - p))
    (he : Tame e (q - p)) :
    min p q ≤ p * (1 - t) ^ 2 * (1 + 2 * t) + d * t * (1 - t) ^ 2 + q * t ^ 2 * (3 - 2 * t) -
      e * t ^ 2 * (1 - t) ∧
    p * (1 - t) ^ 2 * (1 + 2 * t) + d * t * (1 - t) ^ 2 + q * t ^ 2 * (3 - 2 * t) -
      e * t ^ 2 * (1 - t) ≤ max p q := by
  have a1 : 0 ≤ t * (1 - t) ^ 2 := mul_nonneg h0 (sq_nonneg _)
  have a2 : 0 ≤ t ^ 2 * (1 - t) := mul_nonneg (sq_nonneg _) (by linarith)
  have a3 : 0 ≤ t ^ 3 := pow_nonneg h0 3
  have a4 : 0 ≤ (1 - t) ^ 3 := pow_nonneg (by linarith) 3
  rcases le_total p q with h | h
  · rw [min_eq_left h, max_eq_right h]
    obtain ⟨d1, d2⟩ := hd.1 (by linarith)
    obtain ⟨e1, e2⟩ := he.1 (by linarith)
    have b1 := mul_nonneg d1 a1
    have b2 := mul_nonneg (sub_nonneg.mpr e2) a2
    have b3 := mul_nonneg (sub_nonneg.mpr d2) a1
    have b4 := mul_nonneg e1 a2
    have b5 := mul_nonneg (sub_nonneg.mpr h) a3
    have b6 := mul_nonneg (sub_nonneg.mpr h) a4
    constructor <;> nlinarith
  · rw [min_eq_right h, max_eq_left h]
    obtain ⟨d1, d2⟩ := hd.2 (by linarith)
    obtain ⟨e1, e2⟩ := he.2 (by linarith)
    have b1 := mul_nonneg (neg_nonneg.mpr d2) a1
    have b2 := mul_nonneg (sub_nonneg.mpr e1) a2
    have b3 := mul_nonneg (sub_nonneg.mpr d1) a1
    have b4 := mul_nonneg (neg_nonneg.mpr e2) a2
    have b5 := mul_nonneg (sub_nonneg.mpr h) a3
    have b6 := mul_nonneg (sub_nonneg.mpr h) a4
    constructor <;> nlinarith

theorem pchip_between (N : ℕ) (y : ℕ → ℝ) (x lo hi : ℝ) (hN : 2 ≤ N) (h1 : 1 ≤ x) (h2 : x ≤ N)
    (hy : ∀ i < N, lo ≤ y i ∧ y i ≤ hi) : lo ≤ pchip N y x ∧ pchip N y x ≤ hi := by
  unfold pchip
  dsimp only
  generalize hi' : min (⌊x⌋₊ - 1) (N - 2) = i
  have hfl : 1 ≤ ⌊x⌋₊ := Nat.le_floor (by exact_mod_cast h1)
  have ht0 : 0 ≤ x - ((i : ℝ) + 1) := by
    have : i + 1 ≤ ⌊x⌋₊ := by omega
    have h := Nat.floor_le (by linarith : (0 : ℝ) ≤ x)
    have h' : ((i + 1 : ℕ) : ℝ) ≤ (⌊x⌋₊ : ℝ) := by exact_mod_cast this
    push_cast at h'
    linarith
  have ht1 : x - ((i : ℝ) + 1) ≤ 1 := by
    rcases Nat.lt_or_ge ⌊x⌋₊ N with h | h
    · have : ⌊x⌋₊ = i + 1 := by omega
      have h' := Nat.lt_floor_add_one x
      rw [this] at h'
      push_cast at h'
      linarith
    · have : N = i + 2 := by omega
      rw [this] at h2
      push_cast at h2
      linarith
  have hd := deriv_tame N y i (by omega)
  have h := hermite_between (p := y i) (q := y (i + 1)) ht0 ht1 hd.1 hd.2
  have ha := hy i (by omega)
  have hb := hy (i + 1) (by omega)
  exact ⟨le_trans (le_min ha.1 hb.1) h.1, le_trans h.2 (max_le ha.2 hb.2)⟩

/-- At the points, the interpolation has the given values. -/
theorem pchip_node (N : ℕ) (y : ℕ → ℝ) (i : ℕ) (hN : 2 ≤ N) (hi : i < N) :
    pchip N y ((i : ℝ) + 1) = y i := by
  unfold pchip
  dsimp only
  have : ⌊(i : ℝ) + 1⌋₊ = i + 1 := by
    rw [show (i : ℝ) + 1 = ((i + 1 : ℕ) : ℝ) by push_cast; ring, Nat.floor_natCast]
  rw [this, Nat.add_sub_cancel]
  rcases Nat.lt_or_ge i (N - 1) with h | h
  · rw [min_eq_left (by omega)]
    ring
  · have e : i = N - 2 + 1 := by omega
    rw [min_eq_right (by omega)]
    rw [e]
    push_cast
    ring

theorem logGrid_mono (N : ℕ) (hN : 2 ≤ N) {k l : ℕ} (h : k < l) : logGrid N k < logGrid N l := by
  unfold logGrid
  have h1 : (2 : ℝ) ≤ N := by exact_mod_cast hN
  apply Real.rpow_lt_rpow_of_exponent_lt (by linarith)
  apply div_lt_div_of_pos_right _ (by linarith)
  exact_mod_cast h

theorem logGrid_zero (N : ℕ) : logGrid N 0 = 1 := by
  unfold logGrid; simp

theorem logGrid_last (N : ℕ) (hN : 2 ≤ N) : logGrid N (N - 1) = N := by
  unfold logGrid
  have h1 : (2 : ℝ) ≤ N := by exact_mod_cast hN
  rw [Nat.cast_sub (by omega), Nat.cast_one, div_self (by linarith), Real.rpow_one]

theorem logGrid_range (N : ℕ) (hN : 2 ≤ N) {k : ℕ} (hk : k < N) :
    1 ≤ logGrid N k ∧ logGrid N k ≤ N := by
  constructor
  · rcases Nat.eq_zero_or_pos k with rfl | h
    · rw [logGrid_zero]
    · rw [← logGrid_zero N]; exact (logGrid_mono N hN h).le
  · rcases (by omega : k = N - 1 ∨ k < N - 1) with rfl | h
    · rw [logGrid_last N hN]
    · rw [← logGrid_last N hN]; exact (logGrid_mono N hN h).le

/-- Weighted means with non-negative weights stay in the range. -/
theorem mean_between {ι : Type} (s : Finset ι) (w x : ι → ℝ) (lo hi : ℝ) (hw : ∀ j ∈ s, 0 ≤ w j)
    (h1 : ∑ j ∈ s, w j = 1) (hx : ∀ j ∈ s, lo ≤ x j ∧ x j ≤ hi) :
    lo ≤ ∑ j ∈ s, w j * x j ∧ ∑ j ∈ s, w j * x j ≤ hi := by
  constructor
  · calc lo = ∑ j ∈ s, w j * lo := by rw [← Finset.sum_mul, h1, one_mul]
      _ ≤ _ := Finset.sum_le_sum fun j hj => mul_le_mul_of_nonneg_left (hx j hj).1 (hw j hj)
  · calc _ ≤ ∑ j ∈ s, w j * hi :=
          Finset.sum_le_sum fun j hj => mul_le_mul_of_nonneg_left (hx j hj).2 (hw j hj)
      _ = hi := by rw [← Finset.sum_mul, h1, one_mul]

theorem sum_getD (w : List ℝ) : ∑ j ∈ Finset.range w.length, w.getD j 0 = w.sum := by
  induction w with
  | nil => simp
  | cons a l ih =>
    rw [List.length_cons, Finset.sum_range_succ', List.sum_cons, ← ih]
    simp [add_comm]

theorem getD_normalised (w : List ℝ) (j : ℕ) (hj : j < w.length) :
    (normalised w).getD j 0 = w.getD j 0 / w.sum := by
  unfold normalised
  rw [List.getD_eq_getElem _ _ (by simpa using hj), List.getElem_map, List.getD_eq_getElem _ _ hj]

theorem windowLength_odd (r : ℕ) (beta : ℝ) : windowLength r beta % 2 = 1 := by
  unfold windowLength
  dsimp only
  omega

/-- The smoothed vector for a window of the right length. -/
theorem valid_eq (w : List ℝ) (N h : ℕ) (v : ℕ → ℝ) (hN : 0 < N) (hw : w.length = 2 * h + 1) :
    valid w (N + 2 * h) (pad h N v) = (List.range N).map fun i =>
      ∑ j ∈ Finset.range (2 * h + 1), w.getD j 0 * v (min (i + h - j) (N - 1)) := by
  unfold valid
  have e1 : max (N + 2 * h) w.length - min (N + 2 * h) w.length + 1 = N := by omega
  have e2 : min (N + 2 * h) w.length - 1 = 2 * h := by omega
  rw [e1, e2]
  apply List.map_congr_left
  intro i hi
  rw [List.mem_range] at hi
  unfold full
  rw [hw]
  apply Finset.sum_congr rfl
  intro j hj
  rw [Finset.mem_range] at hj
  rw [if_pos ⟨by omega, by omega⟩]
  unfold pad
  congr 3
  omega

theorem interpLinear_between (x y : List ℝ) (q lo hi : ℝ) (hx : Increasing x) (h2 : 2 ≤ x.length)
    (hq : x.getD 0 0 ≤ q) (hq' : q ≤ x.getD (x.length - 1) 0) (hl : y.length = x.length)
    (hy : ∀ i < y.length, lo ≤ y.getD i 0 ∧ y.getD i 0 ≤ hi) :
    lo ≤ interpLinear x y q ∧ interpLinear x y q ≤ hi := by
  unfold interpLinear
  dsimp only
  generalize hs : min (max (ExactValue.searchsorted x q) 1) (x.length - 1) = s
  obtain ⟨i, rfl⟩ : ∃ i, s = i + 1 := ⟨s - 1, by omega⟩
  rw [Nat.add_sub_cancel]
  have hinc := hx i (i + 1) (by omega) (by omega)
  have a : x.getD i 0 ≤ q := by
    rcases Nat.eq_zero_or_pos i with rfl | h
    · exact hq
    · exact (ExactValue.getD_takeWhile_lt x q i (by omega)).le
  have b : q ≤ x.getD (i + 1) 0 := by
    rcases Nat.lt_or_ge (ExactValue.searchsorted x q) (x.length - 1) with h | h
    · have hle := ExactValue.searchsorted_le x q (by omega)
      rcases Nat.eq_zero_or_pos (ExactValue.searchsorted x q) with h0 | h0
      · rw [h0] at hle
        have : i = 0 := by omega
        subst this
        linarith
      · rw [show i + 1 = ExactValue.searchsorted x q by omega]
        exact hle
    · rw [show i + 1 = x.length - 1 by omega]
      exact hq'
  have hp := hy i (by omega)
  have hr := hy (i + 1) (by omega)
  have hd : 0 < x.getD (i + 1) 0 - x.getD i 0 := by linarith
  have e : (y.getD (i + 1) 0 - y.getD i 0) / (x.getD (i + 1) 0 - x.getD i 0) * (q - x.getD i 0) +
      y.getD i 0 = (y.getD i 0 * (x.getD (i + 1) 0 - q) + y.getD (i + 1) 0 * (q - x.getD i 0)) /
        (x.getD (i + 1) 0 - x.getD i 0) := by
    field_simp
    ring
  rw [e, le_div_iff₀ hd, div_le_iff₀ hd]
  constructor <;> nlinarith

end Verif.OctaveSmoothing

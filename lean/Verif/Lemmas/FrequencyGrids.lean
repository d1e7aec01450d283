import Verif.Model.FrequencyGrids
import Mathlib.Tactic.Linarith
import Mathlib.Tactic.FieldSimp
import Mathlib.Tactic.NormNum
import Mathlib.Data.List.GetD

/-!
# Lemmas on the frequency grids
-/

namespace Verif.FrequencyGrids

theorem around_bounds (x : ℝ) : |x - around x| ≤ 1 / 2 := by
  have h0 := Int.floor_le x
  have h1 := Int.lt_floor_add_one x
  unfold around
  rw [abs_le]
  split_ifs <;> push_cast <;> constructor <;> linarith

theorem around_eq {x : ℝ} {k : ℤ} (h : |x - k| < 1 / 2) : around x = k := by
  have h1 := around_bounds x
  have h2 : |((around x - k : ℤ) : ℝ)| < 1 := by
    push_cast
    rw [abs_le] at h1
    rw [abs_lt] at h ⊢
    constructor <;> linarith
  have h3 : |around x - k| < 1 := by
    rw [← Int.cast_abs] at h2
    exact_mod_cast h2
  have := Int.abs_lt_one_iff.mp h3
  omega

/-- In the middle between two integers, the even one is taken. -/
theorem around_even {x : ℝ} (h : |x - around x| = 1 / 2) : around x % 2 = 0 := by
  have h0 := Int.floor_le x
  have h1 := Int.lt_floor_add_one x
  unfold around at h ⊢
  by_cases a : x - ⌊x⌋ < 1 / 2
  · rw [if_pos a, abs_of_nonneg (by linarith)] at h
    linarith
  · rw [if_neg a] at h ⊢
    by_cases b : 1 / 2 < x - ⌊x⌋
    · rw [if_pos b] at h
      push_cast at h
      rw [abs_of_neg (by linarith)] at h
      linarith
    · rw [if_neg b]
      split_ifs with c
      · exact c
      · omega

/-- Band numbers of a lower limit `x` and an upper limit `y`. -/
theorem around_order {x y : ℝ} (h : -x ≤ y) : -around x ≤ around y := by
  by_contra hc
  have hc' : around y + 1 ≤ -around x := by omega
  have hr : (around y : ℝ) + 1 ≤ -around x := by exact_mod_cast hc'
  have hx := around_bounds x
  have hy := around_bounds y
  rw [abs_le] at hx hy
  have e1 : |x - around x| = 1 / 2 := by rw [abs_of_nonneg] <;> linarith
  have e2 : |y - around y| = 1 / 2 := by rw [abs_of_nonneg] <;> linarith
  have e3 : around y + 1 = -around x := by
    have : (around y : ℝ) + 1 = -around x := by linarith
    exact_mod_cast this
  have := around_even e1
  have := around_even e2
  omega

theorem mem_arange {a b k : ℤ} : k ∈ arange a b ↔ a ≤ k ∧ k < b := by
  unfold arange
  rw [List.mem_map]
  constructor
  · rintro ⟨j, hj, rfl⟩
    rw [List.mem_range] at hj
    omega
  · rintro ⟨h1, h2⟩
    exact ⟨(k - a).toNat, by rw [List.mem_range]; omega, by omega⟩

theorem octaveRatio_pos : 0 < octaveRatio := Real.rpow_pos_of_pos (by norm_num) _

theorem octaveRatio_pow : octaveRatio ^ (10 : ℕ) = 1000 := by
  unfold octaveRatio
  rw [← Real.rpow_natCast, ← Real.rpow_mul (by norm_num)]
  norm_num

theorem octaveRatio_lt_two : octaveRatio < 2 := by
  by_contra h
  rw [not_lt] at h
  have := pow_le_pow_left₀ (by norm_num : (0 : ℝ) ≤ 2) h 10
  rw [octaveRatio_pow] at this
  norm_num at this

theorem log_octaveRatio : Real.log octaveRatio = 3 / 10 * Real.log 10 := by
  unfold octaveRatio
  rw [Real.log_rpow (by norm_num)]

theorem log_octaveRatio_pos : 0 < Real.log octaveRatio := by
  rw [log_octaveRatio]
  have := Real.log_pos (by norm_num : (1 : ℝ) < 10)
  linarith

/-- The band number of a nominal frequency, from a comparison of integer powers. -/
theorem band_of {b : ℕ} {f : ℝ} {k : ℤ} (hb : 0 < b) (hf : 0 < f)
    (h1 : (10 : ℝ) ^ (3 * (2 * k - 1) : ℤ) < ((f / 1000) ^ (20 * b : ℕ) : ℝ))
    (h2 : ((f / 1000) ^ (20 * b : ℕ) : ℝ) < (10 : ℝ) ^ (3 * (2 * k + 1) : ℤ)) :
    around (b * Real.log (f / 1000) / Real.log octaveRatio) = k := by
  have hl := Real.log_pos (by norm_num : (1 : ℝ) < 10)
  have hb' : (0 : ℝ) < b := by exact_mod_cast hb
  have hp : (0 : ℝ) < f / 1000 := by positivity
  have a1 := Real.log_lt_log (by positivity) h1
  have a2 := Real.log_lt_log (by positivity) h2
  rw [Real.log_zpow, Real.log_pow] at a1 a2
  push_cast at a1 a2
  apply around_eq
  rw [log_octaveRatio]
  have e : (b : ℝ) * Real.log (f / 1000) / (3 / 10 * Real.log 10) - k =
      (20 * b * Real.log (f / 1000) - 3 * (2 * k) * Real.log 10) / (6 * Real.log 10) := by
    field_simp
    ring
  rw [e, abs_lt]
  constructor
  · rw [lt_div_iff₀ (by linarith)]
    linarith
  · rw [div_lt_iff₀ (by linarith)]
    linarith

theorem toErb_pos {f : ℝ} (h : 0 < f) : toErb f = 9.2645 * Real.log (1 + f * 0.00437) := by
  unfold toErb
  rw [sign_pos h, abs_of_pos h]
  simp

theorem toErb_neg (f : ℝ) : toErb (-f) = -toErb f := by
  unfold toErb
  rw [Left.sign_neg, abs_neg]
  push_cast
  ring

theorem fromErb_neg (e : ℝ) : fromErb (-e) = -fromErb e := by
  unfold fromErb
  rw [Left.sign_neg, abs_neg]
  push_cast
  ring

theorem toErb_zero : toErb 0 = 0 := by unfold toErb; simp

theorem fromErb_zero : fromErb 0 = 0 := by unfold fromErb; simp

theorem fromErb_pos {e : ℝ} (h : 0 < e) : fromErb e = 1 / 0.00437 * (Real.exp (e / 9.2645) - 1) := by
  unfold fromErb
  rw [sign_pos h, abs_of_pos h]
  simp

theorem toErb_is_pos {f : ℝ} (h : 0 < f) : 0 < toErb f := by
  rw [toErb_pos h]
  have : 0 < Real.log (1 + f * 0.00437) := Real.log_pos (by nlinarith)
  nlinarith

theorem fromErb_is_pos {e : ℝ} (h : 0 < e) : 0 < fromErb e := by
  rw [fromErb_pos h]
  have : 1 < Real.exp (e / 9.2645) := Real.one_lt_exp_iff.mpr (by positivity)
  have h2 : (0 : ℝ) < 1 / 0.00437 := by norm_num
  exact mul_pos h2 (by linarith)

theorem toErb_fromErb (e : ℝ) : toErb (fromErb e) = e := by
  have key : ∀ e : ℝ, 0 < e → toErb (fromErb e) = e := by
    intro e h
    rw [toErb_pos (fromErb_is_pos h), fromErb_pos h]
    rw [show 1 + 1 / 0.00437 * (Real.exp (e / 9.2645) - 1) * 0.00437 = Real.exp (e / 9.2645) by
      norm_num; ring, Real.log_exp]
    norm_num
    ring
  rcases lt_trichotomy e 0 with h | rfl | h
  · have := key (-e) (by linarith)
    rw [fromErb_neg, toErb_neg] at this
    linarith
  · rw [fromErb_zero, toErb_zero]
  · exact key e h

theorem toErb_strictMono : StrictMono toErb := by
  have key : ∀ f g : ℝ, 0 < f → f < g → toErb f < toErb g := by
    intro f g h1 h2
    rw [toErb_pos h1, toErb_pos (by linarith)]
    have := Real.log_lt_log (by nlinarith : (0 : ℝ) < 1 + f * 0.00437)
      (by nlinarith : 1 + f * 0.00437 < 1 + g * 0.00437)
    nlinarith
  intro f g h
  rcases lt_trichotomy f 0 with h1 | rfl | h1
  · have a : toErb f < 0 := by
      have := toErb_is_pos (by linarith : 0 < -f)
      rw [toErb_neg] at this
      linarith
    rcases lt_trichotomy g 0 with h2 | rfl | h2
    · have := key (-g) (-f) (by linarith) (by linarith)
      rw [toErb_neg, toErb_neg] at this
      linarith
    · rw [toErb_zero]; exact a
    · linarith [toErb_is_pos h2]
  · rw [toErb_zero]; exact toErb_is_pos h
  · exact key f g h1 h

end Verif.FrequencyGrids

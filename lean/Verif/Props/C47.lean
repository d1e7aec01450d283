import Verif.Model.Helpers
import Mathlib.Tactic.Linarith
import Mathlib.Tactic.Positivity
import Mathlib.Tactic.NormNum
import Mathlib.Analysis.SpecialFunctions.Pow.Real

/-!
# C47: the next power of two
-/

namespace Verif.Helpers

theorem rpow_intCast_toNat (e : ℤ) (he : 0 ≤ e) : (2 : ℝ) ^ (e : ℝ) = ((2 ^ e.toNat : ℕ) : ℝ) := by
  rw [Real.rpow_intCast]
  conv_lhs => rw [← Int.toNat_of_nonneg he]
  rw [zpow_natCast]
  push_cast
  rfl

theorem nextPower2_eq (x : ℝ) (hx : 0 < x) (mode : Mode) (e : ℤ)
    (he : exponent (Real.logb 2 x) mode = e) :
    nextPower2 x mode = if e < 0 then .error .valueError else .ok (2 ^ e.toNat) := by
  subst he
  unfold nextPower2
  rw [if_pos hx]

theorem exponent_floor_le {x : ℝ} (hx : 0 < x) : (2 : ℝ) ^ ((⌊Real.logb 2 x⌋ : ℤ) : ℝ) ≤ x := by
  have h := Int.floor_le (Real.logb 2 x)
  rwa [Real.le_logb_iff_rpow_le (by norm_num) hx] at h

theorem lt_exponent_floor {x : ℝ} (hx : 0 < x) :
    x < 2 * (2 : ℝ) ^ ((⌊Real.logb 2 x⌋ : ℤ) : ℝ) := by
  have h := Int.lt_floor_add_one (Real.logb 2 x)
  rw [Real.logb_lt_iff_lt_rpow (by norm_num) hx, Real.rpow_add_one (by norm_num)] at h
  linarith

theorem le_exponent_ceil {x : ℝ} (hx : 0 < x) : x ≤ (2 : ℝ) ^ ((⌈Real.logb 2 x⌉ : ℤ) : ℝ) := by
  have h := Int.le_ceil (Real.logb 2 x)
  rwa [Real.logb_le_iff_le_rpow (by norm_num) hx] at h

theorem exponent_ceil_lt {x : ℝ} (hx : 0 < x) :
    (2 : ℝ) ^ ((⌈Real.logb 2 x⌉ : ℤ) : ℝ) < 2 * x := by
  have h := Int.ceil_lt_add_one (Real.logb 2 x)
  have h2 : (⌈Real.logb 2 x⌉ : ℝ) - 1 < Real.logb 2 x := by linarith
  rw [Real.lt_logb_iff_rpow_lt (by norm_num) hx, Real.rpow_sub_one (by norm_num)] at h2
  linarith

/-- `floor`: the largest power of two not above the number (numbers from 1 on). -/
theorem C47_floor (x : ℝ) (hx : 1 ≤ x) :
    ∃ n : ℕ, nextPower2 x .floor = .ok n ∧ (∃ k : ℕ, n = 2 ^ k) ∧ (n : ℝ) ≤ x ∧
      ∀ k : ℕ, ((2 ^ k : ℕ) : ℝ) ≤ x → 2 ^ k ≤ n := by
  have hpos : 0 < x := by linarith
  have he : 0 ≤ ⌊Real.logb 2 x⌋ := Int.floor_nonneg.mpr (Real.logb_nonneg (by norm_num) hx)
  refine ⟨2 ^ ⌊Real.logb 2 x⌋.toNat, ?_, ⟨_, rfl⟩, ?_, ?_⟩
  · rw [nextPower2_eq x hpos .floor _ rfl]
    exact if_neg (not_lt.mpr he)
  · rw [← rpow_intCast_toNat _ he]
    exact exponent_floor_le hpos
  · intro k hk
    have h1 : (k : ℝ) ≤ Real.logb 2 x := by
      rw [Real.le_logb_iff_rpow_le (by norm_num) hpos, Real.rpow_natCast]
      exact_mod_cast hk
    have h2 : (k : ℤ) ≤ ⌊Real.logb 2 x⌋ := by
      rw [Int.le_floor]
      exact_mod_cast h1
    exact Nat.pow_le_pow_right (by norm_num) (by omega)

/-- `ceil`: the smallest power of two not below the number (numbers above 1/2). -/
theorem C47_ceil (x : ℝ) (hx : 1 / 2 < x) :
    ∃ n : ℕ, nextPower2 x .ceil = .ok n ∧ (∃ k : ℕ, n = 2 ^ k) ∧ x ≤ n ∧
      ∀ k : ℕ, x ≤ ((2 ^ k : ℕ) : ℝ) → n ≤ 2 ^ k := by
  have hpos : 0 < x := by linarith
  have he : 0 ≤ ⌈Real.logb 2 x⌉ := by
    have h1 : (-1 : ℝ) < Real.logb 2 x := by
      rw [Real.lt_logb_iff_rpow_lt (by norm_num) hpos, Real.rpow_neg_one]
      linarith
    have h2 := Int.le_ceil (Real.logb 2 x)
    have h3 : ((-1 : ℤ) : ℝ) < (⌈Real.logb 2 x⌉ : ℝ) := by
      push_cast
      linarith
    have : (-1 : ℤ) < ⌈Real.logb 2 x⌉ := by exact_mod_cast h3
    omega
  refine ⟨2 ^ ⌈Real.logb 2 x⌉.toNat, ?_, ⟨_, rfl⟩, ?_, ?_⟩
  · rw [nextPower2_eq x hpos .ceil _ rfl]
    exact if_neg (not_lt.mpr he)
  · rw [← rpow_intCast_toNat _ he]
    exact le_exponent_ceil hpos
  · intro k hk
    have h1 : Real.logb 2 x ≤ k := by
      rw [Real.logb_le_iff_le_rpow (by norm_num) hpos, Real.rpow_natCast]
      exact_mod_cast hk
    have h2 : ⌈Real.logb 2 x⌉ ≤ (k : ℤ) := by
      rw [Int.ceil_le]
      exact_mod_cast h1
    exact Nat.pow_le_pow_right (by norm_num) (by omega)

/-- Exponent in the mode `closest` for numbers from 1 on. -/
theorem exponent_closest (x : ℝ) (hx : 1 ≤ x) :
    (Real.logb 2 x < ⌊Real.logb 2 x⌋ + 1 / 2 →
      exponent (Real.logb 2 x) .closest = ⌊Real.logb 2 x⌋) ∧
    (⌊Real.logb 2 x⌋ + 1 / 2 ≤ Real.logb 2 x →
      exponent (Real.logb 2 x) .closest = ⌊Real.logb 2 x⌋ + 1) := by
  have h0 := Real.logb_nonneg (b := 2) (by norm_num) hx
  have hint : pyInt (Real.logb 2 x) = ⌊Real.logb 2 x⌋ := if_pos h0
  constructor
  · intro h
    simp only [exponent, hint]
    rw [if_pos (show Real.logb 2 x - (⌊Real.logb 2 x⌋ : ℝ) < 0.5 by
      have : (0.5 : ℝ) = 1 / 2 := by norm_num
      rw [this]
      linarith)]
  · intro h
    simp only [exponent, hint]
    rw [if_neg (show ¬ Real.logb 2 x - (⌊Real.logb 2 x⌋ : ℝ) < 0.5 by
      have : (0.5 : ℝ) = 1 / 2 := by norm_num
      rw [this]
      linarith), Int.ceil_eq_iff]
    push_cast
    have := Int.lt_floor_add_one (Real.logb 2 x)
    constructor <;> linarith

/-- `closest`: the power of two with the nearest logarithm; it differs from the number by a
factor of at most the square root of two. (It need not be the nearest one itself, see below.) -/
theorem C47_closest_partial (x : ℝ) (hx : 1 ≤ x) :
    ∃ n : ℕ, nextPower2 x .closest = .ok n ∧ (∃ k : ℕ, n = 2 ^ k) ∧
      (n : ℝ) ^ 2 ≤ 2 * x ^ 2 ∧ x ^ 2 < 2 * (n : ℝ) ^ 2 := by
  have hpos : 0 < x := by linarith
  have h0 := Real.logb_nonneg (b := 2) (by norm_num) hx
  have hfl : 0 ≤ ⌊Real.logb 2 x⌋ := Int.floor_nonneg.mpr h0
  obtain ⟨hlo, hhi⟩ := exponent_closest x hx
  have key : ∀ e : ℤ, 0 ≤ e → exponent (Real.logb 2 x) .closest = e →
      Real.logb 2 x < e + 1 / 2 → (e : ℝ) - 1 / 2 ≤ Real.logb 2 x →
      ∃ n : ℕ, nextPower2 x .closest = .ok n ∧ (∃ k : ℕ, n = 2 ^ k) ∧
        (n : ℝ) ^ 2 ≤ 2 * x ^ 2 ∧ x ^ 2 < 2 * (n : ℝ) ^ 2 := by
    intro e he hexp h1 h2
    have hroot : ((2 : ℝ) ^ (1 / 2 : ℝ)) ^ 2 = 2 := by
      rw [← Real.rpow_natCast, ← Real.rpow_mul (by norm_num)]
      norm_num
    have hrpos : (0 : ℝ) < 2 ^ (1 / 2 : ℝ) := by positivity
    refine ⟨2 ^ e.toNat, ?_, ⟨_, rfl⟩, ?_, ?_⟩
    · rw [nextPower2_eq x hpos .closest e hexp]
      exact if_neg (not_lt.mpr he)
    · rw [← rpow_intCast_toNat e he]
      rw [Real.le_logb_iff_rpow_le (by norm_num) hpos, Real.rpow_sub (by norm_num),
        div_le_iff₀ hrpos] at h2
      have := pow_le_pow_left₀ (by positivity) h2 2
      rw [mul_pow, hroot] at this
      linarith
    · rw [← rpow_intCast_toNat e he]
      rw [Real.logb_lt_iff_lt_rpow (by norm_num) hpos, Real.rpow_add (by norm_num)] at h1
      have := pow_lt_pow_left₀ h1 hpos.le (by norm_num : (2 : ℕ) ≠ 0)
      rw [mul_pow, hroot] at this
      linarith
  have hf1 := Int.floor_le (Real.logb 2 x)
  have hf2 := Int.lt_floor_add_one (Real.logb 2 x)
  rcases lt_or_ge (Real.logb 2 x) (⌊Real.logb 2 x⌋ + 1 / 2) with h | h
  · exact key _ hfl (hlo h) h (by linarith)
  · refine key _ (by omega) (hhi h) ?_ ?_
    · push_cast
      linarith
    · push_cast
      linarith

/-- The mode `closest` does not return the nearest power of two: 23 becomes 32 although 16 is
nearer. -/
theorem C47_closest_wrong : nextPower2 23 .closest = .ok 32 ∧ |(23 : ℝ) - 16| < |(23 : ℝ) - 32| := by
  refine ⟨?_, by norm_num⟩
  obtain ⟨n, hn, ⟨k, hk⟩, h1, h2⟩ := C47_closest_partial 23 (by norm_num)
  rw [hn, hk]
  rw [hk] at h1 h2
  push_cast at h1 h2
  have hk5 : k = 5 := by
    rcases lt_trichotomy k 5 with h | h | h
    · have : ((2 : ℝ) ^ k) ≤ 2 ^ 4 := pow_le_pow_right₀ (by norm_num) (by omega)
      have h3 := pow_le_pow_left₀ (by positivity) this 2
      norm_num at h3 h2
      linarith
    · exact h
    · have : ((2 : ℝ) ^ 6) ≤ 2 ^ k := pow_le_pow_right₀ (by norm_num) (by omega)
      have h3 := pow_le_pow_left₀ (by positivity) this 2
      norm_num at h3 h1
      linarith
  rw [hk5]
  norm_num

/-- Positive numbers below 1 raise in the modes `floor` and `closest`. -/
theorem C47_below_one (x : ℝ) (h0 : 0 < x) (h1 : x < 1) :
    nextPower2 x .floor = .error .valueError ∧ nextPower2 x .closest = .error .valueError := by
  have hneg : Real.logb 2 x < 0 := Real.logb_neg (by norm_num) h0 h1
  have hfl : ⌊Real.logb 2 x⌋ < 0 := by
    rw [Int.floor_lt]
    exact_mod_cast hneg
  refine ⟨?_, ?_⟩
  · rw [nextPower2_eq x h0 .floor _ rfl]
    exact if_pos hfl
  · have hint : pyInt (Real.logb 2 x) = ⌈Real.logb 2 x⌉ := if_neg (not_le.mpr hneg)
    have hexp : exponent (Real.logb 2 x) .closest = ⌊Real.logb 2 x⌋ := by
      simp only [exponent, hint]
      rw [if_pos (show Real.logb 2 x - (⌈Real.logb 2 x⌉ : ℝ) < 0.5 by
        have := Int.le_ceil (Real.logb 2 x)
        have : (0.5 : ℝ) = 1 / 2 := by norm_num
        rw [this]
        linarith)]
    rw [nextPower2_eq x h0 .closest _ hexp]
    exact if_pos hfl

/-- Concrete case: 100 lies between 64 and 128. -/
example : nextPower2 100 .floor = .ok 64 ∧ nextPower2 100 .ceil = .ok 128 := by
  constructor
  · obtain ⟨n, hn, ⟨k, rfl⟩, h1, h2⟩ := C47_floor 100 (by norm_num)
    rw [hn]
    have a := h2 6 (by norm_num)
    have b : 2 ^ k < 2 ^ 7 := by
      have : (2 ^ k : ℕ) ≤ 100 := by exact_mod_cast h1
      omega
    have b' : k < 7 := (Nat.pow_lt_pow_iff_right (by norm_num)).mp b
    have a' : 6 ≤ k := (Nat.pow_le_pow_iff_right (by norm_num)).mp a
    obtain rfl : k = 6 := by omega
    rfl
  · obtain ⟨n, hn, ⟨k, rfl⟩, h1, h2⟩ := C47_ceil 100 (by norm_num)
    rw [hn]
    have a := h2 7 (by norm_num)
    have b : 2 ^ 6 < 2 ^ k := by
      have : 100 ≤ (2 ^ k : ℕ) := by exact_mod_cast h1
      omega
    have b' : 6 < k := (Nat.pow_lt_pow_iff_right (by norm_num)).mp b
    have a' : k ≤ 7 := (Nat.pow_le_pow_iff_right (by norm_num)).mp a
    obtain rfl : k = 7 := by omega
    rfl

end Verif.Helpers

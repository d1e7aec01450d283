import Verif.Model.Double
import Mathlib.Algebra.Order.Floor.Ring
import Mathlib.Algebra.Order.Field.Power
import Mathlib.Tactic.Linarith
import Mathlib.Tactic.FieldSimp
import Mathlib.Tactic.Positivity
import Mathlib.Tactic.NormNum
import Mathlib.Tactic.Ring

/-! Lemmas about the rounding of floating point numbers. -/

namespace Verif.Double

/-- Rounding of a rational number to the nearest integer, ties to even. -/
def rhe (t : ℚ) : ℤ :=
  if Int.fract t < 1 / 2 then ⌊t⌋
  else if 1 / 2 < Int.fract t then ⌊t⌋ + 1
  else if ⌊t⌋ % 2 = 0 then ⌊t⌋ else ⌊t⌋ + 1

theorem rhe_floor (t : ℚ) : ⌊t⌋ ≤ rhe t ∧ rhe t ≤ ⌊t⌋ + 1 := by
  unfold rhe
  split_ifs <;> omega

theorem rhe_mono {t s : ℚ} (h : t ≤ s) : rhe t ≤ rhe s := by
  have hf : ⌊t⌋ ≤ ⌊s⌋ := Int.floor_mono h
  rcases lt_or_eq_of_le hf with hlt | heq
  · have := (rhe_floor t).2
    have := (rhe_floor s).1
    omega
  · have hfr : Int.fract t ≤ Int.fract s := by
      unfold Int.fract
      rw [heq]
      linarith
    unfold rhe
    rw [← heq]
    split_ifs <;> first | omega | (exfalso; linarith)

theorem rhe_near (t : ℚ) : |(rhe t : ℚ) - t| ≤ 1 / 2 := by
  have h0 := Int.fract_nonneg t
  have h1 := Int.fract_lt_one t
  have ht : t = ⌊t⌋ + Int.fract t := (Int.floor_add_fract t).symm
  rw [abs_le]
  unfold rhe
  split_ifs <;> push_cast <;> constructor <;> linarith

theorem rhe_int (n : ℤ) : rhe n = n := by
  unfold rhe
  rw [Int.fract_intCast, if_pos (by norm_num), Int.floor_intCast]

/-- A number less than one half away from an integer is rounded to it. -/
theorem rhe_of_near (t : ℚ) (n : ℤ) (h : |t - n| < 1 / 2) : rhe t = n := by
  have h1 := rhe_near t
  rw [abs_lt] at h
  rw [abs_le] at h1
  have h2 : ((rhe t - n : ℤ) : ℚ) < 1 := by push_cast; linarith
  have h3 : (-1 : ℚ) < ((rhe t - n : ℤ) : ℚ) := by push_cast; linarith
  have h4 : rhe t - n < 1 := by exact_mod_cast h2
  have h5 : -1 < rhe t - n := by exact_mod_cast h3
  omega

theorem roundHalfEven_eq (p q : ℕ) (hq : 0 < q) : (roundHalfEven p q : ℤ) = rhe ((p : ℚ) / q) := by
  have hq' : (0 : ℚ) < q := by exact_mod_cast hq
  have hfl : ⌊(p : ℚ) / q⌋ = ((p / q : ℕ) : ℤ) := by
    have h1 : ((p / q * q : ℕ) : ℚ) ≤ p := by exact_mod_cast Nat.div_mul_le_self p q
    have h2 : (p : ℚ) < ((p / q * q + q : ℕ) : ℚ) := by
      have := Nat.lt_div_mul_add (a := p) hq
      exact_mod_cast this
    push_cast at h1 h2
    rw [Int.floor_eq_iff, Int.cast_natCast, le_div_iff₀ hq', div_lt_iff₀ hq']
    exact ⟨h1, by linarith⟩
  have hfr : Int.fract ((p : ℚ) / q) = ((p % q : ℕ) : ℚ) / q := by
    unfold Int.fract
    rw [hfl]
    have h := Nat.div_add_mod p q
    have h2 : (p : ℚ) = q * ((p / q : ℕ) : ℚ) + ((p % q : ℕ) : ℚ) := by exact_mod_cast h.symm
    rw [Int.cast_natCast]
    field_simp
    linarith
  unfold roundHalfEven rhe
  dsimp only
  have c1 : ((p % q : ℕ) : ℚ) / q < 1 / 2 ↔ 2 * (p % q) < q := by
    rw [div_lt_iff₀ hq', ← Nat.cast_lt (α := ℚ)]
    push_cast
    constructor <;> intro h <;> linarith
  have c2 : 1 / 2 < ((p % q : ℕ) : ℚ) / q ↔ q < 2 * (p % q) := by
    rw [lt_div_iff₀ hq', ← Nat.cast_lt (α := ℚ)]
    push_cast
    constructor <;> intro h <;> linarith
  simp only [hfr, hfl, c1, c2]
  split_ifs <;> first | rfl | omega

theorem bitLength_spec (n : ℕ) (hn : 0 < n) :
    (2 : ℚ) ^ ((bitLength n : ℤ) - 1) ≤ n ∧ (n : ℚ) < (2 : ℚ) ^ (bitLength n : ℤ) := by
  unfold bitLength
  rw [if_neg (by omega), Nat.log2_eq_log_two]
  push_cast
  rw [add_sub_cancel_right]
  constructor
  · rw [zpow_natCast]
    exact_mod_cast Nat.pow_log_le_self 2 (by omega)
  · have := Nat.lt_pow_succ_log_self (b := 2) (by norm_num) n
    rw [show ((Nat.log 2 n : ℤ) + 1) = ((Nat.log 2 n + 1 : ℕ) : ℤ) by push_cast; rfl, zpow_natCast]
    exact_mod_cast this

/-- The rounding of a positive quotient: scaled to `P` digits, rounded to an integer, scaled back. -/
theorem roundPos_spec (P p q : ℕ) (hp : 0 < p) (hq : 0 < q) :
    ∃ e : ℤ, (2 : ℚ) ^ ((P : ℤ) - 1) ≤ (p : ℚ) / q / 2 ^ e ∧ (p : ℚ) / q / 2 ^ e < 2 ^ (P : ℤ) ∧
      roundPos P p q = rhe ((p : ℚ) / q / 2 ^ e) * 2 ^ e := by
  obtain ⟨hp1, hp2⟩ := bitLength_spec p hp
  obtain ⟨hq1, hq2⟩ := bitLength_spec q hq
  have hp0 : (0 : ℚ) < p := by exact_mod_cast hp
  have hq0 : (0 : ℚ) < q := by exact_mod_cast hq
  unfold roundPos
  dsimp only
  set e : ℤ := (bitLength p : ℤ) - bitLength q - P with he
  set p' : ℕ := if e < 0 then p * 2 ^ (-e).toNat else p with hp'
  set q' : ℕ := if e < 0 then q else q * 2 ^ e.toNat with hq'
  have hq'0 : 0 < q' := by
    rw [hq']
    split_ifs <;> positivity
  have hquot : (p' : ℚ) / q' = (p : ℚ) / q / 2 ^ e := by
    rw [hp', hq']
    by_cases h : e < 0
    · rw [if_pos h, if_pos h]
      push_cast
      rw [← zpow_natCast (2 : ℚ) (-e).toNat, Int.toNat_of_nonneg (by omega), zpow_neg]
      field_simp
    · rw [if_neg h, if_neg h]
      push_cast
      rw [← zpow_natCast (2 : ℚ) e.toNat, Int.toNat_of_nonneg (by omega)]
      field_simp
  have two0 : ∀ k : ℤ, (0 : ℚ) < 2 ^ k := fun k => by positivity
  -- the scaled quotient has `P` or `P + 1` digits
  have hlow : (2 : ℚ) ^ ((P : ℤ) - 1) ≤ (p : ℚ) / q / 2 ^ e := by
    rw [le_div_iff₀ (two0 e), le_div_iff₀ hq0, ← zpow_add₀ (by norm_num),
      show (P : ℤ) - 1 + e = (bitLength p : ℤ) - 1 - bitLength q by omega, zpow_sub₀ (by norm_num)]
    calc (2 : ℚ) ^ ((bitLength p : ℤ) - 1) / 2 ^ (bitLength q : ℤ) * q
        ≤ (2 : ℚ) ^ ((bitLength p : ℤ) - 1) / 2 ^ (bitLength q : ℤ) * 2 ^ (bitLength q : ℤ) :=
          mul_le_mul_of_nonneg_left hq2.le (by positivity)
      _ = (2 : ℚ) ^ ((bitLength p : ℤ) - 1) := by field_simp
      _ ≤ p := hp1
  have hhigh : (p : ℚ) / q / 2 ^ e < 2 ^ ((P : ℤ) + 1) := by
    rw [div_lt_iff₀ (two0 e), div_lt_iff₀ hq0, ← zpow_add₀ (by norm_num),
      show (P : ℤ) + 1 + e = (bitLength p : ℤ) - ((bitLength q : ℤ) - 1) by omega, zpow_sub₀ (by norm_num)]
    calc (p : ℚ) < 2 ^ (bitLength p : ℤ) := hp2
      _ = 2 ^ (bitLength p : ℤ) / 2 ^ ((bitLength q : ℤ) - 1) * 2 ^ ((bitLength q : ℤ) - 1) := by field_simp
      _ ≤ 2 ^ (bitLength p : ℤ) / 2 ^ ((bitLength q : ℤ) - 1) * q :=
          mul_le_mul_of_nonneg_left hq1 (by positivity)
  have hbig : 2 ^ P ≤ p' / q' ↔ (2 : ℚ) ^ (P : ℤ) ≤ (p : ℚ) / q / 2 ^ e := by
    rw [← hquot, Nat.le_div_iff_mul_le hq'0, le_div_iff₀ (by exact_mod_cast hq'0), zpow_natCast]
    exact_mod_cast Iff.rfl
  by_cases hb : 2 ^ P ≤ p' / q'
  · refine ⟨e + 1, ?_, ?_, ?_⟩
    · have := hbig.mp hb
      rw [zpow_add_one₀ (by norm_num), ← div_div, le_div_iff₀ (by norm_num), zpow_sub_one₀ (by norm_num)]
      linarith
    · rw [zpow_add_one₀ (by norm_num) e, ← div_div, div_lt_iff₀ (by norm_num), ← zpow_add_one₀ (by norm_num)]
      exact hhigh
    · rw [if_pos hb, if_pos hb]
      congr 1
      have h := roundHalfEven_eq p' (q' * 2) (by omega)
      rw [show (roundHalfEven p' (q' * 2) : ℚ) = ((roundHalfEven p' (q' * 2) : ℤ) : ℚ) by push_cast; rfl, h]
      congr 2
      push_cast
      rw [← div_div, hquot, zpow_add_one₀ (by norm_num), ← div_div _ ((2 : ℚ) ^ e)]
  · refine ⟨e, hlow, ?_, ?_⟩
    · rw [hbig, not_le] at hb
      exact hb
    · rw [if_neg hb, if_neg hb]
      congr 1
      have h := roundHalfEven_eq p' q' hq'0
      rw [show (roundHalfEven p' q' : ℚ) = ((roundHalfEven p' q' : ℤ) : ℚ) by push_cast; rfl, h, hquot]

theorem rndTo_zero (P : ℕ) : rndTo P 0 = 0 := if_pos rfl

theorem rndTo_neg (P : ℕ) (x : ℚ) : rndTo P (-x) = - rndTo P x := by
  unfold rndTo
  rcases lt_trichotomy x 0 with h | h | h
  · rw [if_neg (by linarith), if_pos (by linarith), if_neg h.ne, if_neg (by linarith), neg_neg, Rat.neg_num,
      Int.natAbs_neg, Rat.neg_den]
  · simp [h]
  · rw [if_neg (by linarith), if_neg (by linarith), if_neg h.ne', if_pos h, Rat.neg_num, Int.natAbs_neg,
      Rat.neg_den]

/-- The rounding of a positive number. -/
theorem rndTo_pos (P : ℕ) (x : ℚ) (hx : 0 < x) :
    ∃ e : ℤ, (2 : ℚ) ^ ((P : ℤ) - 1) ≤ x / 2 ^ e ∧ x / 2 ^ e < 2 ^ (P : ℤ) ∧
      rndTo P x = rhe (x / 2 ^ e) * 2 ^ e := by
  have hn : 0 < x.num.natAbs := Int.natAbs_pos.mpr (Rat.num_pos.mpr hx).ne'
  have hxe : (x.num.natAbs : ℚ) / x.den = x := by
    have : ((x.num.natAbs : ℤ) : ℚ) = x.num := by
      rw [Int.natAbs_of_nonneg (Rat.num_pos.mpr hx).le]
    rw [Int.cast_natCast] at this
    rw [this, Rat.num_div_den]
  obtain ⟨e, h1, h2, h3⟩ := roundPos_spec P x.num.natAbs x.den hn x.den_pos
  rw [hxe] at h1 h2 h3
  refine ⟨e, h1, h2, ?_⟩
  unfold rndTo
  rw [if_neg hx.ne', if_pos hx, h3]

theorem rhe_range (P : ℕ) (hP : 1 ≤ P) (t : ℚ) (h1 : (2 : ℚ) ^ ((P : ℤ) - 1) ≤ t) (h2 : t < 2 ^ (P : ℤ)) :
    (2 : ℚ) ^ ((P : ℤ) - 1) ≤ rhe t ∧ (rhe t : ℚ) ≤ 2 ^ (P : ℤ) := by
  constructor
  · have h : rhe ((2 ^ (P - 1) : ℤ) : ℚ) ≤ rhe t := by
      refine rhe_mono (le_trans (le_of_eq ?_) h1)
      rw [show (P : ℤ) - 1 = ((P - 1 : ℕ) : ℤ) by omega, zpow_natCast]
      push_cast
      rfl
    rw [rhe_int] at h
    rw [show (P : ℤ) - 1 = ((P - 1 : ℕ) : ℤ) by omega, zpow_natCast]
    exact_mod_cast h
  · have h : rhe t ≤ rhe ((2 ^ P : ℤ) : ℚ) := by
      refine rhe_mono (le_trans h2.le (le_of_eq ?_))
      rw [zpow_natCast]
      push_cast
      rfl
    rw [rhe_int] at h
    rw [zpow_natCast]
    exact_mod_cast h

theorem two_pos (k : ℤ) : (0 : ℚ) < 2 ^ k := by positivity

/-- Position of the leading digit: the scaling exponent is determined by the size of the number. -/
theorem exponent_unique (P : ℕ) (x : ℚ) (e j : ℤ) (h1 : (2 : ℚ) ^ ((P : ℤ) - 1) ≤ x / 2 ^ e)
    (h2 : x / 2 ^ e < 2 ^ (P : ℤ)) (h3 : (2 : ℚ) ^ j ≤ x) (h4 : x < 2 ^ (j + 1)) : e = j - P + 1 := by
  rw [le_div_iff₀ (two_pos e), ← zpow_add₀ (by norm_num)] at h1
  rw [div_lt_iff₀ (two_pos e), ← zpow_add₀ (by norm_num)] at h2
  have a := (zpow_lt_zpow_iff_right₀ (by norm_num : (1 : ℚ) < 2)).mp (lt_of_le_of_lt h1 h4)
  have b := (zpow_lt_zpow_iff_right₀ (by norm_num : (1 : ℚ) < 2)).mp (lt_of_le_of_lt h3 h2)
  omega

theorem rndTo_nonneg (P : ℕ) (hP : 1 ≤ P) (x : ℚ) (hx : 0 ≤ x) : 0 ≤ rndTo P x := by
  rcases hx.eq_or_lt with rfl | hx
  · rw [rndTo_zero]
  · obtain ⟨e, h1, h2, h3⟩ := rndTo_pos P x hx
    rw [h3]
    exact mul_nonneg (le_trans (two_pos _).le (rhe_range P hP _ h1 h2).1) (two_pos e).le

theorem rndTo_mono_pos (P : ℕ) (hP : 1 ≤ P) (x y : ℚ) (hx : 0 < x) (h : x ≤ y) : rndTo P x ≤ rndTo P y := by
  have hy := lt_of_lt_of_le hx h
  obtain ⟨e, h1, h2, h3⟩ := rndTo_pos P x hx
  obtain ⟨f, g1, g2, g3⟩ := rndTo_pos P y hy
  have r1 := rhe_range P hP _ h1 h2
  have r2 := rhe_range P hP _ g1 g2
  rw [h3, g3]
  rcases lt_trichotomy e f with hef | rfl | hef
  · calc (rhe (x / 2 ^ e) : ℚ) * 2 ^ e ≤ 2 ^ (P : ℤ) * 2 ^ e :=
          mul_le_mul_of_nonneg_right r1.2 (two_pos e).le
      _ = 2 ^ ((P : ℤ) + e) := (zpow_add₀ (by norm_num) _ _).symm
      _ ≤ 2 ^ ((P : ℤ) - 1 + f) := zpow_le_zpow_right₀ (by norm_num) (by omega)
      _ = 2 ^ ((P : ℤ) - 1) * 2 ^ f := zpow_add₀ (by norm_num) _ _
      _ ≤ _ := mul_le_mul_of_nonneg_right r2.1 (two_pos f).le
  · refine mul_le_mul_of_nonneg_right ?_ (two_pos e).le
    exact_mod_cast rhe_mono (div_le_div_of_nonneg_right h (two_pos e).le)
  · exfalso
    rw [le_div_iff₀ (two_pos e), ← zpow_add₀ (by norm_num)] at h1
    rw [div_lt_iff₀ (two_pos f), ← zpow_add₀ (by norm_num)] at g2
    have := (zpow_lt_zpow_iff_right₀ (by norm_num : (1 : ℚ) < 2)).mp (lt_of_le_of_lt (h1.trans h) g2)
    omega

/-- Rounding is monotone. -/
theorem rndTo_mono (P : ℕ) (hP : 1 ≤ P) (x y : ℚ) (h : x ≤ y) : rndTo P x ≤ rndTo P y := by
  rcases lt_or_ge 0 x with hx | hx
  · exact rndTo_mono_pos P hP x y hx h
  · rcases le_or_gt 0 y with hy | hy
    · have h1 := rndTo_nonneg P hP (-x) (by linarith)
      rw [rndTo_neg] at h1
      have h2 := rndTo_nonneg P hP y hy
      linarith
    · have := rndTo_mono_pos P hP (-y) (-x) (by linarith) (by linarith)
      rw [rndTo_neg, rndTo_neg] at this
      linarith

/-- The relative error is at most one half of the last digit. -/
theorem rndTo_error (P : ℕ) (x : ℚ) : |rndTo P x - x| ≤ |x| / 2 ^ P := by
  have key : ∀ x : ℚ, 0 < x → |rndTo P x - x| ≤ x / 2 ^ P := by
    intro x hx
    obtain ⟨e, h1, h2, h3⟩ := rndTo_pos P x hx
    have he := two_pos e
    have hx' : x = x / 2 ^ e * 2 ^ e := by field_simp
    have h4 : |rndTo P x - x| = |(rhe (x / 2 ^ e) : ℚ) - x / 2 ^ e| * 2 ^ e := by
      rw [h3, ← abs_of_pos he, ← abs_mul, abs_of_pos he, sub_mul]
      congr 2
    rw [h4]
    have h5 := rhe_near (x / 2 ^ e)
    rw [zpow_sub_one₀ (by norm_num), zpow_natCast] at h1
    have hP : (0 : ℚ) < 2 ^ P := by positivity
    rw [le_div_iff₀ hP]
    rw [le_div_iff₀ he] at h1
    calc |(rhe (x / 2 ^ e) : ℚ) - x / 2 ^ e| * 2 ^ e * 2 ^ P ≤ 1 / 2 * 2 ^ e * 2 ^ P := by gcongr
      _ = (2 ^ P * 2⁻¹) * 2 ^ e := by ring
      _ ≤ x := h1
  rcases lt_trichotomy x 0 with h | rfl | h
  · have := key (-x) (by linarith)
    rw [rndTo_neg, ← neg_add', abs_neg, ← sub_eq_add_neg] at this
    rwa [abs_of_neg h]
  · simp [rndTo_zero]
  · rw [abs_of_pos h]
    exact key x h

/-- A number with leading digit `2 ^ j` that is less than half a digit away from an integer is rounded to
this integer. -/
theorem rndTo_of_near (P : ℕ) (x : ℚ) (n : ℤ) (j : ℤ) (hj : j < P) (h1 : (2 : ℚ) ^ j ≤ x) (h2 : x < 2 ^ (j + 1))
    (h : |x - n| < 2 ^ (j - P)) : rndTo P x = n := by
  have hx : 0 < x := lt_of_lt_of_le (two_pos j) h1
  obtain ⟨e, g1, g2, g3⟩ := rndTo_pos P x hx
  have he := exponent_unique P x e j g1 g2 h1 h2
  have e0 := two_pos e
  have hle : e ≤ 0 := by omega
  have hint : (n : ℚ) / 2 ^ e = ((n * 2 ^ (-e).toNat : ℤ) : ℚ) := by
    push_cast
    rw [← zpow_natCast (2 : ℚ) (-e).toNat, Int.toNat_of_nonneg (by omega), zpow_neg]
    rfl
  have hr : rhe (x / 2 ^ e) = n * 2 ^ (-e).toNat := by
    refine rhe_of_near _ _ ?_
    rw [← hint, ← sub_div, abs_div, abs_of_pos e0, div_lt_iff₀ e0]
    refine lt_of_lt_of_le h (le_of_eq ?_)
    rw [show e = j - P + 1 from he, zpow_add_one₀ (by norm_num)]
    ring
  rw [g3, hr, ← hint]
  field_simp

/-- Numbers with at most `P` digits are not changed. -/
theorem rndTo_fixed (P : ℕ) (hP : 1 ≤ P) (m : ℤ) (hm : |m| ≤ 2 ^ P) (i : ℤ) :
    rndTo P (m * 2 ^ i) = m * 2 ^ i := by
  have key : ∀ m : ℤ, 0 < m → m ≤ 2 ^ P → rndTo P (m * 2 ^ i) = m * 2 ^ i := by
    intro m hm0 hm
    have hm0' : (0 : ℚ) < m := by exact_mod_cast hm0
    have hm' : (m : ℚ) ≤ 2 ^ P := by exact_mod_cast hm
    obtain ⟨e, g1, g2, g3⟩ := rndTo_pos P (m * 2 ^ i) (mul_pos hm0' (two_pos i))
    have ht : (m : ℚ) * 2 ^ i / 2 ^ e = m * 2 ^ (i - e) := by rw [zpow_sub₀ (by norm_num), mul_div_assoc]
    have hint : ∃ k : ℤ, (m : ℚ) * 2 ^ i / 2 ^ e = k := by
      rw [ht] at g1 ⊢
      rcases le_or_gt e i with hei | hei
      · refine ⟨m * 2 ^ (i - e).toNat, ?_⟩
        push_cast
        rw [← zpow_natCast (2 : ℚ) (i - e).toNat, Int.toNat_of_nonneg (by omega)]
      · have h1 : (2 : ℚ) ^ ((P : ℤ) - 1) ≤ 2 ^ ((P : ℤ) + (i - e)) := by
          rw [zpow_add₀ (by norm_num) (P : ℤ), zpow_natCast]
          exact g1.trans (mul_le_mul_of_nonneg_right hm' (two_pos _).le)
        have h2 := (zpow_le_zpow_iff_right₀ (by norm_num : (1 : ℚ) < 2)).mp h1
        have h3 : i - e = -1 := by omega
        rw [h3] at g1 ⊢
        have h4 : (m : ℚ) = 2 ^ P := by
          refine le_antisymm hm' ?_
          rw [zpow_sub_one₀ (by norm_num), zpow_natCast, zpow_neg_one] at g1
          linarith
        refine ⟨2 ^ (P - 1), ?_⟩
        rw [h4]
        push_cast
        conv_lhs => rw [show P = P - 1 + 1 by omega, pow_succ]
        rw [zpow_neg_one]
        ring
    obtain ⟨k, hk⟩ := hint
    rw [g3, hk, rhe_int, ← hk]
    field_simp
  rcases lt_trichotomy m 0 with h | rfl | h
  · have h5 := key (-m) (by omega) (by rw [abs_of_neg h] at hm; exact hm)
    push_cast at h5
    rw [neg_mul, rndTo_neg] at h5
    linarith
  · simp [rndTo_zero]
  · exact key m h (by rw [abs_of_pos h] at hm; exact hm)

/-- Half a unit in the last place. -/
theorem rndTo_half (P : ℕ) (x : ℚ) (k : ℤ) (h1 : (2 : ℚ) ^ k ≤ x) (h2 : x < 2 ^ (k + 1)) :
    |rndTo P x - x| ≤ 2 ^ (k - P) := by
  have hx : 0 < x := lt_of_lt_of_le (two_pos k) h1
  obtain ⟨e, g1, g2, g3⟩ := rndTo_pos P x hx
  have he := exponent_unique P x e k g1 g2 h1 h2
  have e0 := two_pos e
  have hx' : x / 2 ^ e * 2 ^ e = x := by field_simp
  have h4 : rndTo P x - x = (rhe (x / 2 ^ e) - x / 2 ^ e) * 2 ^ e := by
    rw [g3, sub_mul, hx']
  rw [h4, abs_mul, abs_of_pos e0]
  calc |(rhe (x / 2 ^ e) : ℚ) - x / 2 ^ e| * 2 ^ e ≤ 1 / 2 * 2 ^ e :=
        mul_le_mul_of_nonneg_right (rhe_near _) e0.le
    _ = 2 ^ (k - P) := by
        rw [he, zpow_add₀ (by norm_num), zpow_one]; ring

/-- A rounded number is not changed by another rounding. -/
theorem rndTo_idem (P : ℕ) (hP : 1 ≤ P) (x : ℚ) : rndTo P (rndTo P x) = rndTo P x := by
  have key : ∀ x : ℚ, 0 < x → rndTo P (rndTo P x) = rndTo P x := by
    intro x hx
    obtain ⟨e, h1, h2, h3⟩ := rndTo_pos P x hx
    have hr := rhe_range P hP _ h1 h2
    rw [h3]
    refine rndTo_fixed P hP _ ?_ e
    have h0 : (0 : ℚ) ≤ rhe (x / 2 ^ e) := le_trans (two_pos _).le hr.1
    have h4 : (0 : ℤ) ≤ rhe (x / 2 ^ e) := by exact_mod_cast h0
    rw [abs_of_nonneg h4]
    have h5 := hr.2
    rw [zpow_natCast] at h5
    exact_mod_cast h5
  rcases lt_trichotomy x 0 with h | h | h
  · have := key (-x) (by linarith)
    rw [rndTo_neg, rndTo_neg] at this
    linarith
  · rw [h, rndTo_zero, rndTo_zero]
  · exact key x h

end Verif.Double

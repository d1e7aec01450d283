import Verif.Model.SampleFormat
import Verif.Lemmas.Double
import Mathlib.Algebra.Order.Archimedean.Basic
import Mathlib.Tactic.NormNum
import Mathlib.Tactic.Linarith
import Mathlib.Tactic.FieldSimp
import Mathlib.Tactic.Positivity

/-!
# C25: conversion of sample formats
-/

namespace Verif.SampleFormat

/-- What the general theorems need of a rounding function with `P` digits: it is monotone and does not
change integers up to `2 ^ P`. -/
structure IsRounding (P : ℕ) (r : ℚ → ℚ) : Prop where
  mono : ∀ x y, x ≤ y → r x ≤ r y
  int : ∀ n : ℤ, |n| ≤ 2 ^ P → r n = n

/-- Exact arithmetic. -/
theorem isRounding_id (P : ℕ) : IsRounding P id := ⟨fun _ _ h => h, fun _ _ => rfl⟩

/-- Rounding to `P` binary digits, half to even: IEEE double (53) and single precision (24). -/
theorem isRounding_digits (P : ℕ) (hP : 1 ≤ P) : IsRounding P (Double.rndTo P) :=
  ⟨Double.rndTo_mono P hP, fun n hn => by simpa using Double.rndTo_fixed P hP n hn 0⟩

/-- Lowest value of the format, its centre and its highest value. -/
def Format.low : Format → ℚ
  | .fixed true bits => -maxValue bits
  | .fixed false _ => 0
  | _ => -1

/-- Value of silence. -/
def Format.centre : Format → ℚ
  | .fixed false bits => maxValue bits
  | _ => 0

/-- Full scale. -/
def Format.high : Format → ℚ
  | .fixed true bits => maxValue bits
  | .fixed false bits => 2 * maxValue bits
  | _ => 1

private theorem trunc_mono {x y : ℚ} (h : x ≤ y) : trunc x ≤ trunc y := by
  unfold trunc
  split_ifs with h1 h2 h2
  · exact Int.floor_mono h
  · exfalso; linarith
  · have h3 : ⌈x⌉ ≤ 0 := Int.ceil_le.mpr (by push_cast; linarith)
    have h4 : 0 ≤ ⌊y⌋ := Int.floor_nonneg.mpr h2
    omega
  · exact Int.ceil_mono h

private theorem trunc_int (n : ℤ) : trunc n = n := by
  unfold trunc
  split_ifs <;> simp

private theorem max_int (bits : ℕ) : maxValue bits = ((2 ^ (bits - 1) - 1 : ℤ) : ℚ) := by
  unfold maxValue
  push_cast
  rfl

private theorem max_pos {bits : ℕ} (h : 2 ≤ bits) : 0 < maxValue bits := by
  unfold maxValue
  have : (2 : ℚ) ^ 1 ≤ 2 ^ (bits - 1) := pow_le_pow_right₀ (by norm_num) (by omega)
  linarith

private theorem max_small {bits : ℕ} (h : bits ≤ 32) :
    ((2 : ℤ) ^ (bits - 1) - 1) ≤ 2 ^ 31 ∧ 0 ≤ ((2 : ℤ) ^ (bits - 1) - 1) := by
  have h1 : (2 : ℤ) ^ (bits - 1) ≤ 2 ^ 31 := pow_le_pow_right₀ (by norm_num) (by omega)
  have h2 : (1 : ℤ) ≤ 2 ^ (bits - 1) := one_le_pow₀ (by norm_num)
  omega

private theorem valid_bits {signed : Bool} {bits : ℕ} (h : (Format.fixed signed bits).valid = true) :
    2 ≤ bits ∧ bits ≤ 32 := by
  simp only [Format.valid, decide_eq_true_eq] at h
  omega

section general
variable {r64 r32 : ℚ → ℚ} (h64 : IsRounding 53 r64) (h32 : IsRounding 24 r32)

private theorem clip_mono {x y : ℚ} (h : x ≤ y) : clip x ≤ clip y := by
  unfold clip
  exact min_le_min_right _ (max_le_max_right _ h)

private theorem clip_range (x : ℚ) : -1 ≤ clip x ∧ clip x ≤ 1 := by
  unfold clip
  exact ⟨le_min (le_max_right _ _) (by norm_num), min_le_right _ _⟩

include h64 in
private theorem toUnit_mono (f : Format) (hf : f.valid = true) {x y : ℚ} (h : x ≤ y) :
    toUnit r64 f x ≤ toUnit r64 f y := by
  cases f with
  | f32 => exact clip_mono h
  | f64 => exact clip_mono h
  | fixed signed bits =>
    have hpos := max_pos (valid_bits hf).1
    have h1 : r64 (x / maxValue bits) ≤ r64 (y / maxValue bits) :=
      h64.mono _ _ (div_le_div_of_nonneg_right h hpos.le)
    cases signed with
    | true => exact clip_mono (by simpa using h1)
    | false => exact clip_mono (by simpa using h64.mono _ _ (by linarith))

private theorem toUnit_range (f : Format) (x : ℚ) :
    -1 ≤ toUnit r64 f x ∧ toUnit r64 f x ≤ 1 := by
  cases f <;> exact clip_range _

include h64 in
private theorem toUnit_points (f : Format) (hf : f.valid = true) :
    toUnit r64 f f.low = -1 ∧ toUnit r64 f f.centre = 0 ∧ toUnit r64 f f.high = 1 := by
  have hm : r64 (-1) = -1 := by exact_mod_cast h64.int (-1) (by norm_num)
  have h0 : r64 0 = 0 := by exact_mod_cast h64.int 0 (by norm_num)
  have h1 : r64 1 = 1 := by exact_mod_cast h64.int 1 (by norm_num)
  have h2 : r64 2 = 2 := by exact_mod_cast h64.int 2 (by norm_num)
  cases f with
  | f32 => norm_num [toUnit, clip, Format.low, Format.centre, Format.high]
  | f64 => norm_num [toUnit, clip, Format.low, Format.centre, Format.high]
  | fixed signed bits =>
    have hpos := max_pos (valid_bits hf).1
    have e1 : -maxValue bits / maxValue bits = -1 := by field_simp
    have e2 : maxValue bits / maxValue bits = 1 := by field_simp
    have e3 : 2 * maxValue bits / maxValue bits = 2 := by field_simp
    cases signed with
    | true => norm_num [toUnit, clip, Format.low, Format.centre, Format.high, e1, e2, hm, h0, h1]
    | false =>
      norm_num [toUnit, clip, Format.low, Format.centre, Format.high, e2, e3, hm, h0, h1, h2]

include h32 in
private theorem fromUnit_mono {P : ℕ} {r : ℚ → ℚ} (hr : IsRounding P r) (f : Format) {x y : ℚ} (h : x ≤ y)
    (hf : f.valid = true) : fromUnit r r32 f x ≤ fromUnit r r32 f y := by
  cases f with
  | f32 => exact h32.mono _ _ h
  | f64 => exact h
  | fixed signed bits =>
    have hpos := max_pos (valid_bits hf).1
    have hpos' : 0 ≤ r (maxValue bits) := by
      have h0 : r 0 = 0 := by exact_mod_cast hr.int 0 (by simp)
      rw [← h0]
      exact hr.mono _ _ hpos.le
    have h1 : r (x * r (maxValue bits)) ≤ r (y * r (maxValue bits)) :=
      hr.mono _ _ (mul_le_mul_of_nonneg_right h hpos')
    cases signed with
    | true =>
      simp only [fromUnit, if_true]
      exact_mod_cast trunc_mono h1
    | false =>
      simp only [fromUnit, Bool.false_eq_true, if_false]
      exact_mod_cast trunc_mono (hr.mono _ _ (by linarith :
        r (x * r (maxValue bits)) + r (maxValue bits) ≤ r (y * r (maxValue bits)) + r (maxValue bits)))

include h32 in
private theorem fromUnit_points {P : ℕ} {r : ℚ → ℚ} (hr : IsRounding P r) (f : Format)
    (hf : ∀ s bits, f = .fixed s bits → 2 ≤ bits ∧ bits ≤ P) :
    fromUnit r r32 f (-1) = f.low ∧ fromUnit r r32 f 0 = f.centre ∧
      fromUnit r r32 f 1 = f.high := by
  cases f with
  | f32 => exact ⟨by exact_mod_cast h32.int (-1) (by norm_num), by exact_mod_cast h32.int 0 (by norm_num),
      by exact_mod_cast h32.int 1 (by norm_num)⟩
  | f64 => exact ⟨rfl, rfl, rfl⟩
  | fixed signed bits =>
    obtain ⟨hb2, hbP⟩ := hf signed bits rfl
    have hs2 : 0 ≤ ((2 : ℤ) ^ (bits - 1) - 1) := by
      have : (1 : ℤ) ≤ 2 ^ (bits - 1) := one_le_pow₀ (by norm_num)
      omega
    have hs1 : 2 * ((2 : ℤ) ^ (bits - 1) - 1) ≤ 2 ^ P := by
      have h1 : (2 : ℤ) ^ bits = 2 * 2 ^ (bits - 1) := by
        conv_lhs => rw [show bits = bits - 1 + 1 by omega, pow_succ]
        ring
      have h2 : (2 : ℤ) ^ bits ≤ 2 ^ P := pow_le_pow_right₀ (by norm_num) hbP
      omega
    set m : ℤ := 2 ^ (bits - 1) - 1 with hm
    have hmq : maxValue bits = (m : ℚ) := max_int bits
    have g (n : ℤ) (hn : |n| ≤ 2 ^ P) : r (n : ℚ) = n := hr.int n hn
    have gm : r (m : ℚ) = m := g m (by rw [abs_of_nonneg hs2]; omega)
    have a1 : r (-1 * (m : ℚ)) = ((-m : ℤ) : ℚ) := by
      rw [← g (-m) (by rw [abs_neg, abs_of_nonneg hs2]; omega)]; push_cast; ring_nf
    have a2 : r (0 * (m : ℚ)) = ((0 : ℤ) : ℚ) := by
      rw [← g 0 (by simp)]; push_cast; ring_nf
    have a3 : r (1 * (m : ℚ)) = (m : ℚ) := by
      rw [one_mul]; exact gm
    have b1 : r (((-m : ℤ) : ℚ) + m) = ((0 : ℤ) : ℚ) := by
      rw [← g 0 (by simp)]; push_cast; ring_nf
    have b2 : r (((0 : ℤ) : ℚ) + m) = (m : ℚ) := by
      rw [Int.cast_zero, zero_add]; exact gm
    have b3 : r ((m : ℚ) + m) = ((2 * m : ℤ) : ℚ) := by
      rw [← g (2 * m) (by rw [abs_of_nonneg (by omega)]; omega)]; push_cast; ring_nf
    cases signed with
    | true =>
      simp only [fromUnit, hmq, gm, a1, a2, a3, trunc_int, if_true, Format.low, Format.centre,
        Format.high]
      push_cast
      simp
    | false =>
      simp only [fromUnit, hmq, gm, a1, a2, a3, b1, b2, b3, trunc_int, Bool.false_eq_true, if_false,
        Format.low, Format.centre, Format.high]
      push_cast
      simp

include h64 h32 in
/-- **C25**, general part: for every pair of valid, different formats (24 bit output as
bytes or without casting, and not from single precision to 32 bits), all monotone roundings of double and
single precision that keep integers of 53 and 24 digits, and every sample:
the conversion succeeds, maps full scale to full scale (on both sides) and silence to
silence, is monotone, and never leaves the range of the target format. -/
theorem C25_conversion_partial (fin fout : Format) (hin : fin.valid = true) (hout : fout.valid = true)
    (hne : fin ≠ fout) (cast bytes : Bool)
    (h24 : cast = true → bytes = false → fout ≠ .fixed true 24 ∧ fout ≠ .fixed false 24)
    (hsingle : fin = .f32 → ∀ s, fout ≠ .fixed s 32) :
    ∃ f : ℚ → ℚ, (∀ v, convert r64 r32 fin fout cast bytes v = .ok (f v)) ∧
      f fin.low = fout.low ∧ f fin.centre = fout.centre ∧ f fin.high = fout.high ∧
      (∀ v w, v ≤ w → f v ≤ f w) ∧ ∀ v, fout.low ≤ f v ∧ f v ≤ fout.high := by
  obtain ⟨P, hP, hbits⟩ : ∃ P, IsRounding P (precision r64 r32 fin) ∧
      ∀ s bits, fout = .fixed s bits → 2 ≤ bits ∧ bits ≤ P := by
    cases fin with
    | f32 =>
      refine ⟨24, h32, fun s bits hf => ?_⟩
      subst hf
      have h1 : bits ≠ 32 := fun e => hsingle rfl s (by rw [e])
      simp only [Format.valid, decide_eq_true_eq] at hout
      omega
    | f64 =>
      refine ⟨53, h64, fun s bits hf => ?_⟩
      subst hf
      have := valid_bits hout
      omega
    | fixed s' b' =>
      refine ⟨53, h64, fun s bits hf => ?_⟩
      subst hf
      have := valid_bits hout
      omega
  obtain ⟨p1, p2, p3⟩ := toUnit_points h64 fin hin
  obtain ⟨q1, q2, q3⟩ := fromUnit_points h32 hP fout hbits
  refine ⟨fun v => fromUnit (precision r64 r32 fin) r32 fout (toUnit r64 fin v), fun v => ?_, ?_, ?_, ?_, ?_, ?_⟩
  · unfold convert
    rw [if_neg hne, if_neg (by simp [hin, hout]), if_neg]
    rintro ⟨h1, h2, h3⟩
    have := h24 h1 (by simpa using h2)
    rcases h3 with h3 | h3
    · exact this.1 h3
    · exact this.2 h3
  · simp only [p1, q1]
  · simp only [p2, q2]
  · simp only [p3, q3]
  · exact fun v w h => fromUnit_mono h32 hP fout (toUnit_mono h64 fin hin h) hout
  · intro v
    obtain ⟨h1, h2⟩ := toUnit_range (r64 := r64) fin v
    exact ⟨q1 ▸ fromUnit_mono h32 hP fout h1 hout, q3 ▸ fromUnit_mono h32 hP fout h2 hout⟩

end general

/-- The same for the arithmetic of the processor: IEEE double and single precision. -/
theorem C25_conversion_ieee_partial (fin fout : Format) (hin : fin.valid = true) (hout : fout.valid = true)
    (hne : fin ≠ fout) (cast bytes : Bool)
    (h24 : cast = true → bytes = false → fout ≠ .fixed true 24 ∧ fout ≠ .fixed false 24)
    (hsingle : fin = .f32 → ∀ s, fout ≠ .fixed s 32) :
    ∃ f : ℚ → ℚ, (∀ v, convert Double.rnd Double.single fin fout cast bytes v = .ok (f v)) ∧
      f fin.low = fout.low ∧ f fin.centre = fout.centre ∧ f fin.high = fout.high ∧
      (∀ v w, v ≤ w → f v ≤ f w) ∧ ∀ v, fout.low ≤ f v ∧ f v ≤ fout.high :=
  C25_conversion_partial (isRounding_digits 53 (by norm_num)) (isRounding_digits 24 (by norm_num)) fin fout hin
    hout hne cast bytes h24 hsingle

/-- **C25** fails from single precision to 32 bits: the largest integer of the format has more digits than
single precision, and full scale becomes an integer above the range of the format. -/
theorem C25_single_to_32_bits_wrong :
    convert Double.rnd Double.single .f32 (.fixed true 32) true true 1 = .ok (2 ^ 31) ∧
    Format.high (.fixed true 32) = 2 ^ 31 - 1 ∧
    convert Double.rnd Double.single .f32 (.fixed false 32) true true 1 = .ok (2 ^ 32) ∧
    Format.high (.fixed false 32) = 2 ^ 32 - 2 := by
  exact ⟨by decide +kernel, by decide +kernel, by decide +kernel, by decide +kernel⟩

/-- **C25**, rejected calls: equal formats, and casting to 24 bits without bytes. -/
theorem C25_rejects (r64 r32 : ℚ → ℚ) (f : Format) (cast bytes : Bool) (v : ℚ) :
    convert r64 r32 f f cast bytes v = .error .assertionError ∧
    ∀ s, convert r64 r32 f (.fixed s 24) true false v = .error .assertionError := by
  refine ⟨by simp [convert], fun s => ?_⟩
  unfold convert
  split_ifs with h1 h2 h3
  · rfl
  · rfl
  · exfalso
    cases s <;> simp at h3
  · rfl

private theorem trunc_of_between {x : ℚ} {n : ℤ} (hn : 0 ≤ n) (h1 : (n : ℚ) ≤ x) (h2 : x < n + 1) :
    trunc x = n := by
  unfold trunc
  rw [if_pos (le_trans (by exact_mod_cast hn) h1), Int.floor_eq_iff]
  exact ⟨h1, h2⟩

/-- **C25**, round trip in exact arithmetic (partial): an integer sample of any format
inside the symmetric range is returned unchanged after the conversion to f64 and back.
Missing: the rounding of double precision, see `C25_signed_double` and `C25_unsigned_double_wrong`. -/
theorem C25_float_round_trip_partial (signed : Bool) (bits : ℕ)
    (hv : (Format.fixed signed bits).valid = true) (n : ℤ)
    (h : (Format.fixed signed bits).low ≤ n ∧ (n : ℚ) ≤ (Format.fixed signed bits).high) :
    ∃ u, convert id id (.fixed signed bits) .f64 true true n = .ok u ∧
      convert id id .f64 (.fixed signed bits) true true u = .ok (n : ℚ) := by
  have hpos := max_pos (valid_bits hv).1
  refine ⟨toUnit id (.fixed signed bits) n, ?_, ?_⟩
  · unfold convert
    rw [if_neg (by simp), if_neg (by simp [hv]; rfl), if_neg (by simp)]
    rfl
  · have hval : convert id id .f64 (.fixed signed bits) true true
        (toUnit id (.fixed signed bits) n) = .ok (fromUnit id id (.fixed signed bits)
          (clip (toUnit id (.fixed signed bits) n))) := by
      unfold convert
      rw [if_neg (by simp), if_neg (by simp [hv]; rfl), if_neg (by simp)]
      rfl
    rw [hval]
    congr 1
    cases signed with
    | true =>
      simp only [Format.low, Format.high] at h
      have h1 : -1 ≤ (n : ℚ) / maxValue bits := by rw [le_div_iff₀ hpos]; linarith
      have h2 : (n : ℚ) / maxValue bits ≤ 1 := by rw [div_le_iff₀ hpos]; linarith
      have hc : clip (n / maxValue bits) = n / maxValue bits := by
        unfold clip
        rw [max_eq_left h1, min_eq_left h2]
      have hm : (n : ℚ) / maxValue bits * maxValue bits = n := by field_simp
      simp [toUnit, fromUnit, hc, hm, trunc_int]
    | false =>
      simp only [Format.low, Format.high] at h
      have h1 : -1 ≤ (n : ℚ) / maxValue bits - 1 := by
        have : 0 ≤ (n : ℚ) / maxValue bits := div_nonneg h.1 hpos.le
        linarith
      have h2 : (n : ℚ) / maxValue bits - 1 ≤ 1 := by
        have : (n : ℚ) / maxValue bits ≤ 2 := by rw [div_le_iff₀ hpos]; linarith
        linarith
      have hc : clip (n / maxValue bits - 1) = n / maxValue bits - 1 := by
        unfold clip
        rw [max_eq_left h1, min_eq_left h2]
      have hm : ((n : ℚ) / maxValue bits - 1) * maxValue bits + maxValue bits = n := by
        field_simp
        ring
      simp [toUnit, fromUnit, hc, hm, trunc_int]

/-- The most negative integer is outside of the symmetric range and does not come back. -/
theorem C25_lowest_clipped : ∃ u, convert id id (.fixed true 8) .f64 true true (-128) = .ok u ∧
    convert id id .f64 (.fixed true 8) true true u = .ok (-127) := by
  exact ⟨-1, by decide +kernel, by decide +kernel⟩

/-- **C25** fails for unsigned formats in double precision: the u8 sample 20 becomes 19
after the conversion to f64 and back. -/
theorem C25_unsigned_double_wrong : ∃ u,
    convert Double.rnd id (.fixed false 8) .f64 true true 20 = .ok u ∧
    convert Double.rnd id .f64 (.fixed false 8) true true u = .ok 19 := by
  exact ⟨toUnit Double.rnd (.fixed false 8) 20, by decide +kernel, by decide +kernel⟩

/-- An integer between two powers of two, divided by the largest value of the format and rounded with a small
error, comes back when it is multiplied again. -/
private theorem back (P b : ℕ) (hb : 2 ≤ b) (n j : ℕ) (hj : j < P) (hn1 : 2 ^ j < n) (hn2 : n < 2 ^ (j + 1))
    (hlt : (n : ℚ) < maxValue b) (u : ℚ) (c : ℚ)
    (hcs : c * maxValue b < 2 ^ (b - 1))
    (hu : ∀ k : ℤ, k ≤ -1 → (2 : ℚ) ^ k ≤ n / maxValue b → (n : ℚ) / maxValue b < 2 ^ (k + 1) →
      |u - n / maxValue b| ≤ c * 2 ^ (k - P)) :
    Double.rndTo P (u * maxValue b) = n := by
  have hm := max_pos hb
  have hm1 : maxValue b = 2 ^ (b - 1) - 1 := by rw [max_int]; push_cast; rfl
  have hn0 : (0 : ℚ) < n := by
    have : 0 < n := by omega
    exact_mod_cast this
  obtain ⟨k, hk1, hk2⟩ := exists_mem_Ico_zpow (div_pos hn0 hm) (by norm_num : (1 : ℚ) < 2)
  have hkneg : k ≤ -1 := by
    by_contra hcon
    have h1 : (1 : ℚ) ≤ 2 ^ k := one_le_zpow₀ (by norm_num) (by omega)
    have h2 : (n : ℚ) / maxValue b < 1 := by rw [div_lt_one hm]; exact hlt
    linarith
  have hkj : k + (b - 1 : ℕ) ≤ j := by
    by_contra hcon
    have h1 : (2 : ℚ) ^ k * maxValue b ≤ n := by rwa [le_div_iff₀ hm] at hk1
    rw [hm1, mul_sub, mul_one, ← zpow_natCast, ← zpow_add₀ (by norm_num)] at h1
    have h2 : (2 : ℚ) ^ ((j : ℤ) + 1) ≤ 2 ^ (k + (b - 1 : ℕ)) := zpow_le_zpow_right₀ (by norm_num) (by omega)
    have h3 : (2 : ℚ) ^ k ≤ 2 ^ (-1 : ℤ) := zpow_le_zpow_right₀ (by norm_num) hkneg
    have h4 : (n : ℚ) + 1 ≤ 2 ^ ((j : ℤ) + 1) := by exact_mod_cast hn2
    have h5 : (2 : ℚ) ^ (-1 : ℤ) = 1 / 2 := by norm_num
    rw [h5] at h3
    linarith only [h1, h2, h3, h4]
  have herr : |u * maxValue b - n| < 2 ^ ((j : ℤ) - P) := by
    have h1 : u * maxValue b - n = (u - n / maxValue b) * maxValue b := by field_simp
    rw [h1, abs_mul, abs_of_pos hm]
    calc |u - n / maxValue b| * maxValue b ≤ c * 2 ^ (k - P) * maxValue b :=
          mul_le_mul_of_nonneg_right (hu k hkneg hk1 hk2) hm.le
      _ = c * maxValue b * 2 ^ (k - P) := by ring
      _ < 2 ^ (b - 1) * 2 ^ (k - P) := mul_lt_mul_of_pos_right hcs (Double.two_pos _)
      _ = 2 ^ (k + (b - 1 : ℕ) - P) := by
          rw [← zpow_natCast, ← zpow_add₀ (by norm_num)]; congr 1; ring
      _ ≤ 2 ^ ((j : ℤ) - P) := zpow_le_zpow_right₀ (by norm_num) (by omega)
  have hsmall : (2 : ℚ) ^ ((j : ℤ) - P) ≤ 1 := zpow_le_one_of_nonpos₀ (by norm_num) (by omega)
  have hl : (2 : ℚ) ^ (j : ℤ) + 1 ≤ n := by exact_mod_cast hn1
  have hr : (n : ℚ) + 1 ≤ 2 ^ ((j : ℤ) + 1) := by exact_mod_cast hn2
  rw [abs_lt] at herr
  have := Double.rndTo_of_near P (u * maxValue b) n j (by exact_mod_cast hj) (by linarith) (by linarith)
    (by rw [abs_lt]; push_cast; exact herr)
  simpa using this

/-- A positive integer is a power of two or lies between two of them. -/
private theorem between_powers (n : ℕ) (hn : 0 < n) : ∃ j, n = 2 ^ j ∨ 2 ^ j < n ∧ n < 2 ^ (j + 1) := by
  refine ⟨Nat.log 2 n, ?_⟩
  have h1 : 2 ^ Nat.log 2 n ≤ n := Nat.pow_log_le_self 2 (by omega)
  have h2 : n < 2 ^ (Nat.log 2 n + 1) := Nat.lt_pow_succ_log_self (by norm_num) n
  omega

/-- The round trip through a float format with the rounding `g` and back with `P` digits. -/
private theorem trip (P b : ℕ) (hP : 1 ≤ P) (hb : 2 ≤ b) (hbP : b ≤ P) (g : ℚ → ℚ) (hneg : ∀ x, g (-x) = - g x)
    (hone : g 1 = 1) (hmono : ∀ x y, x ≤ y → g x ≤ g y) (c : ℚ) (hc : c * maxValue b < 2 ^ (b - 1))
    (herr : ∀ (x : ℚ) (k : ℤ), (2 : ℚ) ^ k ≤ x → x < 2 ^ (k + 1) → |g (Double.rnd x) - x| ≤ c * 2 ^ (k - P))
    (hpow : ∀ j < b - 1, Double.rndTo P (g (Double.rnd (2 ^ j / maxValue b)) * maxValue b) = 2 ^ j)
    (n : ℤ) (hn : -maxValue b ≤ n ∧ (n : ℚ) ≤ maxValue b) :
    fromUnit (Double.rndTo P) Double.single (.fixed true b)
      (clip (g (toUnit Double.rnd (.fixed true b) n))) = n := by
  have hm := max_pos hb
  have h1 : Double.rnd 1 = 1 := by
    simpa [Double.rnd] using (isRounding_digits 53 (by norm_num)).int 1 (by norm_num)
  have hfix : Double.rndTo P (maxValue b) = maxValue b := by
    rw [max_int]
    refine (isRounding_digits P hP).int _ ?_
    have h2 : (1 : ℤ) ≤ 2 ^ (b - 1) := one_le_pow₀ (by norm_num)
    have h3 : (2 : ℤ) ^ (b - 1) ≤ 2 ^ P := pow_le_pow_right₀ (by norm_num) (by omega)
    rw [abs_of_nonneg (by omega)]
    omega
  have clip_id (x : ℚ) (h1 : -1 ≤ x) (h2 : x ≤ 1) : clip x = x := by
    unfold clip
    rw [max_eq_left h1, min_eq_left h2]
  have a1 : -1 ≤ (n : ℚ) / maxValue b := by rw [le_div_iff₀ hm]; linarith
  have a2 : (n : ℚ) / maxValue b ≤ 1 := by rw [div_le_iff₀ hm]; linarith
  have b1 := Double.rndTo_mono 53 (by norm_num) _ _ a1
  have b2 := Double.rndTo_mono 53 (by norm_num) _ _ a2
  rw [Double.rndTo_neg] at b1
  change -Double.rnd 1 ≤ Double.rnd _ at b1
  change Double.rnd _ ≤ Double.rnd 1 at b2
  rw [h1] at b1 b2
  have c1 := hmono _ _ b1
  have c2 := hmono _ _ b2
  rw [hneg, hone] at c1
  rw [hone] at c2
  have key : ∀ n : ℕ, 0 < n → (n : ℚ) ≤ maxValue b →
      Double.rndTo P (g (Double.rnd (n / maxValue b)) * maxValue b) = n := by
    intro n hn0 hnm
    rcases hnm.eq_or_lt with hnm | hnm
    · rw [hnm, div_self hm.ne', h1, hone, one_mul, hfix]
    · obtain ⟨j, hj | ⟨hj1, hj2⟩⟩ := between_powers n hn0
      · have hjb : j < b - 1 := by
          have h2 : (n : ℤ) < 2 ^ (b - 1) - 1 := by
            rw [max_int] at hnm
            exact_mod_cast hnm
          have h3 : 2 ^ j < 2 ^ (b - 1) := by
            rw [← hj]
            zify
            omega
          exact (Nat.pow_lt_pow_iff_right (by norm_num)).mp h3
        have := hpow j hjb
        rw [hj]
        push_cast
        exact this
      · have hjb : j < P := by
          have h2 : (n : ℤ) < 2 ^ (b - 1) - 1 := by
            rw [max_int] at hnm
            exact_mod_cast hnm
          have h3 : 2 ^ j < 2 ^ (b - 1) := by
            zify at hj1 ⊢
            omega
          have := (Nat.pow_lt_pow_iff_right (by norm_num)).mp h3
          omega
        exact back P b hb n j hjb hj1 hj2 hnm _ c hc fun k _ => herr _ k
  have main : Double.rndTo P (g (Double.rnd (n / maxValue b)) * maxValue b) = n := by
    rcases lt_trichotomy n 0 with h0 | h0 | h0
    · obtain ⟨k, hk⟩ : ∃ k : ℕ, n = -(k : ℤ) := ⟨n.natAbs, by omega⟩
      subst hk
      have hk' : ((-(k : ℤ) : ℤ) : ℚ) = -(k : ℚ) := by push_cast; rfl
      rw [hk'] at hn ⊢
      have e : Double.rnd (-(k : ℚ) / maxValue b) = - Double.rnd (k / maxValue b) := by
        rw [neg_div]
        exact Double.rndTo_neg 53 _
      rw [e, hneg, neg_mul, Double.rndTo_neg, key k (by omega) (by linarith [hn.1])]
    · subst h0
      have e : Double.rnd 0 = 0 := Double.rndTo_zero 53
      have e' : g 0 = 0 := by
        have := hneg 0
        rw [neg_zero] at this
        linarith
      simp [e, e', Double.rndTo_zero]
    · obtain ⟨k, hk⟩ : ∃ k : ℕ, n = (k : ℤ) := ⟨n.natAbs, by omega⟩
      subst hk
      have hk' : (((k : ℤ) : ℤ) : ℚ) = (k : ℚ) := by push_cast; rfl
      rw [hk'] at hn ⊢
      exact key k (by omega) hn.2
  simp only [toUnit, fromUnit, if_true]
  rw [clip_id _ b1 b2, clip_id _ c1 c2, hfix, main, trunc_int]

/-- **C25**, round trip of signed samples in double precision: every integer sample of a signed format inside the
symmetric range is returned unchanged after the conversion to f64 and back, with the rounding of the processor
in every step. -/
theorem C25_signed_double (bits : ℕ) (hv : (Format.fixed true bits).valid = true) (n : ℤ)
    (h : (Format.fixed true bits).low ≤ n ∧ (n : ℚ) ≤ (Format.fixed true bits).high) :
    ∃ u, convert Double.rnd Double.single (.fixed true bits) .f64 true true n = .ok u ∧
      convert Double.rnd Double.single .f64 (.fixed true bits) true true u = .ok (n : ℚ) := by
  have hb := valid_bits hv
  refine ⟨toUnit Double.rnd (.fixed true bits) n, ?_, ?_⟩
  · unfold convert
    rw [if_neg (by simp), if_neg (by simp [hv]; rfl), if_neg (by simp)]
    rfl
  · unfold convert
    rw [if_neg (by simp), if_neg (by simp [hv]; rfl), if_neg (by simp)]
    refine congrArg Except.ok (trip 53 bits (by norm_num) hb.1 (by omega) id (fun _ => rfl) rfl (fun _ _ h => h) 1
      ?_ (fun x k h1 h2 => ?_) ?_ n h)
    · rw [max_int]; push_cast; linarith
    · rw [one_mul]; exact Double.rndTo_half 53 x k h1 h2
    · simp only [Format.valid, decide_eq_true_eq] at hv
      rcases hv with rfl | rfl | rfl | rfl <;> decide +kernel

/-- **C25**, the same through single precision for the formats with at most 24 bits. -/
theorem C25_signed_single (bits : ℕ) (hv : (Format.fixed true bits).valid = true) (h32 : bits ≠ 32) (n : ℤ)
    (h : (Format.fixed true bits).low ≤ n ∧ (n : ℚ) ≤ (Format.fixed true bits).high) :
    ∃ u, convert Double.rnd Double.single (.fixed true bits) .f32 true true n = .ok u ∧
      convert Double.rnd Double.single .f32 (.fixed true bits) true true u = .ok (n : ℚ) := by
  have hb := valid_bits hv
  have hb' : bits = 8 ∨ bits = 16 ∨ bits = 24 := by
    simp only [Format.valid, decide_eq_true_eq] at hv
    omega
  refine ⟨Double.single (toUnit Double.rnd (.fixed true bits) n), ?_, ?_⟩
  · unfold convert
    rw [if_neg (by simp), if_neg (by simp [hv]; rfl), if_neg (by simp)]
    rfl
  · unfold convert
    rw [if_neg (by simp), if_neg (by simp [hv]; rfl), if_neg (by simp)]
    refine congrArg Except.ok (trip 24 bits (by norm_num) hb.1 (by omega) Double.single (Double.rndTo_neg 24) ?_
      (Double.rndTo_mono 24 (by norm_num)) (1 + 1 / 2 ^ 29) ?_ (fun x k h1 h2 => ?_) ?_ n h)
    · simpa [Double.single] using (isRounding_digits 24 (by norm_num)).int 1 (by norm_num)
    · rcases hb' with rfl | rfl | rfl <;> decide +kernel
    · have e1 := Double.rndTo_half 53 x k h1 h2
      have lo : (2 : ℚ) ^ k ≤ Double.rnd x := by
        have := Double.rndTo_mono 53 (by norm_num) _ _ h1
        have e : Double.rndTo 53 ((2 : ℚ) ^ k) = 2 ^ k := by
          simpa using Double.rndTo_fixed 53 (by norm_num) 1 (by norm_num) k
        rwa [e] at this
      have hi : Double.rnd x ≤ 2 ^ (k + 1) := by
        have := Double.rndTo_mono 53 (by norm_num) _ _ h2.le
        have e : Double.rndTo 53 ((2 : ℚ) ^ (k + 1)) = 2 ^ (k + 1) := by
          simpa using Double.rndTo_fixed 53 (by norm_num) 1 (by norm_num) (k + 1)
        rwa [e] at this
      have e2 : |Double.single (Double.rnd x) - Double.rnd x| ≤ 2 ^ (k - (24 : ℕ)) := by
        rcases hi.eq_or_lt with hi | hi
        · have e : Double.single ((2 : ℚ) ^ (k + 1)) = 2 ^ (k + 1) := by
            simpa [Double.single] using Double.rndTo_fixed 24 (by norm_num) 1 (by norm_num) (k + 1)
          rw [hi, e, sub_self, abs_zero]
          exact (Double.two_pos _).le
        · exact Double.rndTo_half 24 _ k lo hi
      have e3 : (2 : ℚ) ^ (k - (53 : ℕ)) = 1 / 2 ^ 29 * 2 ^ (k - (24 : ℕ)) := by
        rw [show k - ((53 : ℕ) : ℤ) = -29 + (k - (24 : ℕ)) by push_cast; ring, zpow_add₀ (by norm_num)]
        norm_num
      have e4 : |Double.rnd x - x| ≤ 2 ^ (k - (53 : ℕ)) := e1
      rw [e3] at e4
      calc |Double.single (Double.rnd x) - x|
          ≤ |Double.single (Double.rnd x) - Double.rnd x| + |Double.rnd x - x| := abs_sub_le _ _ _
        _ ≤ (1 + 1 / 2 ^ 29) * 2 ^ (k - (24 : ℕ)) := by rw [add_mul, one_mul]; exact add_le_add e2 e4
    · rcases hb' with rfl | rfl | rfl <;> decide +kernel

/-- A sample of 24 bits meets the hypotheses. -/
example : (Format.fixed true 24).valid = true ∧ (Format.fixed true 24).low ≤ ((-8388607 : ℤ) : ℚ) ∧
    ((-8388607 : ℤ) : ℚ) ≤ (Format.fixed true 24).high := by decide +kernel

/-- **C25** fails for the conversion to a wider integer format and back: the i8 sample 1
becomes 258 in i16, and 0 when converted back. -/
theorem C25_widening_loses :
    convert id id (.fixed true 8) (.fixed true 16) true true 1 = .ok 258 ∧
    convert id id (.fixed true 16) (.fixed true 8) true true 258 = .ok 0 := by
  exact ⟨by decide +kernel, by decide +kernel⟩

/-- **C25**, widening and back (partial, exact arithmetic, non-negative signed samples):
at most the last bit is lost, and nothing is lost exactly when the sample of the wider
format is not truncated. -/
theorem C25_widening_partial (b1 b2 : ℕ) (hb : 2 ≤ b1) (hlt : b1 < b2) (n : ℤ) (hn : 0 ≤ n)
    (hmax : (n : ℚ) ≤ maxValue b1) :
    ∃ w : ℤ, fromUnit id id (.fixed true b2) (toUnit id (.fixed true b1) n) = w ∧
      ∃ n' : ℤ, fromUnit id id (.fixed true b1) (toUnit id (.fixed true b2) w) = n' ∧
      (n' = n ∨ n' = n - 1) ∧
      (n' = n ↔ (w : ℚ) = n / maxValue b1 * maxValue b2) := by
  have hm := max_pos hb
  have hM := max_pos (show 2 ≤ b2 by omega)
  have hmM : maxValue b1 < maxValue b2 := by
    unfold maxValue
    have : (2 : ℚ) ^ (b1 - 1) < 2 ^ (b2 - 1) := pow_lt_pow_right₀ (by norm_num) (by omega)
    linarith
  have hnq : (0 : ℚ) ≤ n := by exact_mod_cast hn
  set m := maxValue b1
  set M := maxValue b2
  have hx0 : 0 ≤ (n : ℚ) / m := div_nonneg hnq hm.le
  have hx1 : (n : ℚ) / m ≤ 1 := by rw [div_le_iff₀ hm]; linarith
  have hc1 : clip ((n : ℚ) / m) = n / m := by
    unfold clip
    rw [max_eq_left (by linarith), min_eq_left hx1]
  have hy0 : 0 ≤ (n : ℚ) / m * M := mul_nonneg hx0 hM.le
  have hw0 : 0 ≤ ⌊(n : ℚ) / m * M⌋ := Int.floor_nonneg.mpr hy0
  have hwq : (0 : ℚ) ≤ (⌊(n : ℚ) / m * M⌋ : ℚ) := by exact_mod_cast hw0
  have hfl := Int.floor_le ((n : ℚ) / m * M)
  have hfl2 := Int.lt_floor_add_one ((n : ℚ) / m * M)
  refine ⟨⌊(n : ℚ) / m * M⌋, ?_, ?_⟩
  · simp only [toUnit, fromUnit, if_true, id]
    rw [show clip ((n : ℚ) / maxValue b1) = n / m from hc1]
    unfold trunc
    rw [if_pos hy0]
  · set w := ⌊(n : ℚ) / m * M⌋ with hw
    have hwM : (w : ℚ) / M ≤ n / m := by rw [div_le_iff₀ hM]; exact hfl
    have hw00 : 0 ≤ (w : ℚ) / M := div_nonneg hwq hM.le
    have hc2 : clip ((w : ℚ) / M) = w / M := by
      unfold clip
      rw [max_eq_left (by linarith), min_eq_left (by linarith)]
    have hz0 : 0 ≤ (w : ℚ) / M * m := mul_nonneg hw00 hm.le
    refine ⟨⌊(w : ℚ) / M * m⌋, ?_, ?_, ?_⟩
    · simp only [toUnit, fromUnit, if_true, id]
      rw [show clip ((w : ℚ) / maxValue b2) = w / M from hc2]
      unfold trunc
      rw [if_pos hz0]
    · have h1 : (w : ℚ) / M * m ≤ n := by
        calc (w : ℚ) / M * m ≤ n / m * m := mul_le_mul_of_nonneg_right hwM hm.le
          _ = n := by field_simp
      have h2 : (n : ℚ) - 1 < (w : ℚ) / M * m := by
        have h3 : ((n : ℚ) / m * M - 1) / M < (w : ℚ) / M := by
          apply div_lt_div_of_pos_right _ hM
          linarith
        have h4 : ((n : ℚ) / m * M - 1) / M * m < (w : ℚ) / M * m :=
          mul_lt_mul_of_pos_right h3 hm
        have h5 : ((n : ℚ) / m * M - 1) / M * m = n - m / M := by field_simp
        have h6 : m / M < 1 := by rw [div_lt_one hM]; exact hmM
        linarith
      have h7 : ⌊(w : ℚ) / M * m⌋ ≤ n := by
        have := Int.floor_le ((w : ℚ) / M * m)
        have h8 : ((⌊(w : ℚ) / M * m⌋ : ℤ) : ℚ) ≤ n := le_trans this h1
        exact_mod_cast h8
      have h9 : n - 1 ≤ ⌊(w : ℚ) / M * m⌋ := by
        rw [Int.le_floor]
        push_cast
        linarith
      omega
    · constructor
      · intro h
        have h1 := Int.floor_le ((w : ℚ) / M * m)
        rw [h] at h1
        have h2 : (n : ℚ) / m ≤ (w : ℚ) / M := by
          rw [div_le_iff₀ hm]
          exact h1
        have h3 : (n : ℚ) / m = (w : ℚ) / M := le_antisymm h2 hwM
        rw [h3]
        field_simp
      · intro h
        have : (w : ℚ) / M * m = n := by rw [h]; field_simp
        rw [this]
        simp

/-- **C25**, single precision: what a conversion to "f32" returns are numbers of single precision. -/
theorem C25_single_values (fin : Format) (hin : fin.valid = true) (hne : fin ≠ .f32) (cast bytes : Bool) (v : ℚ) :
    ∃ u, convert Double.rnd Double.single fin .f32 cast bytes v = .ok u ∧ Double.single u = u := by
  refine ⟨Double.single (toUnit Double.rnd fin v), ?_, Double.rndTo_idem 24 (by norm_num) _⟩
  unfold convert
  rw [if_neg hne, if_neg (by simp [hin]; rfl), if_neg (by simp)]
  rfl

/-- The format has silence at zero. -/
def Format.Centred : Format → Prop
  | .fixed signed _ => signed = true
  | _ => True

private theorem trunc_neg (x : ℚ) : trunc (-x) = - trunc x := by
  unfold trunc
  rcases lt_trichotomy x 0 with h | h | h
  · rw [if_pos (by linarith), if_neg (by linarith), Int.floor_neg]
  · simp [h]
  · rw [if_neg (by linarith), if_pos h.le, Int.ceil_neg]

private theorem clip_neg (x : ℚ) : clip (-x) = - clip x := by
  unfold clip
  rcases le_total x (-1) with h | h
  · rw [max_eq_left (by linarith), max_eq_right h, min_eq_right (by linarith), min_eq_left (by norm_num), neg_neg]
  · rw [max_eq_left h]
    rcases le_total x 1 with h' | h'
    · rw [max_eq_left (by linarith), min_eq_left (by linarith), min_eq_left h']
    · rw [max_eq_right (by linarith), min_eq_left (by norm_num), min_eq_right h']

/-- **C25**, no offset: between formats with silence at zero, the opposite sample is converted to the opposite
result, with the rounding of the processor in every step. -/
theorem C25_opposite (fin fout : Format) (hin : fin.Centred) (hout : fout.Centred) (cast bytes : Bool) (v r : ℚ)
    (h : convert Double.rnd Double.single fin fout cast bytes v = .ok r) :
    convert Double.rnd Double.single fin fout cast bytes (-v) = .ok (-r) := by
  have e1 : toUnit Double.rnd fin (-v) = - toUnit Double.rnd fin v := by
    cases fin with
    | fixed s b =>
      obtain rfl : s = true := hin
      have : Double.rnd (-v / maxValue b) = - Double.rnd (v / maxValue b) := by
        rw [neg_div]
        exact Double.rndTo_neg 53 _
      simp only [toUnit, if_true, this, clip_neg]
    | _ => exact clip_neg v
  have e2 (u : ℚ) : fromUnit (precision Double.rnd Double.single fin) Double.single fout (-u) =
      - fromUnit (precision Double.rnd Double.single fin) Double.single fout u := by
    have hp (x : ℚ) : precision Double.rnd Double.single fin (-x) = - precision Double.rnd Double.single fin x := by
      cases fin with
      | f32 => exact Double.rndTo_neg 24 x
      | _ => exact Double.rndTo_neg 53 x
    cases fout with
    | fixed s b =>
      obtain rfl : s = true := hout
      simp only [fromUnit, if_true, neg_mul, hp, trunc_neg]
      push_cast
      rfl
    | f32 => exact Double.rndTo_neg 24 u
    | f64 => rfl
  unfold convert at h ⊢
  split_ifs at h ⊢
  simp only [Except.ok.injEq] at h
  rw [e1, e2, h]

/-- The opposite of a sample of 16 bits. -/
example : ∃ r, convert Double.rnd Double.single (.fixed true 16) (.fixed true 8) true true 20000 = .ok r ∧
    convert Double.rnd Double.single (.fixed true 16) (.fixed true 8) true true (-20000) = .ok (-r) :=
  ⟨77, by decide +kernel, by decide +kernel⟩

/-- Byte strings in a float format cannot be read at all. -/
theorem C25_float_bytes_raise : readType .f32 = .error .attributeError ∧
    readType .f64 = .error .attributeError := ⟨rfl, rfl⟩

/-- The hypotheses are met by concrete conversions. -/
example : convert id id (.fixed true 16) (.fixed false 8) true false 16384 =
    .ok (190 : ℚ) := by decide +kernel

end Verif.SampleFormat

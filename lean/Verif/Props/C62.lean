import Verif.Model.Reverb
import Verif.Lemmas.Peak
import Mathlib.Algebra.BigOperators.Field
import Mathlib.Algebra.Order.BigOperators.Ring.Finset
import Mathlib.Analysis.SpecialFunctions.Log.Basic
import Mathlib.Analysis.SpecialFunctions.ImproperIntegrals
import Mathlib.Tactic.FieldSimp
import Mathlib.Tactic.Ring
import Mathlib.Tactic.NormNum
import Mathlib.Tactic.Linarith

/-!
# C62: reverberation time

"For a response whose level falls by `D` dB per second the reverberation time is `60 / D` seconds in
every mode (`10 / D` for EDT); a given start of the response is respected; the decay curve never
rises, starts at 0 dB and does not depend on the level; corrections for the noise are only made for
a decaying response, and compensate the energy missing after the intersection with the noise."
-/

namespace Verif.Room

open Finset

/-! ## The fit -/

theorem mean_affine (i1 i2 : ℕ) (h : i1 < i2) (t : ℕ → ℝ) (a b : ℝ) :
    mean i1 i2 (fun i => a * t i + b) = a * mean i1 i2 t + b := by
  unfold mean
  have hc : ((i2 - i1 : ℕ) : ℝ) ≠ 0 := by
    have : 0 < i2 - i1 := by omega
    exact_mod_cast this.ne'
  rw [sum_add_distrib, ← mul_sum, sum_const, Nat.card_Ico, nsmul_eq_mul]
  field_simp

theorem polyfitSlope_line (i1 i2 : ℕ) (t : ℕ → ℝ) (a b : ℝ)
    (hd : ∑ i ∈ Ico i1 i2, (t i - mean i1 i2 t) ^ 2 ≠ 0) :
    polyfitSlope i1 i2 t (fun i => a * t i + b) = some a := by
  have h : i1 < i2 := by
    by_contra h
    rw [Ico_eq_empty (by omega)] at hd
    simp at hd
  unfold polyfitSlope
  dsimp only
  rw [if_neg hd, mean_affine i1 i2 h t a b]
  congr 1
  rw [div_eq_iff hd, mul_sum]
  exact sum_congr rfl fun i _ => by ring

theorem variance_ne_zero (i1 i2 : ℕ) (t : ℕ → ℝ) (i j : ℕ) (hi : i ∈ Ico i1 i2)
    (hj : j ∈ Ico i1 i2) (h : t i ≠ t j) : ∑ i ∈ Ico i1 i2, (t i - mean i1 i2 t) ^ 2 ≠ 0 := by
  intro h0
  have := (sum_eq_zero_iff_of_nonneg fun n _ => sq_nonneg (t n - mean i1 i2 t)).mp h0
  have h1 := pow_eq_zero_iff two_ne_zero |>.mp (this i hi)
  have h2 := pow_eq_zero_iff two_ne_zero |>.mp (this j hj)
  exact h (by linarith)

theorem lt_searchsorted (L : ℕ) (edc : ℕ → ℝ) (hmono : ∀ i j, i ≤ j → j < L → edc j ≤ edc i) (v : ℝ)
    (i : ℕ) (hi : i < L) : i < L - searchsorted L edc v ↔ v ≤ edc i := by
  classical
  have hs : searchsorted L edc v = ((range L).filter fun i => edc i < v).card := by
    unfold searchsorted
    congr!
  constructor
  · intro h
    by_contra hlt
    have hlt := not_le.mp hlt
    have hsub : Ico i L ⊆ (range L).filter fun i => edc i < v := by
      intro j hj
      have := mem_Ico.mp hj
      exact mem_filter.mpr ⟨mem_range.mpr this.2, lt_of_le_of_lt (hmono i j this.1 this.2) hlt⟩
    have := card_le_card hsub
    rw [Nat.card_Ico, ← hs] at this
    omega
  · intro h
    have hsub : (range L).filter (fun i => edc i < v) ⊆ Ico (i + 1) L := by
      intro j hj
      obtain ⟨h1, h2⟩ := mem_filter.mp hj
      refine mem_Ico.mpr ⟨?_, mem_range.mp h1⟩
      by_contra hji
      exact absurd (hmono j i (by omega) hi) (by linarith)
    have := card_le_card hsub
    rw [Nat.card_Ico, ← hs] at this
    omega

/-! ## Straight decays -/

/-- For a straight decay by `D` dB per second (`edc n = -D * n / fs`), as long as two values of the
curve lie in the range of the mode (from its upper limit inclusive downwards), the result is
`factor / D` times `L / (L - 1)`, where `L` is the length of the curve. -/
theorem C62_straight_partial (mode : Mode) (s : Option ℕ) (fs L : ℕ) (hfs : 0 < fs) (D : ℝ)
    (hD : 0 < D) (k : ℕ) (hk : k + 1 < L)
    (hk1 : -D * (k / fs) < mode.limits.1) (hk2 : mode.limits.2.1 ≤ -D * ((k + 1 : ℕ) / fs)) :
    reverb mode s fs L (fun n => -D * (n / fs)) =
      some (mode.limits.2.2 / D * (L / (L - 1))) := by
  have hfs' : (0 : ℝ) < fs := by exact_mod_cast hfs
  have hL : (1 : ℝ) < L := by exact_mod_cast (show 1 < L by omega)
  have hL1 : (0 : ℝ) < L - 1 := by linarith
  set edc : ℕ → ℝ := fun n => -D * (n / fs) with hedc
  have hmono : ∀ i j, i ≤ j → j < L → edc j ≤ edc i := by
    intro i j hij _
    have : (i : ℝ) / fs ≤ j / fs := by
      have : (i : ℝ) ≤ j := by exact_mod_cast hij
      gcongr
    simp only [hedc]
    nlinarith
  have hsub : ((L - 1 : ℕ) : ℝ) = L - 1 := by
    rw [Nat.cast_sub (by omega)]
    simp
  have hline : edc = fun n => -(D * ((L - 1) / L)) * timeVector fs L n + 0 := by
    funext n
    simp only [hedc]
    unfold timeVector
    rw [hsub]
    field_simp
    ring
  have hi1 : L - searchsorted L edc mode.limits.1 ≤ k := by
    by_contra h
    have := (lt_searchsorted L edc hmono mode.limits.1 k (by omega)).mp (by omega)
    simp only [hedc] at this
    linarith
  have hi2 : k + 1 < L - searchsorted L edc mode.limits.2.1 :=
    (lt_searchsorted L edc hmono _ (k + 1) hk).mpr hk2
  have hvar := variance_ne_zero (L - searchsorted L edc mode.limits.1)
    (L - searchsorted L edc mode.limits.2.1) (timeVector fs L) k (k + 1)
    (mem_Ico.mpr ⟨hi1, by omega⟩) (mem_Ico.mpr ⟨by omega, hi2⟩) (by
      unfold timeVector
      have hstep : (0 : ℝ) < ((L : ℝ) / fs) / ((L - 1 : ℕ) : ℝ) := by
        rw [hsub]
        positivity
      push_cast
      intro h
      nlinarith)
  have hslope : decaySlope L (timeVector fs L) edc mode.limits.1 mode.limits.2.1 =
      some (-(D * ((L - 1) / L))) := by
    unfold decaySlope
    conv_lhs => rw [hline]
    rw [hline] at hvar
    exact polyfitSlope_line _ _ _ _ _ hvar
  unfold reverb
  rw [hslope]
  have hneg : D * ((L - 1 : ℝ) / L) ≠ 0 := by positivity
  dsimp only
  rw [if_neg (neg_ne_zero.mpr hneg), abs_neg, abs_of_pos (by positivity)]
  congr 1
  field_simp

/-- So the reverberation time is too long for every straight decay. -/
theorem C62_too_long (mode : Mode) (s : Option ℕ) (fs L : ℕ) (hfs : 0 < fs) (D : ℝ)
    (hD : 0 < D) (k : ℕ) (hk : k + 1 < L)
    (hk1 : -D * (k / fs) < mode.limits.1) (hk2 : mode.limits.2.1 ≤ -D * ((k + 1 : ℕ) / fs)) :
    ∃ T, reverb mode s fs L (fun n => -D * (n / fs)) = some T ∧ mode.limits.2.2 / D < T := by
  refine ⟨_, C62_straight_partial mode s fs L hfs D hD k hk hk1 hk2, ?_⟩
  have hL : (1 : ℝ) < L := by exact_mod_cast (show 1 < L by omega)
  have hf : 0 < mode.limits.2.2 := by cases mode <;> norm_num [Mode.limits]
  refine lt_mul_of_one_lt_right (div_pos hf hD) ?_
  rw [one_lt_div (by linarith)]
  linarith

example : ∃ T : ℝ, reverb .t20 none 10 100 (fun n => -20 * (n / (10 : ℕ))) = some T ∧ 3 < T := by
  obtain ⟨T, h, h'⟩ := C62_too_long .t20 none 10 100 (by norm_num) 20 (by norm_num) 3 (by norm_num)
    (by norm_num [Mode.limits]) (by norm_num [Mode.limits])
  exact ⟨T, h, by norm_num [Mode.limits] at h'; exact h'⟩

/-- The given start of the response has no influence on the result. -/
theorem C62_ir_start_ignored (mode : Mode) (s s' : Option ℕ) (fs L : ℕ) (edc : ℕ → ℝ) :
    reverb mode s fs L edc = reverb mode s' fs L edc := rfl

/-- The result does not depend on values of the curve outside the range of the mode: two decay
curves that never rise, agree from the upper limit down to the lower limit and lie at the same
places outside of it, have the same reverberation time. -/
theorem C62_only_range_counts (mode : Mode) (s : Option ℕ) (fs L : ℕ) (edc edc' : ℕ → ℝ)
    (hup : ∀ i < L, mode.limits.1 ≤ edc i ↔ mode.limits.1 ≤ edc' i)
    (hlo : ∀ i < L, mode.limits.2.1 ≤ edc i ↔ mode.limits.2.1 ≤ edc' i)
    (hmono : ∀ i j, i ≤ j → j < L → edc j ≤ edc i)
    (hin : ∀ i < L, mode.limits.2.1 ≤ edc i → edc i < mode.limits.1 → edc' i = edc i) :
    reverb mode s fs L edc = reverb mode s fs L edc' := by
  classical
  have hs : ∀ v, (∀ i < L, v ≤ edc i ↔ v ≤ edc' i) →
      searchsorted L edc v = searchsorted L edc' v := by
    intro v h
    unfold searchsorted
    congr 1
    refine filter_congr fun i hi => ?_
    have := h i (mem_range.mp hi)
    rw [← not_le, ← not_le, this]
  have h1 := hs _ hup
  have h2 := hs _ hlo
  have hy : ∀ i ∈ Ico (L - searchsorted L edc mode.limits.1)
      (L - searchsorted L edc mode.limits.2.1), edc' i = edc i := by
    intro i hi
    obtain ⟨ha, hb⟩ := mem_Ico.mp hi
    have hiL : i < L := by omega
    refine hin i hiL ((lt_searchsorted L edc hmono _ i hiL).mp hb) ?_
    by_contra h
    have := (lt_searchsorted L edc hmono _ i hiL).mpr (not_lt.mp h)
    omega
  unfold reverb decaySlope
  rw [← h1, ← h2]
  have hfit : ∀ i1 i2 : ℕ, (∀ i ∈ Ico i1 i2, edc' i = edc i) →
      polyfitSlope i1 i2 (timeVector fs L) edc' = polyfitSlope i1 i2 (timeVector fs L) edc := by
    intro i1 i2 h
    have hm : mean i1 i2 edc' = mean i1 i2 edc := by
      unfold mean
      rw [sum_congr rfl h]
    have hn : ∀ c : ℝ, ∑ i ∈ Ico i1 i2, (timeVector fs L i - mean i1 i2 (timeVector fs L)) *
        (edc' i - c) = ∑ i ∈ Ico i1 i2, (timeVector fs L i - mean i1 i2 (timeVector fs L)) *
        (edc i - c) := fun c => sum_congr rfl fun i hi => by rw [h i hi]
    unfold polyfitSlope
    rw [hm]
    dsimp only
    rw [hn]
  rw [hfit _ _ hy]

/-! ## The plain decay curve -/

theorem rest_pos (N : ℕ) (power : ℕ → ℝ) (hp : ∀ i < N, 0 < power i) (n : ℕ) (hn : n + 1 < N) :
    0 < ∑ i ∈ range N, power i - ∑ i ∈ range (n + 1), power i := by
  rw [← sum_range_add_sum_Ico power hn.le, add_sub_cancel_left]
  exact sum_pos (fun i hi => hp i (mem_Ico.mp hi).2) ⟨n + 1, mem_Ico.mpr ⟨le_rfl, hn⟩⟩

/-- The plain decay curve starts at 0 dB, falls strictly, and does not depend on the level. -/
theorem C62_curve (N : ℕ) (power : ℕ → ℝ) (hp : ∀ i < N, 0 < power i) :
    edcPlain N power 0 = 0 ∧
    (∀ i j, i < j → j + 1 < N → edcPlain N power j < edcPlain N power i) ∧
    (∀ c, 0 < c → ∀ n, n + 1 < N → edcPlain N (fun i => c * power i) n = edcPlain N power n) := by
  refine ⟨by simp [edcPlain], fun i j hij hj => ?_, fun c hc n hn => ?_⟩
  · have h1 := rest_pos N power hp j hj
    have h3 : ∑ k ∈ range (i + 1), power k < ∑ k ∈ range (j + 1), power k := by
      rw [← sum_range_add_sum_Ico power (show i + 1 ≤ j + 1 by omega)]
      have : 0 < ∑ k ∈ Ico (i + 1) (j + 1), power k :=
        sum_pos (fun k hk => hp k (by have := (mem_Ico.mp hk).2; omega))
          ⟨j, mem_Ico.mpr ⟨by omega, by omega⟩⟩
      linarith
    unfold edcPlain
    have := Real.logb_lt_logb (b := 10) (by norm_num) h1
      (show _ < ∑ i ∈ range N, power i - ∑ k ∈ range (i + 1), power k by linarith)
    dsimp only
    linarith
  · have h1 := rest_pos N power hp n hn
    have h0 := rest_pos N power hp 0 (by omega)
    unfold edcPlain
    dsimp only
    simp only [← mul_sum, ← mul_sub]
    rw [Real.logb_mul hc.ne' h1.ne', Real.logb_mul hc.ne' h0.ne']
    ring

/-- All values of the plain curve are covered by the last two statements. -/
theorem C62_curve_length (N n : ℕ) (hn : n < edcPlainLength N) :
    n + 1 < N := by
  unfold edcPlainLength at hn
  omega

/-! ## Noise compensation -/

/-- Energy missing after the time `t1` at which a decay by `D` dB per second reaches the noise
power. -/
noncomputable def missingEnergy (noise D t1 : ℝ) : ℝ :=
  ∫ t in Set.Ioi t1, noise * 10 ^ (-D * (t - t1) / 10)

theorem missingEnergy_eq (noise D t1 : ℝ) (hD : 0 < D) :
    missingEnergy noise D t1 = 10 * noise / (D * Real.log 10) := by
  have hlog : 0 < Real.log 10 := Real.log_pos (by norm_num)
  have h : ∀ t : ℝ, noise * (10 : ℝ) ^ (-D * (t - t1) / 10) =
      noise * Real.exp (D * Real.log 10 / 10 * t1) * Real.exp (-(D * Real.log 10 / 10) * t) := by
    intro t
    rw [Real.rpow_def_of_pos (by norm_num), mul_assoc, ← Real.exp_add]
    congr 2
    ring
  unfold missingEnergy
  simp only [h]
  rw [MeasureTheory.integral_const_mul, integral_exp_mul_Ioi (by
    have : 0 < D * Real.log 10 / 10 := by positivity
    linarith), neg_mul, Real.exp_neg]
  have := (Real.exp_pos (D * Real.log 10 / 10 * t1)).ne'
  field_simp

/-- The compensation computed by the code takes the fitted level at time 0 for the slope and the
slope for the level: whatever was fitted, corrections are avoided if that LEVEL is 0 dB or more, and
the compensation is the one for a decay by as many dB per second as the level is below 0 dB. -/
theorem C62_fit_coefficients_swapped (slope level noise : ℝ) (hn : 0 < noise) :
    (0 ≤ level → (compensation slope level noise).1) ∧
    (level < 0 → (compensation slope level noise).2.1 ≠ 0 →
      ∀ t1, (compensation slope level noise).2.2 = missingEnergy noise (-level) t1) := by
  refine ⟨fun h => Or.inl h, fun hl ht t1 => ?_⟩
  have hlog : Real.log 10 ≠ 0 := (Real.log_pos (by norm_num)).ne'
  have hB : 0 < Level.fromDb slope false := by
    unfold Level.fromDb
    positivity
  have ht' : (10 * Real.logb 10 noise - slope) / level ≠ 0 := ht
  have hd : 10 * Real.logb 10 noise - slope ≠ 0 := fun h => ht' (by rw [h, zero_div])
  have hlogB : Real.log (Level.fromDb slope false) = slope / 10 * Real.log 10 := by
    unfold Level.fromDb Level.dbFactor
    rw [Real.log_rpow (by norm_num)]
    simp
  have hr : Real.log (noise / Level.fromDb slope false) =
      (10 * Real.logb 10 noise - slope) * Real.log 10 / 10 := by
    rw [Real.log_div hn.ne' hB.ne', hlogB, Real.logb]
    field_simp
  rw [missingEnergy_eq noise _ t1 (by linarith)]
  unfold compensation
  dsimp only
  rw [div_mul_cancel₀ _ ht', Real.exp_log (div_pos hn hB), hr]
  have hln : level ≠ 0 := hl.ne
  have hB' := hB.ne'
  field_simp

/-- So the compensation of every proper decay is wrong, unless slope and level happen to be the same
number. -/
theorem C62_compensation_wrong (slope level noise : ℝ) (hn : 0 < noise) (hs : slope < 0)
    (hl : level < 0) (hne : slope ≠ level) (ht : (compensation slope level noise).2.1 ≠ 0)
    (t1 : ℝ) : (compensation slope level noise).2.2 ≠ missingEnergy noise (-slope) t1 := by
  rw [(C62_fit_coefficients_swapped slope level noise hn).2 hl ht t1,
    missingEnergy_eq _ _ _ (by linarith), missingEnergy_eq _ _ _ (by linarith)]
  have hlog : 0 < Real.log 10 := Real.log_pos (by norm_num)
  intro h
  rw [div_eq_div_iff (by nlinarith) (by nlinarith)] at h
  have h1 : (10 * noise * Real.log 10) * (level - slope) = 0 := by linarith
  rcases mul_eq_zero.mp h1 with h2 | h2
  · have : 0 < 10 * noise * Real.log 10 := by positivity
    linarith
  · exact hne (by linarith)

/-- So a proper decay measured at a high level is not corrected, and a rising response is not
rejected. -/
theorem C62_corrections_wrong :
    (compensation (-60) 10 (1 / 10 ^ 6)).1 ∧ ¬ (compensation 60 (-10) (1 / 10 ^ 6)).1 := by
  refine ⟨Or.inl (by norm_num), ?_⟩
  unfold compensation
  dsimp only
  have : Real.logb 10 (1 / 10 ^ 6) = -6 := by
    rw [one_div, Real.logb_inv, Real.logb_pow]
    norm_num
  rw [this]
  norm_num

/-- Time in seconds in which a decay by `D` dB per second falls by 60 dB, or by 10 dB for EDT. -/
noncomputable def decayTime (mode : Mode) (D : ℝ) : ℝ :=
  match mode with
  | .edt => 10 / D
  | _ => 60 / D

/-- The limits of the evaluated range in dB. -/
def range' : Mode → ℝ × ℝ
  | .t20 => (-5, -25)
  | .t30 => (-5, -35)
  | .t60 => (-5, -65)
  | .edt => (0, -10)

/-- For a straight decay by `D` dB per second with two values in the range of the mode, the
result is the decay time, too long by `L / (L - 1)`. -/
theorem C62_decay_time_partial (mode : Mode) (s : Option ℕ) (fs L : ℕ) (hfs : 0 < fs) (D : ℝ)
    (hD : 0 < D) (k : ℕ) (hk : k + 1 < L) (hk1 : -D * (k / fs) < (range' mode).1)
    (hk2 : (range' mode).2 ≤ -D * ((k + 1 : ℕ) / fs)) :
    reverb mode s fs L (fun n => -D * (n / fs)) = some (decayTime mode D * (L / (L - 1))) := by
  have h1 : mode.limits.1 = (range' mode).1 := by cases mode <;> rfl
  have h2 : mode.limits.2.1 = (range' mode).2 := by cases mode <;> rfl
  have h3 : mode.limits.2.2 / D = decayTime mode D := by cases mode <;> rfl
  rw [← h3]
  exact C62_straight_partial mode s fs L hfs D hD k hk (by rw [h1]; exact hk1)
    (by rw [h2]; exact hk2)

example : reverb .t30 none 10 100 (fun n => -20 * (n / 10 : ℝ)) = some (3 * (100 / 99)) := by
  have := C62_decay_time_partial .t30 none 10 100 (by norm_num) 20 (by norm_num) 3 (by norm_num)
    (by norm_num [range']) (by norm_num [range'])
  norm_num [decayTime] at this ⊢
  exact this

end Verif.Room

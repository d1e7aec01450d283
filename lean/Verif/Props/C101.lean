import Verif.Lemmas.Generators
import Verif.Lemmas.Framing
import Verif.Lemmas.Deconvolution
import Verif.Props.C45

/-!
# C101: the spectrum of generated noise
-/

namespace Verif.Generators

open Fade Waves

/-- The exponent of each kind of noise: the power falls with this power of the frequency. -/
inductive Slope : NoiseType → ℝ → Prop
  | white : Slope .white 0
  | pink : Slope .pink 1
  | red : Slope .red 2
  | blue : Slope .blue (-1)
  | violet : Slope .violet (-2)
  | beta (b : ℝ) : Slope (.beta b) b

/-- Frequency of bin `k` of `l` samples. -/
noncomputable def bin (l fs k : ℕ) : ℝ := (k : ℝ) * fs / l

/-- `low` is the (first) bin next to 15 Hz. -/
def NextTo15 (l fs low : ℕ) : Prop :=
  low ≤ l / 2 ∧ (∀ j ≤ l / 2, |bin l fs low - 15| ≤ |bin l fs j - 15|) ∧
    ∀ j < low, |bin l fs low - 15| < |bin l fs j - 15|

theorem low_spec (l fs : ℕ) :
    ∃ low, Helpers.argmin (((List.range (l / 2 + 1)).map fun k : ℕ => (k : ℝ) * fs / l).map fun x => |x - 15|) =
      .ok low ∧ NextTo15 l fs low := by
  obtain ⟨i, h1, h2⟩ := Helpers.argmin_spec
    (((List.range (l / 2 + 1)).map fun k : ℕ => (k : ℝ) * fs / l).map fun x => |x - 15|) (by simp)
  have hg : ∀ j ≤ l / 2, (((List.range (l / 2 + 1)).map fun k : ℕ => (k : ℝ) * fs / l).map
      fun x => |x - 15|).getD j 0 = |bin l fs j - 15| := by
    intro j hj
    rw [List.getD_eq_getElem _ _ (by simp; omega)]
    simp [bin]
  obtain ⟨h3, h4, h5⟩ := h2
  simp only [List.length_map, List.length_range] at h3 h4
  refine ⟨i, h1, by omega, fun j hj => ?_, fun j hj => ?_⟩
  · have := h4 j (by omega)
    rwa [hg j hj, hg i (by omega)] at this
  · have := h5 j hj
    rwa [hg j (by omega), hg i (by omega)] at this

theorem low_unique (l fs a b : ℕ) (ha : NextTo15 l fs a) (hb : NextTo15 l fs b) : a = b := by
  obtain ⟨a1, a2, a3⟩ := ha
  obtain ⟨b1, b2, b3⟩ := hb
  rcases lt_trichotomy a b with h | h | h
  · exact absurd (b3 a h) (not_lt.2 (a2 b b1))
  · exact h
  · exact absurd (a3 b h) (not_lt.2 (b2 a a1))

/-- With bins closer than 30 Hz the bin next to 15 Hz is not the one at 0 Hz. -/
theorem low_pos (l fs low : ℕ) (hl : 2 ≤ l) (hfs : 0 < fs) (hd : (fs : ℝ) / l < 30) (h : NextTo15 l fs low) :
    0 < low := by
  by_contra h0
  obtain rfl : low = 0 := by omega
  have := h.2.1 1 (by omega)
  have hp : (0 : ℝ) < (fs : ℝ) / l := by
    have : (0 : ℝ) < fs := by exact_mod_cast hfs
    have : (0 : ℝ) < l := by exact_mod_cast (by omega : 0 < l)
    positivity
  unfold bin at this
  rw [show ((0 : ℕ) : ℝ) * fs / l - 15 = -15 by push_cast; ring, abs_neg, abs_of_pos (by norm_num : (0 : ℝ) < 15),
    Nat.cast_one, one_mul] at this
  have h2 : |(fs : ℝ) / l - 15| < 15 := by
    rw [abs_lt]
    constructor <;> linarith
  linarith

/-- With bins 30 Hz or more apart it is. -/
theorem low_zero (l fs low : ℕ) (hd : 30 ≤ (fs : ℝ) / l) (h : NextTo15 l fs low) : low = 0 := by
  by_contra h0
  have := h.2.2 0 (by omega)
  unfold bin at this
  rw [show ((0 : ℕ) : ℝ) * fs / l - 15 = -15 by push_cast; ring, abs_neg, abs_of_pos (by norm_num : (0 : ℝ) < 15)]
    at this
  have h1 : (1 : ℝ) ≤ low := by exact_mod_cast (by omega : 1 ≤ low)
  have h2 : (low : ℝ) * fs / l = low * (fs / l) := by ring
  rw [h2, abs_lt] at this
  nlinarith

theorem magnitudes_ok (type : NoiseType) (l fs low : ℕ) (hlow : NextTo15 l fs low) (draw : ℕ → ℝ)
    (G : ℕ → Option ℝ)
    (hG : ∀ k ≤ l / 2, low ≤ k →
      colour type ((List.range (l / 2 + 1)).map fun k : ℕ => (k : ℝ) * fs / l) k = .ok (G k)) :
    magnitudes type ((List.range (l / 2 + 1)).map fun k : ℕ => (k : ℝ) * fs / l) draw =
      .ok ((List.range (l / 2 + 1)).map fun k =>
        if k < low then some ((if k = 0 then 0 else draw k) * 1e-20)
        else nanMul (some (if k = 0 then 0 else draw k)) (G k)) := by
  obtain ⟨low', h1, h2⟩ := low_spec l fs
  obtain rfl := low_unique l fs _ _ h2 hlow
  unfold magnitudes
  rw [h1]
  simp only [bind, Except.bind, pure, Except.pure, List.length_map, List.length_range]
  refine Framing.mapM_ok _ _ _ fun k hk => ?_
  rw [List.mem_range] at hk
  by_cases h : k < low'
  · rw [if_pos h, if_pos h]
  · rw [if_neg h, if_neg h, hG k (by omega) (by omega)]

theorem getD_bins (l fs k : ℕ) (hk : k ≤ l / 2) :
    ((List.range (l / 2 + 1)).map fun k : ℕ => (k : ℝ) * fs / l).getD k 0 = bin l fs k := by
  rw [List.getD_eq_getElem _ _ (by simp; omega)]
  simp [bin]

/-- Spectrum of the noise when all gains are defined. -/
theorem spectrum_of_gain (l fs low : ℕ) (hl : 0 < l) (hlow : NextTo15 l fs low) (type : NoiseType)
    (mag ph : ℕ → ℝ) (G : ℕ → ℝ)
    (hG : ∀ k ≤ l / 2, low ≤ k →
      colour type ((List.range (l / 2 + 1)).map fun k : ℕ => (k : ℝ) * fs / l) k = .ok (some (G k))) :
    ∃ x : ℕ → ℝ, rawNoise l fs type mag ph = .ok ((List.range l).map fun j => some (x j)) ∧
      ∀ k ≤ l / 2, DFT.rfft l x k =
        ((if k = 0 then 0 else if k < low then mag k * 1e-20 else mag k * G k : ℝ) : ℂ) *
          Complex.exp (Complex.I * phases l ph k) := by
  have hm := magnitudes_ok type l fs low hlow mag (fun k => some (G k)) hG
  have hm' : ((List.range (l / 2 + 1)).map fun k =>
        if k < low then some ((if k = 0 then 0 else mag k) * 1e-20)
        else nanMul (some (if k = 0 then 0 else mag k)) ((fun k => some (G k)) k)) =
      (List.range (l / 2 + 1)).map fun k => some (if k = 0 then 0 else if k < low then mag k * 1e-20 else mag k * G k) := by
    refine List.map_congr_left fun k _ => ?_
    by_cases h0 : k = 0
    · subst h0
      simp [nanMul]
    · by_cases h1 : k < low
      · rw [if_pos h1, if_neg h0, if_neg h0, if_pos h1]
      · rw [if_neg h1, if_neg h0, if_neg h0, if_neg h1]
        rfl
  rw [hm'] at hm
  set X : ℕ → ℂ := fun k => (((((List.range (l / 2 + 1)).map fun k => some (if k = 0 then 0 else
    if k < low then mag k * 1e-20 else mag k * G k)).getD k none).getD 0 : ℝ) : ℂ) *
      Complex.exp (Complex.I * phases l ph k) with hX
  refine ⟨Deconv.irfft l (l / 2 + 1) X, ?_, fun k hk => ?_⟩
  · unfold rawNoise
    simp only [hm, bind, Except.bind, pure, Except.pure, List.length_map, List.length_range]
    rw [if_neg (by simp)]
  · have hXk : ∀ k ≤ l / 2, X k = ((if k = 0 then 0 else if k < low then mag k * 1e-20 else mag k * G k : ℝ) : ℂ) *
          Complex.exp (Complex.I * phases l ph k) := by
      intro k hk
      simp only [hX]
      rw [List.getD_eq_getElem _ _ (by simp; omega)]
      simp
    rw [← hXk k hk, Deconv.rfft_irfft l (l / 2 + 1) X k (by omega)]
    unfold Deconv.herm
    dsimp only
    by_cases h0 : k = 0
    · subst h0
      rw [if_pos rfl, if_pos (by omega), hXk 0 (by omega)]
      simp
    · rw [if_neg h0]
      by_cases h2 : 2 * k < l
      · rw [if_pos h2, if_pos (by omega)]
      · have h3 : 2 * k = l := by omega
        rw [if_neg h2, if_pos h3, if_pos (by omega), hXk k hk]
        have hp : phases l ph k = 0 := by
          unfold phases
          rw [if_neg h0, if_pos ⟨by omega, by omega⟩]
        rw [hp]
        simp

/-- The magnitude spectrum of the noise (before it is scaled to its level and faded), if its bins are closer
than 30 Hz, that is, if it is longer than 1/30 s: zero at 0 Hz, and from the bin next to 15 Hz on the random
magnitude times `f ^ (-b / 2)`. -/
theorem C101_spectrum_partial (l fs : ℕ) (hl : 2 ≤ l) (hfs : 0 < fs) (hd : (fs : ℝ) / l < 30)
    (type : NoiseType) (b : ℝ) (hb : Slope type b) (mag ph : ℕ → ℝ) :
    ∃ low, NextTo15 l fs low ∧ ∃ x : ℕ → ℝ,
      rawNoise l fs type mag ph = .ok ((List.range l).map fun j => some (x j)) ∧
      ‖DFT.rfft l x 0‖ = 0 ∧
      (∀ k, 0 < k → k < low → ‖DFT.rfft l x k‖ = |mag k| * 1e-20) ∧
      ∀ k ≤ l / 2, low ≤ k → ‖DFT.rfft l x k‖ = |mag k| * bin l fs k ^ (-b / 2) := by
  obtain ⟨low, -, hlow⟩ := low_spec l fs
  have h0 := low_pos l fs low hl hfs hd hlow
  have hpos : ∀ k, low ≤ k → 0 < bin l fs k := by
    intro k hk
    have h1 : (0 : ℝ) < k := by exact_mod_cast (by omega : 0 < k)
    have h2 : (0 : ℝ) < fs := by exact_mod_cast hfs
    have h3 : (0 : ℝ) < l := by exact_mod_cast (by omega : 0 < l)
    unfold bin
    positivity
  have hG : ∀ k ≤ l / 2, low ≤ k →
      colour type ((List.range (l / 2 + 1)).map fun k : ℕ => (k : ℝ) * fs / l) k =
        .ok (some (bin l fs k ^ (-b / 2))) := by
    intro k hk hlk
    have hp := hpos k hlk
    unfold colour
    simp only [getD_bins l fs k hk]
    cases hb with
    | white => simp
    | pink =>
      simp only [divide]
      rw [if_neg (Real.rpow_pos_of_pos hp _).ne', one_div, ← Real.rpow_neg hp.le]
      norm_num
    | red =>
      simp only [divide]
      rw [if_neg hp.ne', one_div, show (-2 / 2 : ℝ) = -1 by norm_num, Real.rpow_neg_one]
    | blue => norm_num
    | violet => norm_num
    | beta b =>
      simp only
      rw [if_neg (fun h => hp.ne' h.1), show -b * 0.5 = -b / 2 by ring]
  obtain ⟨x, h1, h2⟩ := spectrum_of_gain l fs low (by omega) hlow type mag ph _ hG
  have hn : ∀ k ≤ l / 2, ‖DFT.rfft l x k‖ =
      |if k = 0 then 0 else if k < low then mag k * 1e-20 else mag k * bin l fs k ^ (-b / 2)| := by
    intro k hk
    rw [h2 k hk, norm_mul, Complex.norm_real, Real.norm_eq_abs, mul_comm Complex.I, Complex.norm_exp_ofReal_mul_I,
      mul_one]
  refine ⟨low, hlow, x, h1, ?_, fun k hk0 hk => ?_, fun k hk hlk => ?_⟩
  · rw [hn 0 (by omega), if_pos rfl, abs_zero]
  · rw [hn k (by have := hlow.1; omega), if_neg (by omega), if_pos hk, abs_mul,
      abs_of_nonneg (by norm_num : (0 : ℝ) ≤ 1e-20)]
  · rw [hn k hk, if_neg (by omega), if_neg (by omega), abs_mul,
      abs_of_pos (Real.rpow_pos_of_pos (hpos k hlk) _)]

theorem aWeight_pos (f : ℝ) (hf : 0 < f) : 0 < aWeight f := by
  unfold aWeight
  have : 0 < Real.sqrt ((f ^ 2 + 107.7 ^ 2) * (f ^ 2 + 737.9 ^ 2)) := Real.sqrt_pos.2 (by positivity)
  positivity

theorem aWeight_zero : aWeight 0 = 0 := by
  unfold aWeight
  simp

/-- Grey noise, for bins closer than 30 Hz: from the bin next to 15 Hz on, the magnitudes multiplied with the
A-weighting are the random ones times a constant. -/
theorem C101_grey_partial (l fs : ℕ) (hl : 2 ≤ l) (hfs : 0 < fs) (hd : (fs : ℝ) / l < 30) (mag ph : ℕ → ℝ) :
    ∃ low, NextTo15 l fs low ∧ ∃ c > 0, ∃ x : ℕ → ℝ,
      rawNoise l fs .grey mag ph = .ok ((List.range l).map fun j => some (x j)) ∧
      ∀ k ≤ l / 2, low ≤ k → aWeight (bin l fs k) * ‖DFT.rfft l x k‖ = c * |mag k| := by
  obtain ⟨low, -, hlow⟩ := low_spec l fs
  have h0 := low_pos l fs low hl hfs hd hlow
  have hb : ∀ k, 0 < k → 0 < bin l fs k := by
    intro k hk
    have h1 : (0 : ℝ) < k := by exact_mod_cast hk
    have h2 : (0 : ℝ) < fs := by exact_mod_cast hfs
    have h3 : (0 : ℝ) < l := by exact_mod_cast (by omega : 0 < l)
    unfold bin
    positivity
  obtain ⟨ind, hi1, hi2⟩ := Helpers.argmin_spec
    (((List.range (l / 2 + 1)).map fun k : ℕ => (k : ℝ) * fs / l).map fun x => |x - 1000|) (by simp)
  obtain ⟨hi3, hi4, -⟩ := hi2
  simp only [List.length_map, List.length_range] at hi3 hi4
  have hg : ∀ j ≤ l / 2, (((List.range (l / 2 + 1)).map fun k : ℕ => (k : ℝ) * fs / l).map
      fun x => |x - 1000|).getD j 0 = |bin l fs j - 1000| := by
    intro j hj
    rw [List.getD_eq_getElem _ _ (by simp; omega)]
    simp [bin]
  have hind : 0 < ind := by
    by_contra h
    obtain rfl : ind = 0 := by omega
    have h5 := hi4 1 (by omega)
    rw [hg 0 (by omega), hg 1 (by omega)] at h5
    have h6 := hb 1 (by omega)
    have h7 : bin l fs 1 < 30 := by
      unfold bin
      rw [Nat.cast_one, one_mul]
      exact hd
    have h8 : bin l fs 0 = 0 := by simp [bin]
    rw [h8, abs_of_neg (by linarith), abs_of_neg (by linarith)] at h5
    linarith
  set c := aWeight (bin l fs ind) with hc
  have hc0 : 0 < c := aWeight_pos _ (hb ind hind)
  have hG : ∀ k ≤ l / 2, low ≤ k →
      colour .grey ((List.range (l / 2 + 1)).map fun k : ℕ => (k : ℝ) * fs / l) k =
        .ok (some (c / aWeight (bin l fs k))) := by
    intro k hk hlk
    have hp := aWeight_pos _ (hb k (by omega))
    simp only [colour, weight, hi1, bind, Except.bind, pure, Except.pure, getD_bins l fs k hk,
      getD_bins l fs ind (by omega), ← hc, divide]
    rw [if_neg hc0.ne']
    simp only [Option.bind_some]
    rw [if_neg (div_pos hp hc0).ne', one_div_div]
  obtain ⟨x, h1, h2⟩ := spectrum_of_gain l fs low (by omega) hlow .grey mag ph _ hG
  refine ⟨low, hlow, c, hc0, x, h1, fun k hk hlk => ?_⟩
  have hp := aWeight_pos _ (hb k (by omega))
  rw [h2 k hk, norm_mul, Complex.norm_real, Real.norm_eq_abs, mul_comm Complex.I, Complex.norm_exp_ofReal_mul_I,
    mul_one, if_neg (by omega), if_neg (by omega), abs_mul, abs_of_pos (div_pos hc0 hp)]
  field_simp

/-- **Disagreement.** Noise of at most 1/30 s whose power falls with the frequency and grey noise that short
are `nan` throughout. -/
theorem C101_short_nan (l fs : ℕ) (hl : 0 < l) (hd : 30 ≤ (fs : ℝ) / l) (type : NoiseType)
    (ht : type = .pink ∨ type = .red ∨ type = .grey ∨ ∃ b > 0, type = .beta b) (mag ph : ℕ → ℝ) :
    rawNoise l fs type mag ph = .ok (List.replicate l none) := by
  obtain ⟨low, -, hlow⟩ := low_spec l fs
  obtain rfl := low_zero l fs low hd hlow
  have hb0 : bin l fs 0 = 0 := by simp [bin]
  obtain ⟨G, hG, hG0⟩ : ∃ G : ℕ → Option ℝ, (∀ k ≤ l / 2, 0 ≤ k →
      colour type ((List.range (l / 2 + 1)).map fun k : ℕ => (k : ℝ) * fs / l) k = .ok (G k)) ∧ G 0 = none := by
    rcases ht with rfl | rfl | rfl | ⟨b, hb, rfl⟩
    · refine ⟨fun k => divide 1 (bin l fs k ^ (0.5 : ℝ)), fun k hk _ => ?_, ?_⟩
      · simp only [colour, getD_bins l fs k hk]
      · simp only [hb0, divide]
        rw [Real.zero_rpow (by norm_num), if_pos rfl]
    · refine ⟨fun k => divide 1 (bin l fs k), fun k hk _ => ?_, ?_⟩
      · simp only [colour, getD_bins l fs k hk]
      · simp only [hb0, divide, if_true]
    · obtain ⟨ind, hi1, hi2⟩ := Helpers.argmin_spec
        (((List.range (l / 2 + 1)).map fun k : ℕ => (k : ℝ) * fs / l).map fun x => |x - 1000|) (by simp)
      have hi3 := hi2.1
      simp only [List.length_map, List.length_range] at hi3
      refine ⟨fun k => (divide (aWeight (bin l fs k)) (aWeight (bin l fs ind))).bind fun w => divide 1 w,
        fun k hk _ => ?_, ?_⟩
      · simp only [colour, weight, hi1, bind, Except.bind, pure, Except.pure, getD_bins l fs k hk,
          getD_bins l fs ind (by omega)]
      · simp only [hb0, aWeight_zero, divide, zero_div]
        by_cases h : aWeight (bin l fs ind) = 0
        · rw [if_pos h]
          rfl
        · rw [if_neg h]
          simp
    · refine ⟨fun k => if bin l fs k = 0 ∧ 0 < b then none else some (bin l fs k ^ (-b * 0.5)),
        fun k hk _ => ?_, ?_⟩
      · simp only [colour, getD_bins l fs k hk]
      · simp only [hb0]
        rw [if_pos ⟨trivial, hb⟩]
  have hm := magnitudes_ok type l fs 0 hlow mag G hG
  unfold rawNoise
  simp only [hm, bind, Except.bind, pure, Except.pure]
  rw [if_pos]
  refine List.mem_map.2 ⟨0, List.mem_range.2 (by omega), ?_⟩
  rw [if_neg (by omega), hG0]
  rfl

/-- Noise of at most 1/30 s whose power does not fall with the frequency: zero at 0 Hz, and at every other bin
the random magnitude times `f ^ (-b / 2)`. -/
theorem C101_short_spectrum (l fs : ℕ) (hl : 0 < l) (hd : 30 ≤ (fs : ℝ) / l) (type : NoiseType) (b : ℝ)
    (hb : Slope type b) (hb0 : b ≤ 0) (mag ph : ℕ → ℝ) :
    ∃ x : ℕ → ℝ, rawNoise l fs type mag ph = .ok ((List.range l).map fun j => some (x j)) ∧
      ‖DFT.rfft l x 0‖ = 0 ∧
      ∀ k ≤ l / 2, 0 < k → ‖DFT.rfft l x k‖ = |mag k| * bin l fs k ^ (-b / 2) := by
  obtain ⟨low, -, hlow⟩ := low_spec l fs
  obtain rfl := low_zero l fs low hd hlow
  have hG : ∀ k ≤ l / 2, 0 ≤ k →
      colour type ((List.range (l / 2 + 1)).map fun k : ℕ => (k : ℝ) * fs / l) k =
        .ok (some (bin l fs k ^ (-b / 2))) := by
    intro k hk _
    unfold colour
    simp only [getD_bins l fs k hk]
    cases hb with
    | white => simp
    | pink => norm_num at hb0
    | red => norm_num at hb0
    | blue => norm_num
    | violet => norm_num
    | beta b =>
      simp only
      rw [if_neg (fun h => absurd h.2 (not_lt.2 hb0)), show -b * 0.5 = -b / 2 by ring]
  obtain ⟨x, h1, h2⟩ := spectrum_of_gain l fs 0 hl hlow type mag ph _ hG
  have hn : ∀ k ≤ l / 2, ‖DFT.rfft l x k‖ =
      |if k = 0 then 0 else if k < 0 then mag k * 1e-20 else mag k * bin l fs k ^ (-b / 2)| := by
    intro k hk
    rw [h2 k hk, norm_mul, Complex.norm_real, Real.norm_eq_abs, mul_comm Complex.I, Complex.norm_exp_ofReal_mul_I,
      mul_one]
  refine ⟨x, h1, ?_, fun k hk hk0 => ?_⟩
  · rw [hn 0 (by omega), if_pos rfl, abs_zero]
  · have hp : 0 ≤ bin l fs k := by
      unfold bin
      positivity
    rw [hn k hk, if_neg (by omega), if_neg (by omega), abs_mul, abs_of_nonneg (Real.rpow_nonneg hp _)]

/-- The hypotheses are met by 1/48 s of violet noise at 48 kHz. -/
example : (0 : ℕ) < 1000 ∧ (30 : ℝ) ≤ (48000 : ℕ) / (1000 : ℕ) ∧ Slope .violet (-2) ∧ (-2 : ℝ) ≤ 0 :=
  ⟨by norm_num, by norm_num, .violet, by norm_num⟩

/-- **Disagreement.** Such a signal is returned without an error. -/
theorem C101_short_returned (len : ℝ) (fs : ℕ) (type : NoiseType) (db : ℝ) (mag ph : ℕ → ℝ) (hlen : 0 < len)
    (hdb : db ≤ 0) (hl : 0 < roundHalf (len * fs)) (hd : 30 ≤ (fs : ℝ) / roundHalf (len * fs))
    (ht : type = .pink ∨ type = .red ∨ type = .grey ∨ ∃ b > 0, type = .beta b) :
    noise len fs type db none 0 mag ph = .ok (List.replicate (roundHalf (len * fs)) none) := by
  unfold noise
  rw [if_neg (not_not.2 hlen), if_neg (not_not.2 hdb)]
  simp only
  rw [if_neg (by omega), if_neg (by simp), C101_short_nan _ fs hl hd type ht mag ph]
  simp only [bind, Except.bind, ne_eq, not_true_eq_false, if_false, add_zero]
  unfold finish
  rw [normVec_nan _ db (by simp; omega) (.inl (by simp; omega))]
  simp only [bind, Except.bind, pure, Except.pure, List.length_replicate]
  congr 1
  apply List.ext_getElem
  · simp
  · intro i h1 h2
    simp only [List.getElem_map, List.getElem_range, List.getElem_replicate]
    rw [List.getD_eq_getElem _ _ (by simpa using h2)]
    simp

/-- **Disagreement.** White noise is not white: the condition that should spare it always holds, so its
bins below the one next to 15 Hz are reduced by 400 dB, like those of the other kinds. -/
theorem C101_white_not_flat (l fs : ℕ) (hl : 2 ≤ l) (hfs : 0 < fs) (hd : (fs : ℝ) / l < 30) (mag ph : ℕ → ℝ) :
    ∃ low, NextTo15 l fs low ∧ ∃ x : ℕ → ℝ,
      rawNoise l fs .white mag ph = .ok ((List.range l).map fun j => some (x j)) ∧
      (∀ k, 0 < k → k < low → ‖DFT.rfft l x k‖ = |mag k| * 1e-20) ∧
      ∀ k ≤ l / 2, low ≤ k → ‖DFT.rfft l x k‖ = |mag k| := by
  obtain ⟨low, h1, x, h2, -, h3, h4⟩ := C101_spectrum_partial l fs hl hfs hd .white 0 .white mag ph
  refine ⟨low, h1, x, h2, h3, fun k hk hlk => ?_⟩
  rw [h4 k hk hlk]
  simp

/-! ### The returned signal -/

/-- The returned noise: the raw noise, unless it is silent, scaled to the requested peak, faded at both ends
and followed by the padding. -/
theorem C101_noise (len : ℝ) (fs : ℕ) (type : NoiseType) (db : ℝ) (fade : Option FadeType) (pad : ℝ)
    (mag ph : ℕ → ℝ) (hlen : 0 < len) (hdb : db ≤ 0) (hl : 0 < roundHalf (len * fs)) (hpad : 0 ≤ pad)
    (hfade : fade = none ∨ fade = some .noFade ∨ 2 ≤ ⌊0.05 * len * fs⌋₊) (x : ℕ → ℝ)
    (hx : rawNoise (roundHalf (len * fs)) fs type mag ph =
      .ok ((List.range (roundHalf (len * fs))).map fun j => some (x j))) (P : ℝ) (hP0 : P ≠ 0)
    (hP : IsPeak ((List.range (roundHalf (len * fs))).map x) P) :
    ∃ e, Envelope (roundHalf (len * fs)) ⌊0.05 * len * fs⌋₊ e ∧
      (fade = none ∨ fade = some .noFade → ∀ i, e i = 1) ∧
      noise len fs type db fade pad mag ph =
        .ok ((List.range (roundHalf (len * fs) + (if 0 < pad then roundHalf (pad * fs) else 0))).map fun i =>
          some (if i < roundHalf (len * fs) then 10 ^ (db / 20) / P * x i * e i else 0)) := by
  unfold noise
  rw [if_neg (not_not.2 hlen), if_neg (not_not.2 hdb)]
  simp only
  rw [if_neg (by omega), if_neg (fun h => h.2 (lt_of_le_of_ne hpad (Ne.symm h.1))), hx]
  have hp : (if pad ≠ 0 then roundHalf (pad * fs) else 0) = if 0 < pad then roundHalf (pad * fs) else 0 := by
    by_cases h : 0 < pad
    · rw [if_pos h, if_pos h.ne']
    · rw [if_neg h, if_neg (by rw [not_not]; exact le_antisymm (not_lt.1 h) hpad)]
  simp only [bind, Except.bind, hp]
  set l := roundHalf (len * fs) with hldef
  set v : List ℝ := (List.range l).map x with hv
  have hvl : v.length = l := by simp [hv]
  have hfade' : fade = none ∨ fade = some .noFade ∨
      0 < len ∧ 2 ≤ ⌊0.05 * len * fs⌋₊ ∧ ⌊0.05 * len * fs⌋₊ < v.length := by
    rcases hfade with h | h | h
    · exact .inl h
    · exact .inr (.inl h)
    · exact .inr (.inr ⟨hlen, h, by rw [hvl, hldef, mul_comm len]; exact fade_fits len hlen fs h⟩)
  obtain ⟨e, h1, h2, h3⟩ := finish_value v P hP hP0 len db fade fs
    (l + if 0 < pad then roundHalf (pad * fs) else 0) hfade'
  refine ⟨e, by rwa [hvl] at h1, h2, ?_⟩
  have hm : (List.range l).map (fun j => some (x j)) = v.map some := by
    rw [hv, List.map_map]
    rfl
  rw [hm, h3, hvl]
  congr 1
  refine List.map_congr_left fun i _ => ?_
  by_cases hi : i < l
  · rw [if_pos hi, if_pos hi, List.getD_eq_getElem _ _ (by omega)]
    simp [hv, Level.fromDb, Level.dbFactor]
  · rw [if_neg hi, if_neg hi]

/-- Lengths that are not positive, levels above 0 dBFS and negative paddings are refused. -/
theorem C101_refused (len : ℝ) (fs : ℕ) (type : NoiseType) (db : ℝ) (fade : Option FadeType) (pad : ℝ)
    (mag ph : ℕ → ℝ) (h : len ≤ 0 ∨ 0 < db ∨ pad < 0 ∧ 0 < roundHalf (len * fs)) :
    noise len fs type db fade pad mag ph = .error .assertionError := by
  unfold noise
  by_cases h1 : ¬ 0 < len
  · rw [if_pos h1]
  rw [if_neg h1]
  by_cases h2 : ¬ db ≤ 0
  · rw [if_pos h2]
  rw [if_neg h2]
  rcases h with h | h | ⟨h, h3⟩
  · exact absurd (not_lt.2 h) h1
  · exact absurd (not_le.2 h) h2
  · simp only
    rw [if_neg (by omega), if_pos ⟨h.ne, not_lt.2 h.le⟩]

/-! ### Examples -/

/-- One second at 48 kHz has bins closer than 30 Hz; 1 ms has not. -/
example : ((48000 : ℕ) : ℝ) / (48000 : ℕ) < 30 ∧ (30 : ℝ) ≤ ((48000 : ℕ) : ℝ) / (48 : ℕ) := by norm_num

/-- With bins of 1 Hz the bin next to 15 Hz is number 15. -/
example : NextTo15 48000 48000 15 := by
  refine ⟨by norm_num, fun j _ => ?_, fun j hj => ?_⟩
  · simp only [bin]
    norm_num
  · have h1 : bin 48000 48000 15 = 15 := by simp only [bin]; norm_num
    have h2 : bin 48000 48000 j = j := by simp only [bin]; norm_num
    rw [h1, h2, sub_self, abs_zero]
    have : (j : ℝ) < 15 := by exact_mod_cast hj
    exact abs_pos.2 (by linarith)

end Verif.Generators

import Verif.Model.Echo
import Verif.Lemmas.Peak
import Verif.Lemmas.LFilter
import Mathlib.Analysis.SpecialFunctions.Trigonometric.Bounds
import Mathlib.Analysis.Real.Pi.Bounds
import Mathlib.Tactic.NormNum
import Mathlib.Tactic.FieldSimp
import Mathlib.Tactic.Ring
import Mathlib.Tactic.Linarith

/-!
# C57: low-frequency oscillators and tremolo
-/

namespace Verif.Echo

open Verif.Level

/-- The waveforms without smoothing, for a phase shift in radians (in periods for the sawtooth). -/
inductive Wave
  | harmonic
  | square
  | sawtooth
  | triangle

/-- `LFO.get_waveform` (`_effects.py`, lines 381-395) without smoothing, for a given length. -/
noncomputable def waveform (w : Wave) (freq fs shift : ℝ) (len : ℕ) : Option (List ℝ) :=
  match w with
  | .harmonic => harmonic freq fs shift len
  | .square => square freq fs shift 0 len
  | .sawtooth => sawtooth freq fs shift len
  | .triangle => triangle freq fs shift len

/-- All waveforms without smoothing stay within [-1, 1] and have the requested length. -/
theorem C57_range (w : Wave) (freq fs shift : ℝ) (len : ℕ) (y : List ℝ)
    (h : waveform w freq fs shift len = some y) : y.length = len ∧ ∀ v ∈ y, |v| ≤ 1 := by
  cases w with
  | harmonic =>
    cases h
    refine ⟨by simp, fun v hv => ?_⟩
    obtain ⟨n, -, rfl⟩ := List.mem_map.mp hv
    exact Real.abs_sin_le_one _
  | square =>
    cases h
    refine ⟨by simp, fun v hv => ?_⟩
    obtain ⟨n, -, rfl⟩ := List.mem_map.mp hv
    rw [if_pos rfl]
    rcases lt_trichotomy (Real.sin (phase freq fs shift n)) 0 with h | h | h
    · rw [sign_neg h]; simp
    · rw [h]; simp
    · rw [sign_pos h]; simp
  | sawtooth =>
    cases h
    refine ⟨by simp, fun v hv => ?_⟩
    obtain ⟨n, -, rfl⟩ := List.mem_map.mp hv
    have h1 := Int.fract_nonneg (freq / fs * n + shift)
    have h2 := Int.fract_lt_one (freq / fs * n + shift)
    exact abs_le.mpr ⟨by linarith, by linarith⟩
  | triangle =>
    simp only [waveform, triangle] at h
    split_ifs at h with h0
    cases h
    refine ⟨by simp, fun v hv => ?_⟩
    obtain ⟨u, hu, rfl⟩ := List.mem_map.mp hv
    have hp := maxAbs_pos _ h0
    rw [abs_div, abs_of_pos hp, div_le_one hp]
    exact le_maxAbs _ u hu

/-- The harmonic, square and sawtooth waveforms are always defined. -/
theorem C57_defined (w : Wave) (hw : w ≠ .triangle) (freq fs shift : ℝ) (len : ℕ) :
    ∃ y, waveform w freq fs shift len = some y := by
  cases w <;> first | exact ⟨_, rfl⟩ | exact absurd rfl hw

theorem phase_shift (freq fs shift : ℝ) (n p : ℕ) (k : ℕ) (hp : freq / fs * p = k) :
    phase freq fs shift (n + p) = phase freq fs shift n + k * (2 * Real.pi) := by
  unfold phase
  rw [← hp]
  push_cast
  ring

/-- Periodicity: if `p` samples are a whole number of periods, the waveform repeats after `p`
samples.  (Harmonic, square, sawtooth; for the triangle as well, since its scaling is the same
for all samples of one call.) -/
theorem C57_periodic (w : Wave) (freq fs shift : ℝ) (len : ℕ) (y : List ℝ)
    (h : waveform w freq fs shift len = some y) (p k : ℕ) (hp : freq / fs * p = k) (n : ℕ)
    (hn : n + p < len) : y.getD (n + p) 0 = y.getD n 0 := by
  have hn' : n < len := by omega
  have hs : Real.sin (phase freq fs shift (n + p)) = Real.sin (phase freq fs shift n) := by
    rw [phase_shift freq fs shift n p k hp, Real.sin_add_nat_mul_two_pi]
  cases w with
  | harmonic =>
    cases h
    rw [LFilter.getD_map_range, LFilter.getD_map_range, if_pos hn, if_pos hn', hs]
  | square =>
    cases h
    rw [LFilter.getD_map_range, LFilter.getD_map_range, if_pos hn, if_pos hn', hs]
  | sawtooth =>
    cases h
    rw [LFilter.getD_map_range, LFilter.getD_map_range, if_pos hn, if_pos hn']
    have : freq / fs * ((n + p : ℕ) : ℝ) + shift = freq / fs * n + shift + k := by
      rw [← hp]; push_cast; ring
    rw [this, Int.fract_add_natCast]
  | triangle =>
    simp only [waveform, triangle] at h
    split_ifs at h with h0
    cases h
    rw [List.map_map, LFilter.getD_map_range, LFilter.getD_map_range, if_pos hn, if_pos hn',
      Function.comp, Function.comp, hs]

/-- The harmonic, square and sawtooth waveforms do not depend on how many samples are requested. -/
theorem C57_prefix_partial (w : Wave) (hw : w ≠ .triangle) (freq fs shift : ℝ) (len len' : ℕ)
    (hl : len ≤ len') (y y' : List ℝ) (h : waveform w freq fs shift len = some y)
    (h' : waveform w freq fs shift len' = some y') (n : ℕ) (hn : n < len) :
    y.getD n 0 = y'.getD n 0 := by
  have hn' : n < len' := by omega
  cases w with
  | triangle => exact absurd rfl hw
  | _ =>
    cases h
    cases h'
    rw [LFilter.getD_map_range, LFilter.getD_map_range, if_pos hn, if_pos hn']

/-- The tremolo multiplies every sample by a factor between `1 - depth` and `1 + depth`, for every
accepted depth and every modulation within [-1, 1]. -/
theorem C57_tremolo (depth d : ℝ) (h : setTremolo depth .lfo = .ok d) (m x : List ℝ)
    (hl : m.length = x.length) (hm : ∀ v ∈ m, |v| ≤ 1) :
    (tremolo d m x).length = x.length ∧
    ∀ i < x.length, ∃ g, 1 - depth ≤ g ∧ g ≤ 1 + depth ∧ 0 ≤ g ∧
      (tremolo d m x).getD i 0 = g * x.getD i 0 := by
  unfold setTremolo at h
  split_ifs at h with hd
  cases h
  refine ⟨by simp [tremolo, hl], fun i hi => ?_⟩
  have hi' : i < m.length := by omega
  have hb := abs_le.mp (hm m[i] (List.getElem_mem hi'))
  have h1 := mul_le_mul_of_nonneg_right hb.1 hd.1.le
  have h2 := mul_le_mul_of_nonneg_right hb.2 hd.1.le
  have hpos : 0 ≤ m[i] * depth + 1 := by linarith [hd.2]
  refine ⟨m[i] * depth + 1, by linarith, by linarith, hpos, ?_⟩
  unfold tremolo
  rw [List.getD_eq_getElem _ _ (by simp [hl, hi]), List.getElem_zipWith, abs_of_nonneg hpos,
    List.getD_eq_getElem _ _ hi, mul_comm]

/-- Accepted depths are exactly those in ]0, 1]; modulation arrays, documented as possible, are
rejected. -/
theorem C57_tremolo_accepts (depth : ℝ) :
    ((∃ d, setTremolo depth .lfo = .ok d) ↔ 0 < depth ∧ depth ≤ 1) ∧
      setTremolo depth .array = .error .assertionError := by
  refine ⟨?_, rfl⟩
  unfold setTremolo
  split_ifs with h
  · exact ⟨fun _ => h, fun _ => ⟨_, rfl⟩⟩
  · exact ⟨fun ⟨d, hd⟩ => (nomatch hd), fun h' => absurd h' h⟩

/-! ## Disagreements -/

theorem sin_pi_div_two_wave : Real.sin (phase 1 4 0 1) = 1 := by
  have : phase 1 4 0 1 = Real.pi / 2 := by unfold phase; push_cast; ring
  rw [this, Real.sin_pi_div_two]

/-- The smoothed square leaves [-1, 1]: at the documented smoothing of 10 the second sample of a
quarter-rate oscillation is `arctan 4 > 1.3`. -/
theorem C57_smooth_square_exceeds :
    ∃ (y : List ℝ) (v : ℝ), square 1 4 0 10 2 = some y ∧ y[1]? = some v ∧ 1.3 < v := by
  refine ⟨_, Real.arctan 4, rfl, ?_, ?_⟩
  · simp only [List.getElem?_map, List.getElem?_range (by norm_num : 1 < 2), Option.map_some,
      sin_pi_div_two_wave]
    norm_num
  · have h1 : Real.arctan (4⁻¹) = Real.pi / 2 - Real.arctan 4 := Real.arctan_inv_of_pos (by norm_num)
    have h2 : Real.arctan (4⁻¹) ≤ 4⁻¹ := by
      have := Real.le_tan (Real.arctan_nonneg.mpr (by norm_num : (0 : ℝ) ≤ 4⁻¹))
        (Real.arctan_lt_pi_div_two _)
      rwa [Real.tan_arctan] at this
    have h3 := Real.pi_gt_d2
    norm_num at h2 h3 ⊢
    rw [show (4⁻¹ : ℝ) = 1 / 4 by norm_num] at h1
    linarith

theorem sin_pi_div_four_wave : 2 / Real.pi * Real.arcsin (Real.sin (phase 1 8 0 1)) = 1 / 2 := by
  have hp := Real.pi_pos
  have : phase 1 8 0 1 = Real.pi / 4 := by unfold phase; push_cast; ring
  rw [this, Real.arcsin_sin (by linarith) (by linarith)]
  field_simp
  norm_num

theorem sin_half_wave : 2 / Real.pi * Real.arcsin (Real.sin (phase 1 8 0 2)) = 1 := by
  have hp := Real.pi_pos
  have : phase 1 8 0 2 = Real.pi / 2 := by unfold phase; push_cast; ring
  rw [this, Real.arcsin_sin (by linarith) (by linarith)]
  field_simp

theorem sin_zero_wave : 2 / Real.pi * Real.arcsin (Real.sin (phase 1 8 0 0)) = 0 := by
  have : phase 1 8 0 0 = 0 := by unfold phase; push_cast; ring
  rw [this, Real.sin_zero, Real.arcsin_zero, mul_zero]

/-- The triangle depends on the number of requested samples: the same oscillator has the value 1 at
sample 1 of a waveform of two samples and 1/2 at sample 1 of one with three; a waveform of one
sample is `nan`. -/
theorem C57_triangle_depends_on_length :
    waveform .triangle 1 8 0 2 = some [0, 1] ∧ waveform .triangle 1 8 0 3 = some [0, 1 / 2, 1] ∧
      waveform .triangle 1 8 0 1 = none := by
  have r1 : List.range 1 = [0] := rfl
  have r2 : List.range 2 = [0, 1] := rfl
  have r3 : List.range 3 = [0, 1, 2] := rfl
  have m1 : maxAbs [(0 : ℝ)] = 0 := by simp [maxAbs]
  have m2 : maxAbs [(0 : ℝ), 1 / 2] = 1 / 2 := by norm_num [maxAbs, abs_of_pos]
  have m3 : maxAbs [(0 : ℝ), 1 / 2, 1] = 1 := by norm_num [maxAbs, abs_of_pos]
  refine ⟨?_, ?_, ?_⟩
  · simp only [waveform, triangle, r2, List.map_cons, List.map_nil, sin_zero_wave,
      sin_pi_div_four_wave, m2]
    norm_num
  · simp only [waveform, triangle, r3, List.map_cons, List.map_nil, sin_zero_wave,
      sin_pi_div_four_wave, sin_half_wave, m3]
    norm_num
  · simp only [waveform, triangle, r1, List.map_cons, List.map_nil, sin_zero_wave, m1, if_true]

/-! ## The hypotheses are met -/

example : (1 : ℝ) / 8 * (8 : ℕ) = (1 : ℕ) := by norm_num

example : ∃ d, setTremolo 0.5 .lfo = .ok d := (C57_tremolo_accepts 0.5).1.mpr (by norm_num)

example : ∀ v ∈ ([1, -1 / 2] : List ℝ), |v| ≤ 1 := by
  intro v hv
  simp only [List.mem_cons, List.not_mem_nil, or_false] at hv
  rcases hv with rfl | rfl <;> norm_num [abs_of_neg]

/-- The sawtooth rises from -1 at the beginning of every period by 2 per period. -/
theorem C57_sawtooth (freq fs shift : ℝ) (len : ℕ) (y : List ℝ)
    (h : waveform .sawtooth freq fs shift len = some y) (n : ℕ) (hn : n < len) (period : ℤ)
    (h0 : period ≤ freq / fs * n + shift) (h1 : freq / fs * n + shift < period + 1) :
    y.getD n 0 = -1 + 2 * (freq / fs * n + shift - period) := by
  cases h
  rw [LFilter.getD_map_range, if_pos hn, Int.fract,
    Int.floor_eq_iff.2 ⟨h0, h1⟩]
  ring

/-- The harmonic waveform is the sine, the square waveform its sign. -/
theorem C57_harmonic_square (freq fs shift : ℝ) (len : ℕ) (y z : List ℝ)
    (h : waveform .harmonic freq fs shift len = some y)
    (h' : waveform .square freq fs shift len = some z) (n : ℕ) (hn : n < len) :
    y.getD n 0 = Real.sin (2 * Real.pi * freq * (n / fs) + shift) ∧
      (0 < y.getD n 0 → z.getD n 0 = 1) ∧ (y.getD n 0 < 0 → z.getD n 0 = -1) := by
  cases h
  cases h'
  rw [LFilter.getD_map_range, LFilter.getD_map_range, if_pos hn, if_pos hn]
  refine ⟨?_, fun hp => ?_, fun hp => ?_⟩
  · congr 1
    unfold phase
    ring
  · rw [if_pos rfl, sign_pos hp]
    simp
  · rw [if_pos rfl, sign_neg hp]
    simp

end Verif.Echo

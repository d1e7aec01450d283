import Verif.Props.C97
import Mathlib.Analysis.SpecialFunctions.Trigonometric.Bounds
import Mathlib.Data.Rat.Cast.Order
import Mathlib.Tactic.Positivity

/-!
# C97, slope: the pinking filter falls by 3 dB per octave within 1.3 dB
-/

namespace Verif.AudioFilters

/-- Squared distance in terms of `t = 1 - cos w`. -/
def dq (r t : ℚ) : ℚ := (1 - r) ^ 2 + 2 * r * t

/-- The power of the pinking filter for `t = 1 - cos w`. -/
def pq (t : ℚ) : ℚ :=
  1 / dq (378332 / 1000000) t * (dq (698258 / 1000000) t / dq (862595 / 1000000) t) * (dq (937174 / 1000000) t / dq (970548 / 1000000) t) *
    (dq (985792 / 1000000) t / dq (993022 / 1000000) t) * (dq (996652 / 1000000) t / dq (998655 / 1000000) t)

theorem dq_cast (r t : ℚ) : ((dq r t : ℚ) : ℝ) = dist2 (r : ℝ) (1 - (t : ℝ)) := by
  unfold dq dist2
  push_cast
  ring

theorem pq_cast (t : ℚ) : ((pq t : ℚ) : ℝ) = power (1 - (t : ℝ)) := by
  unfold pq power
  simp only [Rat.cast_mul, Rat.cast_div, dq_cast]
  norm_num

/-- The grid of the estimate. -/
def grid (i : ℕ) : ℚ := 3 / 1000000 * (6 / 5) ^ i

theorem grid_check : ∀ i < 74, pq (grid i) ^ 2 * (2 * grid (i + 1)) ≤ (13 / 10) ^ 2 ∧
    (37 / 50) ^ 2 ≤ pq (grid (i + 1)) ^ 2 * (2 * grid i) := by
  decide +kernel

theorem grid_cover (n : ℕ) (t : ℝ) (h0 : (grid 0 : ℝ) ≤ t) (hn : t ≤ (grid n : ℝ)) (hpos : 0 < n) :
    ∃ i < n, (grid i : ℝ) ≤ t ∧ t ≤ (grid (i + 1) : ℝ) := by
  induction n with
  | zero => omega
  | succ n ih =>
    rcases le_total t (grid n : ℝ) with h | h
    · rcases Nat.eq_zero_or_pos n with h1 | h1
      · subst h1
        exact ⟨0, by omega, h0, hn⟩
      · obtain ⟨i, h2, h3⟩ := ih h h1
        exact ⟨i, by omega, h3⟩
    · exact ⟨n, by omega, h, hn⟩

theorem power_antitone (s t : ℝ) (h0 : 0 ≤ s) (h : s ≤ t) : power (1 - t) ≤ power (1 - s) := by
  rcases h.eq_or_lt with h | h
  · rw [h]
  · exact (power_mono (1 - s) (1 - t) (by linarith) (by linarith)).le

theorem power_bounds (t : ℝ) (h0 : 3 / 1000000 ≤ t) (h2 : t ≤ 2) :
    power (1 - t) ^ 2 * (2 * t) ≤ 1.3 ^ 2 ∧ 0.74 ^ 2 ≤ power (1 - t) ^ 2 * (2 * t) := by
  have hg0 : ((grid 0 : ℚ) : ℝ) = 3 / 1000000 := by unfold grid; norm_num
  have hg : (2 : ℝ) ≤ ((grid 74 : ℚ) : ℝ) := by
    have : (2 : ℚ) ≤ grid 74 := by decide +kernel
    exact_mod_cast this
  obtain ⟨i, hi, h3, h4⟩ := grid_cover 74 t (by rw [hg0]; exact h0) (by linarith) (by norm_num)
  obtain ⟨c1, c2⟩ := grid_check i hi
  have hpos : ∀ j, (0 : ℝ) < ((grid j : ℚ) : ℝ) := by
    intro j
    have : 0 < grid j := by unfold grid; positivity
    exact_mod_cast this
  have c1' : ((pq (grid i) ^ 2 * (2 * grid (i + 1)) : ℚ) : ℝ) ≤ (((13 / 10) ^ 2 : ℚ) : ℝ) :=
    Rat.cast_le.mpr c1
  have c2' : (((37 / 50) ^ 2 : ℚ) : ℝ) ≤ ((pq (grid (i + 1)) ^ 2 * (2 * grid i) : ℚ) : ℝ) :=
    Rat.cast_le.mpr c2
  simp only [Rat.cast_mul, Rat.cast_pow, pq_cast, Rat.cast_div, Rat.cast_ofNat] at c1' c2'
  rw [show (1.3 : ℝ) = 13 / 10 by norm_num, show (0.74 : ℝ) = 37 / 50 by norm_num]
  have m1 := power_antitone _ t (hpos i).le h3
  have m2 := power_antitone t _ (by linarith) h4
  have p1 := power_pos (1 - t) (by linarith)
  have p2 := power_pos (1 - ((grid (i + 1) : ℚ) : ℝ)) (by have := hpos (i + 1); linarith)
  constructor
  · refine le_trans ?_ c1'
    refine mul_le_mul (pow_le_pow_left₀ p1.le m1 2) (by linarith) (by linarith) (by positivity)
  · refine le_trans c2' ?_
    refine mul_le_mul (pow_le_pow_left₀ p2.le m2 2) (by linarith) (by have := hpos i; linarith)
      (by positivity)

/-- **C97**, slope: from 1/400 (in radians per sample, about 19 Hz at 48 kHz) to the Nyquist frequency
the power of the response is a constant over `2 sin(w / 2)`, up to factors between 0.74 and 1.3, and
(as `2 sin(w / 2)` lies between `2 w / π` and `w`) a constant over the frequency up to factors between
0.74 and 2.05. -/
theorem C97_slope (f0 fs : ℝ) (f : Zpk) (h : pinking f0 fs = .ok f) :
    ∃ C > 0, ∀ w : ℝ, 1 / 400 ≤ w → w ≤ Real.pi →
      (0.74 * C ≤ ‖freqz f w‖ ^ 2 * (2 * Real.sin (w / 2)) ∧
        ‖freqz f w‖ ^ 2 * (2 * Real.sin (w / 2)) ≤ 1.3 * C) ∧
      0.74 * C ≤ ‖freqz f w‖ ^ 2 * w ∧ ‖freqz f w‖ ^ 2 * w ≤ 2.05 * C := by
  obtain ⟨h1, h2⟩ := pinking_ok f0 fs f h
  have hk := (C97_stable f0 fs f h).2.2.2
  refine ⟨f.k ^ 2, by positivity, fun w hw hwpi => ?_⟩
  have hpi := Real.pi_pos
  have hpi4 := Real.pi_lt_d4
  rw [h1, pink_power]
  set s := Real.sin (w / 2) with hs
  have hspos : 0 < s := Real.sin_pos_of_pos_of_lt_pi (by linarith) (by linarith)
  have ht : 1 - Real.cos w = 2 * s ^ 2 := by
    rw [hs, show w = 2 * (w / 2) by ring, Real.cos_two_mul, show 2 * (w / 2) / 2 = w / 2 by ring]
    nlinarith [Real.sin_sq_add_cos_sq (w / 2)]
  have hsmall : 1 / 801 ≤ s := by
    have hmono : Real.sin (1 / 800) ≤ s := by
      refine Real.sin_le_sin_of_le_of_le_pi_div_two (by linarith) (by linarith) (by linarith)
    have hx := Real.sin_gt_sub_cube (x := 1 / 800) (by norm_num)
    norm_num at hx hmono ⊢
    linarith
  have hs1 : s ≤ 1 := Real.sin_le_one _
  obtain ⟨b1, b2⟩ := power_bounds (1 - Real.cos w) (by rw [ht]; nlinarith) (by rw [ht]; nlinarith)
  rw [ht, show (2 : ℝ) * (2 * s ^ 2) = (2 * s) ^ 2 by ring, ← mul_pow] at b1 b2
  rw [show 1 - 2 * s ^ 2 = Real.cos w by linarith] at b1 b2
  have hp := power_pos _ (Real.cos_le_one w)
  have hps : 0 ≤ power (Real.cos w) * (2 * s) := by positivity
  have u1 : power (Real.cos w) * (2 * s) ≤ 1.3 := (sq_le_sq₀ hps (by norm_num)).mp b1
  have u2 : 0.74 ≤ power (Real.cos w) * (2 * s) := (sq_le_sq₀ (by norm_num) hps).mp b2
  have hk2 : 0 < f.k ^ 2 := by positivity
  have hsw : 2 * s ≤ w := by
    have := Real.sin_le (x := w / 2) (by linarith)
    linarith
  have hws : 2 * w ≤ Real.pi * (2 * s) := by
    have := Real.mul_le_sin (x := w / 2) (by linarith) (by linarith)
    rw [← hs] at this
    have h5 : 2 / Real.pi * (w / 2) * Real.pi ≤ s * Real.pi := mul_le_mul_of_nonneg_right this hpi.le
    rw [show 2 / Real.pi * (w / 2) * Real.pi = w by field_simp] at h5
    linarith
  refine ⟨⟨?_, ?_⟩, ?_, ?_⟩
  · nlinarith [mul_le_mul_of_nonneg_left u2 hk2.le]
  · nlinarith [mul_le_mul_of_nonneg_left u1 hk2.le]
  · have h6 : power (Real.cos w) * (2 * s) ≤ power (Real.cos w) * w :=
      mul_le_mul_of_nonneg_left hsw hp.le
    nlinarith [mul_le_mul_of_nonneg_left (u2.trans h6) hk2.le]
  · have h6 : power (Real.cos w) * (2 * w) ≤ Real.pi * 1.3 := by
      calc power (Real.cos w) * (2 * w) ≤ power (Real.cos w) * (Real.pi * (2 * s)) :=
            mul_le_mul_of_nonneg_left hws hp.le
        _ = Real.pi * (power (Real.cos w) * (2 * s)) := by ring
        _ ≤ Real.pi * 1.3 := mul_le_mul_of_nonneg_left u1 hpi.le
    have h7 : power (Real.cos w) * w ≤ 2.05 := by
      norm_num at h6 hpi4 ⊢
      linarith
    nlinarith [mul_le_mul_of_nonneg_left h7 hk2.le]

end Verif.AudioFilters

import Verif.Props.C80

/-!
# C80: matched biquads have minimum phase
-/

namespace Verif.MatchedBiquad

open Verif.Biquad Real

/-- Zeros of a real polynomial of degree two in the closed triangle. -/
theorem zeros_le (b0 b1 b2 : ℝ) (h0 : 0 < b0) (h2 : |b2| ≤ b0) (h1 : |b1| ≤ b0 + b2) (z : ℂ)
    (hz : (b0 : ℂ) * z ^ 2 + b1 * z + b2 = 0) : ‖z‖ ≤ 1 := by
  have hre := congrArg Complex.re hz
  have him := congrArg Complex.im hz
  simp [pow_two] at hre him
  by_contra hge
  rw [not_le] at hge
  have hsq : 1 < z.re * z.re + z.im * z.im := by
    have h := Complex.normSq_eq_norm_sq z
    rw [Complex.normSq_apply] at h
    rw [h]
    nlinarith
  obtain ⟨h2a, h2b⟩ := abs_le.mp h2
  by_cases hy : z.im = 0
  · rw [hy] at hre hsq
    have hx : 1 < |z.re| := by
      by_contra hlt
      rw [not_lt] at hlt
      have := abs_mul_abs_self z.re
      nlinarith [abs_nonneg z.re]
    have hxx : |z.re| * |z.re| = z.re * z.re := abs_mul_abs_self z.re
    have hb : -(|b1| * |z.re|) ≤ b1 * z.re := by
      rw [← abs_mul]
      exact neg_abs_le _
    have h3 : 0 < (|z.re| - 1) * (b0 * |z.re| - b2) := by
      refine mul_pos (by linarith) ?_
      nlinarith
    nlinarith
  · have hx : b1 = -2 * b0 * z.re := by
      have h : (b1 + 2 * b0 * z.re) * z.im = 0 := by linear_combination him
      rcases mul_eq_zero.mp h with h | h
      · linarith
      · exact absurd h hy
    rw [hx] at hre
    have : b2 = b0 * (z.re * z.re + z.im * z.im) := by linear_combination hre
    nlinarith

/-- The closed triangle, with room for the zero filter. -/
def Triangle (c : Coeffs) : Prop := 0 ≤ c.b0 ∧ |c.b2| ≤ c.b0 ∧ |c.b1| ≤ c.b0 + c.b2

theorem split_triangle (r0 r1 s g : ℝ) (h0 : 0 ≤ r0) (h1 : 0 ≤ r1) (hs : 0 ≤ s) (hg : 0 ≤ g) (a0 a1 a2 : ℝ) :
    Triangle ⟨0.5 * (0.5 * (r0 + r1) + s) * g, 0.5 * (r0 - r1) * g, 0.5 * (0.5 * (r0 + r1) - s) * g, a0, a1, a2⟩ := by
  refine ⟨by positivity, ?_, ?_⟩
  · dsimp only
    rw [abs_mul, abs_of_nonneg hg]
    refine mul_le_mul_of_nonneg_right ?_ hg
    rw [abs_le]
    constructor <;> linarith
  · dsimp only
    rw [← add_mul, abs_mul, abs_of_nonneg hg]
    refine mul_le_mul_of_nonneg_right ?_ hg
    rw [abs_le]
    constructor <;> linarith

theorem split_quot (W s b0 B : ℝ) (hb : b0 = 0.5 * (W + s)) (h0 : b0 ≠ 0) (hs : s ^ 2 = W ^ 2 + B) :
    -B / (4 * b0) = 0.5 * (W - s) := by
  rw [div_eq_iff (by positivity), hb]
  linear_combination hs

theorem peaking_triangle (w0 g Q : ℝ) (c : Coeffs) (h : peaking w0 g Q = some c) :
    Triangle c := by
  unfold peaking at h
  dsimp only at h
  simp only [Option.bind_eq_bind, Option.bind_eq_some_iff, Option.pure_def, Option.some.injEq] at h
  obtain ⟨r0, hr0, r1, hr1, s, hs, b2, hb2, rfl⟩ := h
  obtain ⟨-, hr0⟩ := root_some hr0
  obtain ⟨-, hr1⟩ := root_some hr1
  have hr0' : 0 ≤ r0 := by rw [hr0]; exact sqrt_nonneg _
  have hr1' : 0 ≤ r1 := by rw [hr1]; exact sqrt_nonneg _
  clear hr0 hr1
  obtain ⟨hsa, hsb⟩ := root_some hs
  have e2 := sq_sqrt hsa
  rw [← hsb] at e2
  obtain ⟨hne, rfl⟩ := quot_some hb2
  have hne : 0.5 * (0.5 * (r0 + r1) + s) ≠ 0 := fun e => hne (by rw [e, mul_zero])
  rw [split_quot _ s _ _ rfl hne e2]
  have := split_triangle r0 r1 s 1 hr0' hr1'
    (by rw [hsb]; exact sqrt_nonneg _) zero_le_one 1 (helpers w0 Q).a1 (helpers w0 Q).a2
  simpa only [mul_one] using this

theorem lowpass_triangle (w0 g Q : ℝ) (hw : 0 < w0) (hQ : 0 < Q) (hg : 0 ≤ g) (c : Coeffs)
    (h : lowpass w0 g Q = some c) : Triangle c := by
  unfold lowpass at h
  dsimp only at h
  simp only [Option.bind_eq_bind, Option.bind_eq_some_iff, Option.pure_def, Option.some.injEq] at h
  obtain ⟨r, hr, rfl⟩ := h
  obtain ⟨-, hr⟩ := root_some hr
  have hr0 : 0 ≤ r := by rw [hr]; exact sqrt_nonneg _
  have hs := (sum_pos w0 Q hw hQ).1
  generalize 1 + (helpers w0 Q).a1 + (helpers w0 Q).a2 = S at *
  refine ⟨by positivity, ?_, ?_⟩
  · dsimp only
    rw [zero_mul, abs_zero]
    positivity
  · dsimp only
    rw [← add_mul, abs_mul, abs_of_nonneg hg]
    refine mul_le_mul_of_nonneg_right ?_ hg
    rw [abs_le]
    constructor <;> linarith

theorem highpass_triangle (w0 g Q : ℝ) (hw : 0 < w0) (hw2 : w0 < π) (hQ : 0 < Q) (hg : 0 ≤ g) (c : Coeffs)
    (h : highpass w0 g Q = some c) : Triangle c := by
  unfold highpass at h
  dsimp only at h
  simp only [Option.bind_eq_bind, Option.bind_eq_some_iff, Option.pure_def, Option.some.injEq] at h
  obtain ⟨r, hr, rfl⟩ := h
  obtain ⟨-, hr⟩ := root_some hr
  have hr0 : 0 ≤ r := by rw [hr]; exact sqrt_nonneg _
  have hp := (p_pos w0 Q hw hw2).1
  have hb : 0 ≤ r / 4 / (helpers w0 Q).p * Q * g := by positivity
  generalize r / 4 / (helpers w0 Q).p * Q * g = b at *
  refine ⟨hb, ?_, ?_⟩
  · dsimp only
    rw [abs_of_nonneg hb]
  · dsimp only
    rw [abs_le]
    constructor <;> linarith

theorem bandpass_triangle (w0 g Q : ℝ) (hg : 0 ≤ g) (c : Coeffs) (h : bandpass w0 g Q = some c) :
    Triangle c := by
  unfold bandpass at h
  dsimp only at h
  simp only [Option.bind_eq_bind, Option.bind_eq_some_iff, Option.pure_def, Option.some.injEq] at h
  obtain ⟨r, hr, s, hs, rfl⟩ := h
  obtain ⟨-, hr⟩ := root_some hr
  obtain ⟨-, hs⟩ := root_some hs
  have hr0 : 0 ≤ r := by rw [hr]; exact sqrt_nonneg _
  have hs0 : 0 ≤ s := by rw [hs]; exact sqrt_nonneg _
  have := split_triangle 0 r s g le_rfl hr0 hs0 hg 1 (helpers w0 Q).a1 (helpers w0 Q).a2
  convert this using 2 <;> ring

theorem factor_triangle (B1 B2 : ℝ) (b : ℝ × ℝ × ℝ) (h : factor B1 B2 = some b) :
    0 < b.1 ∧ |b.2.2| ≤ b.1 ∧ |b.2.1| ≤ b.1 + b.2.2 := by
  unfold factor at h
  dsimp only at h
  simp only [Option.bind_eq_bind, Option.bind_eq_some_iff, Option.pure_def, Option.some.injEq] at h
  obtain ⟨r, hr, s, hs, b2, hb2, rfl⟩ := h
  obtain ⟨-, hr⟩ := root_some hr
  obtain ⟨hsa, hsb⟩ := root_some hs
  have e2 := sq_sqrt hsa
  rw [← hsb] at e2
  obtain ⟨hne, rfl⟩ := quot_some hb2
  have hr0 : 0 ≤ r := by rw [hr]; exact sqrt_nonneg _
  have hs0 : 0 ≤ s := by rw [hsb]; exact sqrt_nonneg _
  have e3 : -0.25 * B2 / (0.5 * (0.5 * (1 + r) + s)) = 0.5 * (0.5 * (1 + r) - s) := by
    rw [← split_quot _ s _ _ rfl hne e2]
    field_simp
    ring
  rw [e3]
  refine ⟨by positivity, ?_, ?_⟩
  · dsimp only
    rw [abs_le]
    constructor <;> linarith
  · dsimp only
    rw [abs_le]
    constructor <;> linarith

theorem shelving_triangle (fc g : ℝ) (hg : 0 < g) (low : Bool) (c : Coeffs)
    (h : shelving fc g low = some c) : Triangle c := by
  have hG := (shelfG_ne g hg low).1
  unfold shelving at h
  dsimp only at h
  simp only [Option.bind_eq_bind, Option.bind_eq_some_iff, Option.pure_def, Option.some.injEq] at h
  obtain ⟨_, -, _, -, a, -, b, hb, rfl⟩ := h
  obtain ⟨h0, h2, h1⟩ := factor_triangle _ _ b hb
  have hk : 0 < (if low = true then shelfG g low else 1) := by split_ifs <;> first | exact hG | exact one_pos
  refine ⟨(div_pos h0 hk).le, ?_, ?_⟩
  · dsimp only
    rw [abs_div, abs_of_pos hk]
    exact div_le_div_of_nonneg_right h2 hk.le
  · dsimp only
    rw [abs_div, abs_of_pos hk, ← add_div]
    exact div_le_div_of_nonneg_right h1 hk.le

/-- A filter in the triangle with some gain has all zeros in the closed unit disc. -/
theorem Triangle.zeros {c : Coeffs} (h : Triangle c) (w : ℝ) (hw : c.gain w ≠ 0) (z : ℂ)
    (hz : (c.b0 : ℂ) * z ^ 2 + c.b1 * z + c.b2 = 0) : 0 < c.b0 ∧ ‖z‖ ≤ 1 := by
  obtain ⟨h0, h2, h1⟩ := h
  have hb : 0 < c.b0 := by
    refine lt_of_le_of_ne h0 fun e => hw ?_
    rw [← e] at h2 h1
    have e2 : c.b2 = 0 := abs_nonpos_iff.mp h2
    rw [e2, add_zero] at h1
    have e1 : c.b1 = 0 := abs_nonpos_iff.mp h1
    unfold Coeffs.gain Coeffs.response
    rw [← e, e1, e2]
    simp [poly]
  exact ⟨hb, zeros_le _ _ _ hb h2 h1 z hz⟩

/-- **C80 (minimum phase).**  All zeros of the supported types lie in the closed unit disc, and the first
coefficient is positive: among the filters with the same magnitude, the one with the least delay is chosen. -/
theorem C80_minimum_phase (t : EqType) (f gain q fs : ℝ) (factor : Option ℝ) (ht : Supported t)
    (c : Coeffs) (h : matched t f gain q fs factor = .ok (some c)) (z : ℂ)
    (hz : (c.b0 : ℂ) * z ^ 2 + c.b1 * z + c.b2 = 0) : 0 < c.b0 ∧ ‖z‖ ≤ 1 := by
  obtain ⟨hf, hq⟩ := matched_ok h
  obtain ⟨w1, w2⟩ := omega_bounds f fs hf
  obtain ⟨r1, r2⟩ := rel_bounds hf.1 hf.2
  have hg := gain_pos gain
  rcases ht with rfl | rfl | rfl | rfl | rfl | rfl | rfl
  · obtain ⟨Q, hQ, -, hpk⟩ := peaking_ok h
    have := C80_peaking f gain q fs factor c h
    exact (peaking_triangle _ _ _ c hpk).zeros _ (by rw [this.2.1]; exact hg.ne') z hz
  · have := C80_lowpass f gain q fs factor c h
    exact (lowpass_triangle _ _ _ w1 hq hg.le c ((other_ok h).1 rfl)).zeros _
      (by rw [this.2]; positivity) z hz
  · have := C80_highpass f gain q fs factor c h
    exact (highpass_triangle _ _ _ w1 w2 hq hg.le c ((other_ok h).2.1 rfl)).zeros _
      (by rw [this.2]; positivity) z hz
  · have := C80_bandpass _ (Or.inl rfl) f gain q fs factor c h
    exact (bandpass_triangle _ _ _ hg.le c ((other_ok h).2.2.1 (Or.inl rfl))).zeros _
      (by rw [this.2.1]; positivity) z hz
  · have := C80_bandpass _ (Or.inr rfl) f gain q fs factor c h
    exact (bandpass_triangle _ _ _ hg.le c ((other_ok h).2.2.1 (Or.inr rfl))).zeros _
      (by rw [this.2.1]; positivity) z hz
  · have hs := (other_ok h).2.2.2.1 rfl
    refine (shelving_triangle _ _ hg true c hs).zeros 0 ?_ z hz
    unfold Coeffs.gain
    rw [(shelf_gain _ _ true r1 r2 hg c hs 1 (Or.inr (Or.inr rfl))).2]
    have := (shelfG_ne (10 ^ (gain / 20)) hg true).1
    simp only [if_true]
    rw [norm_ne_zero_iff]
    norm_cast
    positivity
  · have hs := (other_ok h).2.2.2.2 rfl
    refine (shelving_triangle _ _ hg false c hs).zeros 0 ?_ z hz
    unfold Coeffs.gain
    rw [(shelf_gain _ _ false r1 r2 hg c hs 1 (Or.inr (Or.inr rfl))).2]
    simp

/-- The hypotheses can be met: one is a zero of every bandpass. -/
example : ∃ c, matched .bandpassPeak 1000 6 1 48000 none = .ok (some c) ∧
    (c.b0 : ℂ) * 1 ^ 2 + c.b1 * 1 + c.b2 = 0 := by
  obtain ⟨c, hc, -⟩ := C80_stable .bandpassPeak 1000 6 1 48000 none (by simp [Supported])
    ⟨by norm_num, by norm_num, by norm_num, by simp⟩
  refine ⟨c, hc, ?_⟩
  obtain ⟨B1, B2, hh, -⟩ := bandpass_has _ _ _ _ ((other_ok hc).2.2.1 (Or.inl rfl))
  have := hh.sum
  rw [one_pow, mul_one, mul_one, ← Complex.ofReal_add, ← Complex.ofReal_add, this, Complex.ofReal_zero]

end Verif.MatchedBiquad

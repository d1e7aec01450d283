import Verif.Model.MatchedBiquad
import Verif.Lemmas.Biquad

/-!
# Lemmas on matched biquads
-/

namespace Verif.MatchedBiquad

open Verif.Biquad Real

/-! ### Squared magnitudes -/

/-- Squared magnitude of a polynomial by its values at 0 Hz and at the Nyquist frequency and its outer
coefficients. -/
theorem poly_phi (c0 c1 c2 w : ℝ) :
    ‖poly c0 c1 c2 w‖ ^ 2 = (c0 + c1 + c2) ^ 2 * (1 - sin (w / 2) ^ 2) + (c0 - c1 + c2) ^ 2 * sin (w / 2) ^ 2 -
      4 * c0 * c2 * (4 * (1 - sin (w / 2) ^ 2) * sin (w / 2) ^ 2) := by
  have hc : cos w = 1 - 2 * sin (w / 2) ^ 2 := by
    rw [show w = 2 * (w / 2) by ring, cos_two_mul, show 2 * (w / 2) / 2 = w / 2 by ring, cos_sq']
    ring
  have hs : sin w ^ 2 = 4 * (1 - sin (w / 2) ^ 2) * sin (w / 2) ^ 2 := by
    rw [sin_sq, hc]; ring
  rw [poly_normSq, mul_pow, hs, hc]
  ring

theorem gain_sq (c : Coeffs) (w : ℝ) :
    c.gain w ^ 2 = ‖poly c.b0 c.b1 c.b2 w‖ ^ 2 / ‖poly c.a0 c.a1 c.a2 w‖ ^ 2 := by
  rw [Coeffs.gain, Coeffs.response, norm_div, div_pow]

theorem response_zero (c : Coeffs) : c.response 0 = ((c.b0 + c.b1 + c.b2) / (c.a0 + c.a1 + c.a2) : ℝ) := by
  simp [Coeffs.response, poly]

/-! ### The poles -/

theorem helpers_stable (w0 Q : ℝ) (hw : 0 < w0) (hQ : 0 < Q) :
    0 < (helpers w0 Q).a2 ∧ (helpers w0 Q).a2 < 1 ∧ |(helpers w0 Q).a1| < 1 + (helpers w0 Q).a2 := by
  have hq : 0 < 1 / (2 * Q) := by positivity
  simp only [helpers]
  generalize 1 / (2 * Q) = q at *
  refine ⟨exp_pos _, exp_lt_one_iff.2 (by nlinarith), ?_⟩
  have he : 1 + exp (-2 * q * w0) = 2 * exp (-q * w0) * cosh (q * w0) := by
    rw [cosh_eq, show -2 * q * w0 = -q * w0 + -q * w0 by ring, exp_add]
    have : exp (-q * w0) * exp (q * w0) = 1 := by rw [← exp_add]; simp
    rw [show -(q * w0) = -q * w0 by ring]
    linear_combination -this
  have hC : ∀ C : ℝ, |C| < cosh (q * w0) → |-2 * exp (-q * w0) * C| < 1 + exp (-2 * q * w0) := by
    intro C h
    rw [he, abs_mul, abs_mul, abs_of_pos (exp_pos _)]
    rw [show |(-2 : ℝ)| = 2 by norm_num]
    exact mul_lt_mul_of_pos_left h (by positivity)
  split_ifs with h1
  · refine hC _ (lt_of_le_of_lt (abs_cos_le_one _) ?_)
    exact one_lt_cosh.2 (by positivity)
  · refine hC _ ?_
    rw [abs_of_pos (cosh_pos _), cosh_lt_cosh, abs_of_nonneg (by positivity), abs_of_nonneg (by positivity)]
    refine mul_lt_mul_of_pos_right ?_ hw
    rw [sqrt_lt' hq]
    linarith

theorem sum_pos (w0 Q : ℝ) (hw : 0 < w0) (hQ : 0 < Q) :
    0 < 1 + (helpers w0 Q).a1 + (helpers w0 Q).a2 ∧ 0 < 1 - (helpers w0 Q).a1 + (helpers w0 Q).a2 := by
  obtain ⟨-, -, h⟩ := helpers_stable w0 Q hw hQ
  rw [abs_lt] at h
  constructor <;> linarith [h.1, h.2]

theorem stable_of_helpers (w0 Q b0 b1 b2 : ℝ) (hw : 0 < w0) (hQ : 0 < Q) :
    (⟨b0, b1, b2, 1, (helpers w0 Q).a1, (helpers w0 Q).a2⟩ : Coeffs).Stable := by
  obtain ⟨h1, h2, h3⟩ := helpers_stable w0 Q hw hQ
  exact stable_of_triangle _ one_pos (by rw [abs_of_pos h1]; exact h2) h3

theorem helpers_p (w0 Q : ℝ) : (helpers w0 Q).p = sin (w0 / 2) ^ 2 := rfl

theorem p_pos (w0 Q : ℝ) (hw : 0 < w0) (hw2 : w0 < π) : 0 < (helpers w0 Q).p ∧ (helpers w0 Q).p < 1 := by
  rw [helpers_p]
  have h1 : 0 < sin (w0 / 2) := sin_pos_of_pos_of_lt_pi (by linarith) (by linarith)
  have h2 : 0 < cos (w0 / 2) := cos_pos_of_mem_Ioo ⟨by linarith, by linarith⟩
  refine ⟨by positivity, ?_⟩
  have := sin_sq_add_cos_sq (w0 / 2)
  nlinarith

/-- The denominator at the frequency with `sin(w / 2) ^ 2 = x`. -/
noncomputable def Helpers.D (h : Helpers) (x : ℝ) : ℝ := h.A0 * (1 - x) + h.A1 * x + h.A2 * (4 * (1 - x) * x)

theorem den_phi (w0 Q w : ℝ) :
    ‖poly 1 (helpers w0 Q).a1 (helpers w0 Q).a2 w‖ ^ 2 = (helpers w0 Q).D (sin (w / 2) ^ 2) := by
  rw [poly_phi]
  unfold Helpers.D Helpers.A0 Helpers.A1 Helpers.A2
  ring

theorem D_pos (w0 Q w : ℝ) (hw : 0 < w0) (hQ : 0 < Q) : 0 < (helpers w0 Q).D (sin (w / 2) ^ 2) := by
  rw [← den_phi]
  have := den_ne_zero _ (stable_of_helpers w0 Q 0 0 0 hw hQ) w
  have h2 : poly 1 (helpers w0 Q).a1 (helpers w0 Q).a2 w ≠ 0 := this
  positivity

theorem root_some {x y : ℝ} (h : root x = some y) : 0 ≤ x ∧ y = √x := by
  unfold root at h
  split_ifs at h with hx
  exact ⟨hx, (Option.some.inj h).symm⟩

theorem quot_some {x y z : ℝ} (h : quot x y = some z) : y ≠ 0 ∧ z = x / y := by
  unfold quot at h
  split_ifs at h with hx
  exact ⟨hx, (Option.some.inj h).symm⟩

/-! ### The filters -/

/-- Squared magnitude of the numerator with the values `B0`, `B1` and `B2`. -/
def num (B0 B1 B2 x : ℝ) : ℝ := B0 * (1 - x) + B1 * x + B2 * (4 * (1 - x) * x)

/-- What a filter of this family does: the denominator of the helpers, and the numerator given by three values. -/
structure Has (w0 Q : ℝ) (c : Coeffs) (s B0 B1 B2 : ℝ) : Prop where
  a0 : c.a0 = 1
  a1 : c.a1 = (helpers w0 Q).a1
  a2 : c.a2 = (helpers w0 Q).a2
  sum : c.b0 + c.b1 + c.b2 = s
  B0 : s ^ 2 = B0
  B1 : (c.b0 - c.b1 + c.b2) ^ 2 = B1
  B2 : -4 * c.b0 * c.b2 = B2

theorem Has.gain {w0 Q : ℝ} {c : Coeffs} {s B0 B1 B2 : ℝ} (h : Has w0 Q c s B0 B1 B2) (w : ℝ) :
    c.gain w ^ 2 = num B0 B1 B2 (sin (w / 2) ^ 2) / (helpers w0 Q).D (sin (w / 2) ^ 2) := by
  rw [gain_sq, h.a0, h.a1, h.a2, den_phi, poly_phi, h.sum, h.B0, h.B1]
  congr 1
  unfold num
  linear_combination (4 * (1 - sin (w / 2) ^ 2) * sin (w / 2) ^ 2) * h.B2

theorem Has.dc {w0 Q : ℝ} {c : Coeffs} {s B0 B1 B2 : ℝ} (h : Has w0 Q c s B0 B1 B2) :
    c.response 0 = (s / (1 + (helpers w0 Q).a1 + (helpers w0 Q).a2) : ℝ) := by
  rw [response_zero, h.a0, h.a1, h.a2, h.sum]

theorem Has.stable {w0 Q : ℝ} {c : Coeffs} {s B0 B1 B2 : ℝ} (h : Has w0 Q c s B0 B1 B2) (hw : 0 < w0)
    (hQ : 0 < Q) : c.Stable := by
  have := stable_of_helpers w0 Q c.b0 c.b1 c.b2 hw hQ
  rw [← h.a0, ← h.a1, ← h.a2] at this
  exact this

theorem split_key (t s B b0 : ℝ) (hs : s ^ 2 = t ^ 2 + B) (hb : b0 = 0.5 * (t + s)) (h0 : b0 ≠ 0) :
    b0 + -B / (4 * b0) = t := by
  field_simp
  rw [hb]
  linear_combination hs

/-- Numerator and denominator of the peaking filter differ, up to the squared gain, by a square. -/
theorem peaking_num (h : Helpers) (hp : 0 < h.p) (g x B1 B2 : ℝ)
    (h2 : B2 = (g ^ 2 * h.dot - g ^ 2 * h.slope * h.p - h.A0) / (4 * h.p ^ 2))
    (h1 : B1 = g ^ 2 * h.slope + h.A0 + 4 * (h.p - (1 - h.p)) * B2) :
    num h.A0 B1 B2 x = g ^ 2 * h.D x + h.A0 * (1 - g ^ 2) * ((x - h.p) / h.p) ^ 2 := by
  unfold num Helpers.D
  rw [h1, h2]
  unfold Helpers.slope Helpers.dot
  field_simp
  ring

theorem peaking_has (w0 g Q : ℝ) (hw : 0 < w0) (hQ : 0 < Q) (c : Coeffs) (h : peaking w0 g Q = some c) :
    ∃ B1 B2, Has w0 Q c (1 + (helpers w0 Q).a1 + (helpers w0 Q).a2) (helpers w0 Q).A0 B1 B2 ∧
      B2 = (g ^ 2 * (helpers w0 Q).dot - g ^ 2 * (helpers w0 Q).slope * (helpers w0 Q).p - (helpers w0 Q).A0) /
        (4 * (helpers w0 Q).p ^ 2) ∧
      B1 = g ^ 2 * (helpers w0 Q).slope + (helpers w0 Q).A0 +
        4 * ((helpers w0 Q).p - (1 - (helpers w0 Q).p)) * B2 := by
  have hs := (sum_pos w0 Q hw hQ).1
  unfold peaking at h
  dsimp only at h
  simp only [Option.bind_eq_bind, Option.bind_eq_some_iff, Option.pure_def, Option.some.injEq] at h
  obtain ⟨r0, h0, r1, h1, s, h2, b2, h3, rfl⟩ := h
  obtain ⟨h0a, h0b⟩ := root_some h0
  obtain ⟨h1a, h1b⟩ := root_some h1
  obtain ⟨h2a, h2b⟩ := root_some h2
  obtain ⟨h3a, h3b⟩ := quot_some h3
  have e0 : r0 = 1 + (helpers w0 Q).a1 + (helpers w0 Q).a2 := by
    rw [h0b, Helpers.A0, sqrt_sq hs.le]
  have e1 := sq_sqrt h1a
  rw [← h1b] at e1
  have e2 := sq_sqrt h2a
  rw [← h2b] at e2
  refine ⟨_, _, ⟨rfl, rfl, rfl, ?_, rfl, ?_, ?_⟩, rfl, rfl⟩
  all_goals
    dsimp only
    generalize (g ^ 2 * (helpers w0 Q).dot - g ^ 2 * (helpers w0 Q).slope * (helpers w0 Q).p - (helpers w0 Q).A0) /
      (4 * (helpers w0 Q).p ^ 2) = B2 at *
    rw [h3b]
    have key := split_key _ _ _ _ e2 rfl (fun hz => h3a (by rw [hz]; ring))
    have hb0 : 0.5 * (0.5 * (r0 + r1) + s) ≠ 0 := fun hz => h3a (by rw [hz]; ring)
    generalize 0.5 * (0.5 * (r0 + r1) + s) = b0 at *
  · rw [← e0]
    linear_combination key
  · rw [← e1]
    have : b0 - 0.5 * (r0 - r1) + -B2 / (4 * b0) = r1 := by
      linear_combination key
    rw [this]
  · field_simp

theorem lowpass_has (w0 g Q : ℝ) (c : Coeffs) (h : lowpass w0 g Q = some c) :
    Has w0 Q c (g * (1 + (helpers w0 Q).a1 + (helpers w0 Q).a2)) (g ^ 2 * (helpers w0 Q).A0)
      (g ^ 2 * ((Q ^ 2 * (helpers w0 Q).dot - (helpers w0 Q).A0 * (1 - (helpers w0 Q).p)) / (helpers w0 Q).p)) 0 := by
  unfold lowpass at h
  dsimp only at h
  simp only [Option.bind_eq_bind, Option.bind_eq_some_iff, Option.pure_def, Option.some.injEq] at h
  obtain ⟨r, hr, rfl⟩ := h
  obtain ⟨hra, hrb⟩ := root_some hr
  have e := sq_sqrt hra
  rw [← hrb] at e
  refine ⟨rfl, rfl, rfl, ?_, ?_, ?_, ?_⟩
  · dsimp only; ring
  · rw [Helpers.A0]; ring
  · dsimp only; rw [← e]; ring
  · dsimp only; ring

theorem highpass_has (w0 g Q : ℝ) (hw : 0 < w0) (hw2 : w0 < π) (hQ : 0 < Q) (c : Coeffs)
    (h : highpass w0 g Q = some c) :
    ∃ B, Has w0 Q c 0 0 (4 * B) (-B) ∧ B * (4 * (helpers w0 Q).p ^ 2) = Q ^ 2 * g ^ 2 * (helpers w0 Q).dot := by
  unfold highpass at h
  dsimp only at h
  simp only [Option.bind_eq_bind, Option.bind_eq_some_iff, Option.pure_def, Option.some.injEq] at h
  obtain ⟨r, hr, rfl⟩ := h
  obtain ⟨hra, hrb⟩ := root_some hr
  have e := sq_sqrt hra
  rw [← hrb] at e
  have hp := (p_pos w0 Q hw hw2).1
  refine ⟨4 * (r / 4 / (helpers w0 Q).p * Q * g) ^ 2, ⟨rfl, rfl, rfl, ?_, ?_, ?_, ?_⟩, ?_⟩
  · dsimp only; ring
  · ring
  · dsimp only; ring
  · dsimp only; ring
  · rw [← e]; field_simp

theorem bandpass_has (w0 g Q : ℝ) (c : Coeffs) (h : bandpass w0 g Q = some c) :
    ∃ B1 B2, Has w0 Q c 0 0 (g ^ 2 * B1) (g ^ 2 * B2) ∧
      B2 = ((helpers w0 Q).dot - (helpers w0 Q).slope * (helpers w0 Q).p) / 4 / (helpers w0 Q).p ^ 2 ∧
      B1 = (helpers w0 Q).slope + 4 * ((helpers w0 Q).p - (1 - (helpers w0 Q).p)) * B2 := by
  unfold bandpass at h
  dsimp only at h
  simp only [Option.bind_eq_bind, Option.bind_eq_some_iff, Option.pure_def, Option.some.injEq] at h
  obtain ⟨r, hr, s, hs, rfl⟩ := h
  obtain ⟨hra, hrb⟩ := root_some hr
  obtain ⟨hsa, hsb⟩ := root_some hs
  have e := sq_sqrt hra
  rw [← hrb] at e
  have e2 := sq_sqrt hsa
  rw [← hsb] at e2
  refine ⟨_, _, ⟨rfl, rfl, rfl, ?_, ?_, ?_, ?_⟩, rfl, rfl⟩
  · dsimp only; ring
  · ring
  · dsimp only; rw [← e]; ring
  · dsimp only; linear_combination g ^ 2 * e2

theorem bandpass_num (h : Helpers) (hp : 0 < h.p) (g x B1 B2 : ℝ)
    (h2 : B2 = (h.dot - h.slope * h.p) / 4 / h.p ^ 2)
    (h1 : B1 = h.slope + 4 * (h.p - (1 - h.p)) * B2) :
    num 0 (g ^ 2 * B1) (g ^ 2 * B2) x = g ^ 2 * h.D x - g ^ 2 * h.A0 * ((x - h.p) / h.p) ^ 2 := by
  unfold num Helpers.D
  rw [h1, h2]
  unfold Helpers.slope Helpers.dot
  field_simp
  ring

/-! ### Conditions -/

theorem omega_bounds (f fs : ℝ) (hf : 0 < f ∧ f < fs / 2) : 0 < 2 * π * f / fs ∧ 2 * π * f / fs < π := by
  have hfs : 0 < fs := by linarith
  have := pi_pos
  refine ⟨by have := hf.1; positivity, ?_⟩
  rw [div_lt_iff₀ hfs]
  nlinarith [hf.2]

theorem gain_pos (gain : ℝ) : 0 < (10 : ℝ) ^ (gain / 20) := by positivity

/-- What is known of an accepted request. -/
theorem matched_ok {t : EqType} {f gain q fs : ℝ} {factor : Option ℝ} {r : Option Coeffs}
    (h : matched t f gain q fs factor = .ok r) : (0 < f ∧ f < fs / 2) ∧ 0 < q := by
  unfold matched at h
  split_ifs at h with h1 h2
  · exact ⟨h1, h2⟩

theorem scaledQ_pos {gain q : ℝ} {factor : Option ℝ} {Q : ℝ} (hq : 0 < q) (h : scaledQ gain q factor = .ok Q) :
    0 < Q := by
  unfold scaledQ at h
  dsimp only at h
  split_ifs at h with h1
  cases h
  push Not at h1
  positivity

theorem peaking_ok {f gain q fs : ℝ} {factor : Option ℝ} {r : Option Coeffs}
    (h : matched .peaking f gain q fs factor = .ok r) :
    ∃ Q, 0 < Q ∧ scaledQ gain q factor = .ok Q ∧ peaking (2 * π * f / fs) (10 ^ (gain / 20)) Q = r := by
  obtain ⟨h1, h2⟩ := matched_ok h
  unfold matched at h
  rw [if_neg (not_not.2 h1), if_neg (not_not.2 h2)] at h
  dsimp only at h
  cases hs : scaledQ gain q factor with
  | error e => rw [hs] at h; cases h
  | ok Q =>
    rw [hs] at h
    exact ⟨Q, scaledQ_pos h2 hs, rfl, by injection h⟩

theorem other_ok {t : EqType} {f gain q fs : ℝ} {factor : Option ℝ} {r : Option Coeffs}
    (h : matched t f gain q fs factor = .ok r) :
    (t = .lowpass → lowpass (2 * π * f / fs) (10 ^ (gain / 20)) q = r) ∧
    (t = .highpass → highpass (2 * π * f / fs) (10 ^ (gain / 20)) q = r) ∧
    (t = .bandpassPeak ∨ t = .bandpassSkirt → bandpass (2 * π * f / fs) (10 ^ (gain / 20)) q = r) ∧
    (t = .lowshelf → shelving (f / (fs / 2)) (10 ^ (gain / 20)) true = r) ∧
    (t = .highshelf → shelving (f / (fs / 2)) (10 ^ (gain / 20)) false = r) := by
  obtain ⟨h1, h2⟩ := matched_ok h
  unfold matched at h
  rw [if_neg (not_not.2 h1), if_neg (not_not.2 h2)] at h
  refine ⟨?_, ?_, ?_, ?_, ?_⟩
  · rintro rfl; injection h
  · rintro rfl; injection h
  · rintro (rfl | rfl) <;> injection h
  · rintro rfl; injection h
  · rintro rfl; injection h

end Verif.MatchedBiquad

import Verif.Lemmas.MatchedTotal
import Mathlib.Analysis.SpecialFunctions.Pow.Real

/-!
# C80: matched biquads exist, are stable and have the gains of their analog prototypes
-/

namespace Verif.MatchedBiquad

open Verif.Biquad Real

/-- The types of equalizer that the documentation lists. -/
def Supported (t : EqType) : Prop :=
  t = .peaking ∨ t = .lowpass ∨ t = .highpass ∨ t = .bandpassPeak ∨ t = .bandpassSkirt ∨ t = .lowshelf ∨
    t = .highshelf

/-- The documented range of the parameters. -/
def Valid (f q fs : ℝ) (factor : Option ℝ) : Prop := 0 < f ∧ f < fs / 2 ∧ 0 < q ∧ ∀ k, factor = some k → 0 < k

theorem rel_bounds {f fs : ℝ} (h : 0 < f) (h2 : f < fs / 2) : 0 < f / (fs / 2) ∧ f / (fs / 2) < 1 := by
  have : 0 < fs / 2 := by linarith
  exact ⟨by positivity, by rw [div_lt_one this]; exact h2⟩

theorem scaledQ_total (gain q : ℝ) (factor : Option ℝ) (hf : ∀ k, factor = some k → 0 < k) :
    ∃ Q, scaledQ gain q factor = .ok Q := by
  unfold scaledQ
  dsimp only
  have : ¬ (factor.getD (max |0.0868 * gain + 1.264| 0.55) ≤ 0) := by
    push Not
    cases factor with
    | none =>
      rw [Option.getD_none]
      exact lt_of_lt_of_le (by norm_num) (le_max_right _ _)
    | some k => exact hf k rfl
  rw [if_neg this]
  exact ⟨_, rfl⟩

/-- **C80 (every valid request gives a stable filter).**  For every supported type, frequency strictly between
zero and half the sampling rate, gain, positive quality and positive scaling of the quality there are finite
coefficients, and all poles are strictly inside the unit circle. -/
theorem C80_stable (t : EqType) (f gain q fs : ℝ) (factor : Option ℝ) (ht : Supported t)
    (hv : Valid f q fs factor) : ∃ c, matched t f gain q fs factor = .ok (some c) ∧ c.Stable := by
  obtain ⟨h1, h2, h3, h4⟩ := hv
  obtain ⟨w1, w2⟩ := omega_bounds f fs ⟨h1, h2⟩
  obtain ⟨r1, r2⟩ := rel_bounds h1 h2
  unfold matched
  rw [if_neg (not_not.2 ⟨h1, h2⟩), if_neg (not_not.2 h3)]
  dsimp only
  generalize 2 * π * f / fs = w0 at *
  have hg := gain_pos gain
  rcases ht with rfl | rfl | rfl | rfl | rfl | rfl | rfl
  · obtain ⟨Q, hQ⟩ := scaledQ_total gain q factor h4
    have hQ0 := scaledQ_pos h3 hQ
    obtain ⟨c, hc⟩ := peaking_total w0 (10 ^ (gain / 20)) Q w1 w2 hQ0
    obtain ⟨B1, B2, hh, -⟩ := peaking_has _ _ _ w1 hQ0 _ hc
    simp only [hQ, hc]
    exact ⟨c, rfl, hh.stable w1 hQ0⟩
  · obtain ⟨c, hc⟩ := lowpass_total w0 (10 ^ (gain / 20)) q w1 w2 h3
    simp only [hc]
    exact ⟨c, rfl, (lowpass_has _ _ _ _ hc).stable w1 h3⟩
  · obtain ⟨c, hc⟩ := highpass_total w0 (10 ^ (gain / 20)) q w1 h3
    obtain ⟨B, hh, -⟩ := highpass_has _ _ _ w1 w2 h3 _ hc
    simp only [hc]
    exact ⟨c, rfl, hh.stable w1 h3⟩
  · obtain ⟨c, hc⟩ := bandpass_total w0 (10 ^ (gain / 20)) q w1 w2 h3
    obtain ⟨B1, B2, hh, -⟩ := bandpass_has _ _ _ _ hc
    simp only [hc]
    exact ⟨c, rfl, hh.stable w1 h3⟩
  · obtain ⟨c, hc⟩ := bandpass_total w0 (10 ^ (gain / 20)) q w1 w2 h3
    obtain ⟨B1, B2, hh, -⟩ := bandpass_has _ _ _ _ hc
    simp only [hc]
    exact ⟨c, rfl, hh.stable w1 h3⟩
  · obtain ⟨c, al1, al2, hc, -, hh, -⟩ := shelving_total _ _ true r1 r2 hg
    simp only [hc]
    exact ⟨c, rfl, hh.stable⟩
  · obtain ⟨c, al1, al2, hc, -, hh, -⟩ := shelving_total _ _ false r1 r2 hg
    simp only [hc]
    exact ⟨c, rfl, hh.stable⟩

example : Supported .lowshelf ∧ Valid 12000 0.1 48000 none :=
  ⟨by simp [Supported], by norm_num, by norm_num, by norm_num, by simp⟩

/-- **C80 (every other request is refused).** -/
theorem C80_refused (t : EqType) (f gain q fs : ℝ) (factor : Option ℝ) :
    (¬ (0 < f ∧ f < fs / 2 ∧ 0 < q) → matched t f gain q fs factor = .error .assertionError) ∧
    (0 < f ∧ f < fs / 2 ∧ 0 < q → ¬ Supported t → matched t f gain q fs factor = .error .valueError) ∧
    (0 < f ∧ f < fs / 2 ∧ 0 < q → ∀ k, factor = some k → k ≤ 0 →
      matched .peaking f gain q fs factor = .error .assertionError) := by
  refine ⟨fun h => ?_, fun h ht => ?_, ?_⟩
  · unfold matched
    split_ifs with h1 h2
    · exact absurd ⟨h1.1, h1.2, h2⟩ h
    · rfl
    · rfl
  · unfold matched
    rw [if_neg (not_not.2 ⟨h.1, h.2.1⟩), if_neg (not_not.2 h.2.2)]
    cases t <;> simp [Supported] at ht ⊢
  · rintro h k rfl hk
    unfold matched
    rw [if_neg (not_not.2 ⟨h.1, h.2.1⟩), if_neg (not_not.2 h.2.2)]
    simp only [scaledQ, Option.getD_some, if_pos hk]

/-- Both sides not negative, and equal squares. -/
theorem gain_of_sq {c : Coeffs} {w y : ℝ} (hy : 0 ≤ y) (h : c.gain w ^ 2 = y ^ 2) : c.gain w = y :=
  (pow_left_inj₀ (norm_nonneg _) hy (by norm_num)).1 h

/-- **C80 (poles of the analog prototype).**  The poles of every filter that is not a shelf are those of the
analog prototype `1 / (s² + s / Q + 1)` mapped by `z = exp (ω₀ s)`, where `Q` is the quality, for the peaking
filter scaled by the factor. -/
theorem C80_poles (t : EqType) (f gain q fs : ℝ) (factor : Option ℝ) (c : Coeffs)
    (ht : t ≠ .lowshelf ∧ t ≠ .highshelf) (h : matched t f gain q fs factor = .ok (some c)) :
    ∃ Q : ℝ, 0 < Q ∧ (t ≠ .peaking → Q = q) ∧ (∀ k, t = .peaking → factor = some k → Q = q * k) ∧
      ∀ s : ℂ, s ^ 2 + s / Q + 1 = 0 →
        c.a0 * Complex.exp ((2 * π * f / fs : ℝ) * s) ^ 2 + c.a1 * Complex.exp ((2 * π * f / fs : ℝ) * s) + c.a2 = 0 := by
  obtain ⟨hf, hq⟩ := matched_ok h
  obtain ⟨w1, w2⟩ := omega_bounds f fs hf
  have key : ∀ Q : ℝ, 0 < Q → c.a0 = 1 → c.a1 = (helpers (2 * π * f / fs) Q).a1 →
      c.a2 = (helpers (2 * π * f / fs) Q).a2 → ∀ s : ℂ, s ^ 2 + s / Q + 1 = 0 →
        c.a0 * Complex.exp ((2 * π * f / fs : ℝ) * s) ^ 2 + c.a1 * Complex.exp ((2 * π * f / fs : ℝ) * s) + c.a2 = 0 := by
    intro Q hQ h0 h1 h2 s hs
    rw [h0, h1, h2]
    generalize 2 * π * f / fs = w
    have hq' : 0 < 1 / (2 * Q) := by positivity
    have e1 : (s + (1 / (2 * Q) : ℝ)) ^ 2 = ((1 / (2 * Q) : ℝ) : ℂ) ^ 2 - 1 := by
      have : (s : ℂ) / Q = 2 * (1 / (2 * Q) : ℝ) * s := by
        push_cast
        have : (Q : ℂ) ≠ 0 := by exact_mod_cast hQ.ne'
        field_simp
      rw [this] at hs
      linear_combination hs
    unfold helpers
    dsimp only
    generalize 1 / (2 * Q) = k at *
    have hC : ∃ C : ℝ, (C : ℂ) = Complex.cosh (w * (s + k)) ∧
        (if k ≤ 1 then -2 * exp (-k * w) * cos (√(1 - k ^ 2) * w) else -2 * exp (-k * w) * cosh (√(k ^ 2 - 1) * w)) =
          -2 * exp (-k * w) * C := by
      split_ifs with hk
      · refine ⟨cos (√(1 - k ^ 2) * w), ?_, rfl⟩
        have h1 : ((√(1 - k ^ 2) : ℝ) : ℂ) ^ 2 = 1 - (k : ℂ) ^ 2 := by
          rw [← Complex.ofReal_pow, sq_sqrt (by nlinarith)]; push_cast; ring
        have h2 : (s + k - √(1 - k ^ 2) * Complex.I) * (s + k + √(1 - k ^ 2) * Complex.I) = 0 := by
          linear_combination e1 + (-1) * ((√(1 - k ^ 2) : ℝ) : ℂ) ^ 2 * Complex.I_sq + h1
        rcases mul_eq_zero.1 h2 with h3 | h3
        · have : (w : ℂ) * (s + k) = (√(1 - k ^ 2) * w : ℝ) * Complex.I := by
            push_cast
            linear_combination (w : ℂ) * h3
          rw [this, Complex.cosh_mul_I, Complex.ofReal_cos]
        · have : (w : ℂ) * (s + k) = -((√(1 - k ^ 2) * w : ℝ) * Complex.I) := by
            push_cast
            linear_combination (w : ℂ) * h3
          rw [this, Complex.cosh_neg, Complex.cosh_mul_I, Complex.ofReal_cos]
      · refine ⟨cosh (√(k ^ 2 - 1) * w), ?_, rfl⟩
        have h1 : ((√(k ^ 2 - 1) : ℝ) : ℂ) ^ 2 = (k : ℂ) ^ 2 - 1 := by
          rw [← Complex.ofReal_pow, sq_sqrt (by nlinarith)]; push_cast; ring
        have h2 : (s + k - √(k ^ 2 - 1)) * (s + k + √(k ^ 2 - 1)) = 0 := by
          linear_combination e1 - h1
        rcases mul_eq_zero.1 h2 with h3 | h3
        · have : (w : ℂ) * (s + k) = (√(k ^ 2 - 1) * w : ℝ) := by
            push_cast
            linear_combination (w : ℂ) * h3
          rw [this, Complex.ofReal_cosh]
        · have : (w : ℂ) * (s + k) = -(√(k ^ 2 - 1) * w : ℝ) := by
            push_cast
            linear_combination (w : ℂ) * h3
          rw [this, Complex.cosh_neg, Complex.ofReal_cosh]
    obtain ⟨C, c1, c2⟩ := hC
    rw [c2]
    have e2 : ((exp (-2 * k * w) : ℝ) : ℂ) = ((exp (-k * w) : ℝ) : ℂ) ^ 2 := by
      rw [← Complex.ofReal_pow, ← exp_nat_mul]
      congr 2
      push_cast
      ring
    have e3 : Complex.exp (w * s) = ((exp (-k * w) : ℝ) : ℂ) * Complex.exp (w * (s + k)) := by
      rw [Complex.ofReal_exp, ← Complex.exp_add]
      congr 1
      push_cast
      ring
    have e4 : Complex.exp (w * (s + k)) * Complex.exp (-(w * (s + k))) = 1 := by
      rw [← Complex.exp_add]; simp
    rw [Complex.cosh] at c1
    rw [e2, e3]
    push_cast
    rw [c1]
    linear_combination (-1 : ℂ) * Complex.exp (-k * w) ^ 2 * e4
  cases t
  case lowshelf => exact absurd rfl ht.1
  case highshelf => exact absurd rfl ht.2
  case peaking =>
    obtain ⟨Q, hQ, hsc, hp⟩ := peaking_ok h
    obtain ⟨B1, B2, hh, -⟩ := peaking_has _ _ _ w1 hQ _ hp
    refine ⟨Q, hQ, fun hn => absurd rfl hn, ?_, key Q hQ hh.a0 hh.a1 hh.a2⟩
    rintro k - rfl
    unfold scaledQ at hsc
    dsimp only [Option.getD_some] at hsc
    split_ifs at hsc
    exact (Except.ok.inj hsc).symm
  case lowpass =>
    have hh := lowpass_has _ _ _ _ ((other_ok h).1 rfl)
    exact ⟨q, hq, fun _ => rfl, fun _ h => by simp at h, key q hq hh.a0 hh.a1 hh.a2⟩
  case highpass =>
    obtain ⟨B, hh, -⟩ := highpass_has _ _ _ w1 w2 hq _ ((other_ok h).2.1 rfl)
    exact ⟨q, hq, fun _ => rfl, fun _ h => by simp at h, key q hq hh.a0 hh.a1 hh.a2⟩
  case bandpassPeak =>
    obtain ⟨B1, B2, hh, -⟩ := bandpass_has _ _ _ _ ((other_ok h).2.2.1 (Or.inl rfl))
    exact ⟨q, hq, fun _ => rfl, fun _ h => by simp at h, key q hq hh.a0 hh.a1 hh.a2⟩
  case bandpassSkirt =>
    obtain ⟨B1, B2, hh, -⟩ := bandpass_has _ _ _ _ ((other_ok h).2.2.1 (Or.inr rfl))
    exact ⟨q, hq, fun _ => rfl, fun _ h => by simp at h, key q hq hh.a0 hh.a1 hh.a2⟩
  all_goals
    unfold matched at h
    rw [if_neg (not_not.2 hf), if_neg (not_not.2 hq)] at h
    simp at h

/-- **C80 (lowpass).**  The constant component is multiplied by the gain, and at the frequency of the filter the
gain is `q` times that. -/
theorem C80_lowpass (f gain q fs : ℝ) (factor : Option ℝ) (c : Coeffs)
    (h : matched .lowpass f gain q fs factor = .ok (some c)) :
    c.response 0 = ((10 : ℝ) ^ (gain / 20) : ℝ) ∧ c.gain (2 * π * f / fs) = q * 10 ^ (gain / 20) := by
  obtain ⟨hf, hq⟩ := matched_ok h
  obtain ⟨w1, w2⟩ := omega_bounds f fs hf
  have hh := lowpass_has _ _ _ _ ((other_ok h).1 rfl)
  have hs := (sum_pos (2 * π * f / fs) q w1 hq).1
  have hp := p_pos (2 * π * f / fs) q w1 w2
  have hg := gain_pos gain
  have hD := D_pos (2 * π * f / fs) q (2 * π * f / fs) w1 hq
  refine ⟨by rw [hh.dc, mul_div_cancel_right₀ _ hs.ne'], gain_of_sq (by positivity) ?_⟩
  rw [hh.gain, div_eq_iff hD.ne', ← helpers_p _ q]
  generalize helpers (2 * π * f / fs) q = k at *
  have hpn := hp.1.ne'
  unfold num Helpers.D Helpers.dot
  field_simp
  ring

/-- **C80 (highpass).**  A constant is removed, and at the frequency of the filter the gain is `q` times the
requested one. -/
theorem C80_highpass (f gain q fs : ℝ) (factor : Option ℝ) (c : Coeffs)
    (h : matched .highpass f gain q fs factor = .ok (some c)) :
    c.response 0 = 0 ∧ c.gain (2 * π * f / fs) = q * 10 ^ (gain / 20) := by
  obtain ⟨hf, hq⟩ := matched_ok h
  obtain ⟨w1, w2⟩ := omega_bounds f fs hf
  obtain ⟨B, hh, hB⟩ := highpass_has _ _ _ w1 w2 hq _ ((other_ok h).2.1 rfl)
  have hg := gain_pos gain
  have hD := D_pos (2 * π * f / fs) q (2 * π * f / fs) w1 hq
  refine ⟨by rw [hh.dc]; simp, gain_of_sq (by positivity) ?_⟩
  rw [hh.gain, div_eq_iff hD.ne', ← helpers_p _ q]
  generalize helpers (2 * π * f / fs) q = k at *
  unfold num Helpers.D
  unfold Helpers.dot at hB
  linear_combination hB

theorem sin_half_inj {w w0 : ℝ} (h0 : 0 ≤ w) (h1 : w ≤ π) (h2 : 0 < w0) (h3 : w0 < π)
    (h : sin (w / 2) ^ 2 = sin (w0 / 2) ^ 2) : w = w0 := by
  have hc : ∀ y : ℝ, cos y = 1 - 2 * sin (y / 2) ^ 2 := fun y => by
    have : cos y = 2 * cos (y / 2) ^ 2 - 1 := by rw [← cos_two_mul]; congr 1; ring
    rw [this, sin_sq]; ring
  exact injOn_cos ⟨h0, h1⟩ ⟨h2.le, h3.le⟩ (by rw [hc w, hc w0, h])

/-- **C80 (bandpass).**  A constant is removed, the gain at the frequency of the filter is the requested one,
and it is smaller at every other frequency from zero to half the sampling rate. -/
theorem C80_bandpass (t : EqType) (ht : t = .bandpassPeak ∨ t = .bandpassSkirt) (f gain q fs : ℝ)
    (factor : Option ℝ) (c : Coeffs) (h : matched t f gain q fs factor = .ok (some c)) :
    c.response 0 = 0 ∧ c.gain (2 * π * f / fs) = 10 ^ (gain / 20) ∧
      ∀ w, 0 ≤ w → w ≤ π → w ≠ 2 * π * f / fs → c.gain w < 10 ^ (gain / 20) := by
  obtain ⟨hf, hq⟩ := matched_ok h
  obtain ⟨w1, w2⟩ := omega_bounds f fs hf
  obtain ⟨B1, B2, hh, h2, h1⟩ := bandpass_has _ _ _ _ ((other_ok h).2.2.1 ht)
  have hg := gain_pos gain
  have hs := (sum_pos (2 * π * f / fs) q w1 hq).1
  have hp := p_pos (2 * π * f / fs) q w1 w2
  have hn : ∀ x, _ := fun x => bandpass_num (helpers (2 * π * f / fs) q) hp.1 (10 ^ (gain / 20)) x B1 B2 h2 h1
  refine ⟨by rw [hh.dc]; simp, gain_of_sq hg.le ?_, fun w hw0 hw1 hne => ?_⟩
  · have hD := D_pos (2 * π * f / fs) q (2 * π * f / fs) w1 hq
    rw [hh.gain, hn, div_eq_iff hD.ne', ← helpers_p _ q]
    ring
  · have hD := D_pos (2 * π * f / fs) q w w1 hq
    refine lt_of_pow_lt_pow_left₀ 2 hg.le ?_
    rw [hh.gain, hn, div_lt_iff₀ hD]
    have hx : sin (w / 2) ^ 2 - (helpers (2 * π * f / fs) q).p ≠ 0 := by
      rw [helpers_p, sub_ne_zero]
      exact fun e => hne (sin_half_inj hw0 hw1 w1 w2 e)
    have hA : 0 < (helpers (2 * π * f / fs) q).A0 := by
      unfold Helpers.A0; positivity
    have : 0 < ((sin (w / 2) ^ 2 - (helpers (2 * π * f / fs) q).p) / (helpers (2 * π * f / fs) q).p) ^ 2 := by
      have := div_ne_zero hx hp.1.ne'
      positivity
    have := mul_pos (mul_pos (pow_pos hg 2) hA) this
    linarith

/-- **C80 (peaking).**  A constant is kept, the gain at the frequency of the filter is the requested one, and
at every frequency it lies between one and the requested one: a boost never attenuates and never boosts more,
a cut never boosts and never cuts more. -/
theorem C80_peaking (f gain q fs : ℝ) (factor : Option ℝ) (c : Coeffs)
    (h : matched .peaking f gain q fs factor = .ok (some c)) :
    c.response 0 = 1 ∧ c.gain (2 * π * f / fs) = 10 ^ (gain / 20) ∧
      (∀ w, 0 ≤ gain → 1 ≤ c.gain w ∧ c.gain w ≤ 10 ^ (gain / 20)) ∧
      ∀ w, gain ≤ 0 → 10 ^ (gain / 20) ≤ c.gain w ∧ c.gain w ≤ 1 := by
  obtain ⟨hf, hq⟩ := matched_ok h
  obtain ⟨w1, w2⟩ := omega_bounds f fs hf
  obtain ⟨Q, hQ, -, hpk⟩ := peaking_ok h
  obtain ⟨B1, B2, hh, h2, h1⟩ := peaking_has _ _ _ w1 hQ _ hpk
  have hg := gain_pos gain
  have hs := (sum_pos (2 * π * f / fs) Q w1 hQ).1
  have hp := p_pos (2 * π * f / fs) Q w1 w2
  have hn : ∀ x, _ := fun x => peaking_num (helpers (2 * π * f / fs) Q) hp.1 (10 ^ (gain / 20)) x B1 B2 h2 h1
  have hA : 0 ≤ (helpers (2 * π * f / fs) Q).A0 := sq_nonneg _
  obtain ⟨k1, k2⟩ := bandpass_cond _ Q w1 w2 hQ _ rfl _ _ rfl rfl
  have hb : ∀ w, (helpers (2 * π * f / fs) Q).A0 *
      ((sin (w / 2) ^ 2 - (helpers (2 * π * f / fs) Q).p) / (helpers (2 * π * f / fs) Q).p) ^ 2 ≤
        (helpers (2 * π * f / fs) Q).D (sin (w / 2) ^ 2) := by
    intro w
    have := bandpass_num (helpers (2 * π * f / fs) Q) hp.1 1 (sin (w / 2) ^ 2) _ _ rfl rfl
    simp only [one_pow, one_mul] at this
    have hx0 : 0 ≤ sin (w / 2) ^ 2 := sq_nonneg _
    have hx1 : sin (w / 2) ^ 2 ≤ 1 := sin_sq_le_one _
    have hnn : 0 ≤ num 0 ((helpers (2 * π * f / fs) Q).slope + 4 * ((helpers (2 * π * f / fs) Q).p -
        (1 - (helpers (2 * π * f / fs) Q).p)) * (((helpers (2 * π * f / fs) Q).dot -
        (helpers (2 * π * f / fs) Q).slope * (helpers (2 * π * f / fs) Q).p) / 4 / (helpers (2 * π * f / fs) Q).p ^ 2))
        (((helpers (2 * π * f / fs) Q).dot -
        (helpers (2 * π * f / fs) Q).slope * (helpers (2 * π * f / fs) Q).p) / 4 / (helpers (2 * π * f / fs) Q).p ^ 2)
        (sin (w / 2) ^ 2) := by
      unfold num
      have e : ∀ b1 b2 x : ℝ, 0 * (1 - x) + b1 * x + b2 * (4 * (1 - x) * x) = x * (x * b1 + (1 - x) * (b1 + 4 * b2)) := by
        intros; ring
      rw [e]
      exact mul_nonneg hx0 (add_nonneg (mul_nonneg hx0 k1) (mul_nonneg (by linarith) k2))
    rw [this] at hnn
    linarith
  refine ⟨by rw [hh.dc, div_self hs.ne']; simp, gain_of_sq hg.le ?_, fun w hgn => ?_, fun w hgn => ?_⟩
  · have hD := D_pos (2 * π * f / fs) Q (2 * π * f / fs) w1 hQ
    rw [hh.gain, hn, div_eq_iff hD.ne', ← helpers_p _ Q]
    ring
  · have hg1 : 1 ≤ (10 : ℝ) ^ (gain / 20) := one_le_rpow (by norm_num) (by positivity)
    have hD := D_pos (2 * π * f / fs) Q w w1 hQ
    have hb := hb w
    have hg2 : 0 ≤ ((10 : ℝ) ^ (gain / 20)) ^ 2 - 1 := by nlinarith
    constructor
    · refine le_of_sq_le_sq ?_ (norm_nonneg _)
      rw [hh.gain, hn, le_div_iff₀ hD]
      nlinarith [mul_le_mul_of_nonneg_left hb hg2]
    · refine le_of_sq_le_sq ?_ hg.le
      rw [hh.gain, hn, div_le_iff₀ hD]
      have := mul_nonneg hg2 (mul_nonneg hA (sq_nonneg
        ((sin (w / 2) ^ 2 - (helpers (2 * π * f / fs) Q).p) / (helpers (2 * π * f / fs) Q).p)))
      linarith
  · have hg1 : (10 : ℝ) ^ (gain / 20) ≤ 1 := rpow_le_one_of_one_le_of_nonpos (by norm_num) (by linarith)
    have hD := D_pos (2 * π * f / fs) Q w w1 hQ
    have hb := hb w
    have hg2 : 0 ≤ 1 - ((10 : ℝ) ^ (gain / 20)) ^ 2 := by nlinarith
    constructor
    · refine le_of_sq_le_sq ?_ (norm_nonneg _)
      rw [hh.gain, hn, le_div_iff₀ hD]
      have := mul_nonneg hg2 (mul_nonneg hA (sq_nonneg
        ((sin (w / 2) ^ 2 - (helpers (2 * π * f / fs) Q).p) / (helpers (2 * π * f / fs) Q).p)))
      linarith
    · refine le_of_sq_le_sq ?_ (by norm_num)
      rw [hh.gain, hn, div_le_iff₀ hD]
      nlinarith [mul_le_mul_of_nonneg_left hb hg2]

/-! ### Shelves -/

/-- The polynomial of the second order Butterworth filter at the frequency `x`, that is `s² + √2 s + 1` at
`s = i x`. -/
noncomputable def butterworth (x : ℝ) : ℂ := (Complex.I * x) ^ 2 + √2 * (Complex.I * x) + 1

/-- The analog high shelf with quality `1 / √2`: one at low frequencies, `g` at high ones.  The frequency is
relative to that of the filter. -/
noncomputable def analogHighShelf (g u : ℝ) : ℂ :=
  butterworth (g ^ (1 / 4 : ℝ) * u) / butterworth (u / g ^ (1 / 4 : ℝ))

/-- The analog low shelf is the high shelf with the opposite gain, raised by the gain. -/
noncomputable def analogLowShelf (g u : ℝ) : ℂ := g * analogHighShelf (1 / g) u

theorem butterworth_sq (x : ℝ) : ‖butterworth x‖ ^ 2 = 1 + x ^ 4 := by
  have e : butterworth x = ((1 - x ^ 2 : ℝ) : ℂ) + ((√2 * x : ℝ) : ℂ) * Complex.I := by
    unfold butterworth
    push_cast
    linear_combination (x : ℂ) ^ 2 * Complex.I_sq
  rw [e, Complex.sq_norm, Complex.normSq_add_mul_I, mul_pow, sq_sqrt (by norm_num)]
  ring

theorem analog_sq (g u : ℝ) (hg : 0 < g) : ‖analogHighShelf g u‖ ^ 2 = (1 + g * u ^ 4) / (1 + u ^ 4 / g) := by
  have : (g ^ (1 / 4 : ℝ)) ^ 4 = g := by
    rw [← rpow_natCast, ← rpow_mul hg.le]
    norm_num
  rw [analogHighShelf, norm_div, div_pow, butterworth_sq, butterworth_sq, mul_pow, div_pow, this]

/-- The checks that the analog prototype is the one meant: its values far below and at the frequency, and its
limit. -/
example (g : ℝ) : analogHighShelf g 0 = 1 ∧ analogLowShelf g 0 = g := by
  simp [analogHighShelf, analogLowShelf, butterworth]

example (g : ℝ) (hg : 0 < g) : ‖analogHighShelf g 1‖ ^ 2 = g := by
  rw [analog_sq g 1 hg]
  field_simp
  ring

/-- Numerator and denominator of a shelf. -/
theorem ShelfHas.gain {c : Coeffs} {al1 al2 hny k : ℝ} (h : ShelfHas c al1 al2 hny k) (w : ℝ) :
    c.gain w ^ 2 = num 1 (hny * al2) (0.25 * (al1 - hny * al2)) (sin (w / 2) ^ 2) / k ^ 2 /
      num 1 al2 (0.25 * (al1 - al2)) (sin (w / 2) ^ 2) := by
  rw [gain_sq, poly_phi, poly_phi, h.b_sum, h.a_sum, h.b_alt, h.a_alt]
  unfold num
  congr 1
  · have := h.b_prod
    linear_combination (4 * (1 - sin (w / 2) ^ 2) * sin (w / 2) ^ 2) * this
  · have := h.a_prod
    linear_combination (4 * (1 - sin (w / 2) ^ 2) * sin (w / 2) ^ 2) * this

theorem ShelfHas.den {c : Coeffs} {al1 al2 hny k : ℝ} (h : ShelfHas c al1 al2 hny k) (w : ℝ) :
    0 < num 1 al2 (0.25 * (al1 - al2)) (sin (w / 2) ^ 2) := by
  have hd := den_ne_zero _ h.stable w
  have : ‖poly c.a0 c.a1 c.a2 w‖ ^ 2 = num 1 al2 (0.25 * (al1 - al2)) (sin (w / 2) ^ 2) := by
    rw [poly_phi, h.a_sum, h.a_alt]
    unfold num
    have := h.a_prod
    linear_combination (4 * (1 - sin (w / 2) ^ 2) * sin (w / 2) ^ 2) * this
  rw [← this]
  positivity

/-- The gain of a shelf at the three matched frequencies. -/
theorem shelf_gain (fc g : ℝ) (low : Bool) (h0 : 0 < fc) (h1 : fc < 1) (hg : 0 < g) (c : Coeffs)
    (hc : shelving fc g low = some c) (f : ℝ) (hf : f = match1 fc ∨ f = match2 fc ∨ f = 1) :
    c.gain (π * f) ^ 2 = shelfGain (shelfG g low) fc f / (if low then shelfG g low else 1) ^ 2 ∧
      c.response 0 = ((1 / (if low then shelfG g low else 1) : ℝ) : ℂ) := by
  obtain ⟨c', al1, al2, hc', hal, hh, hm⟩ := shelving_total fc g low h0 h1 hg
  obtain rfl : c' = c := Option.some.inj (hc'.symm.trans hc)
  obtain ⟨hG, -⟩ := shelfG_ne g hg low
  have hk : 0 < (if low then shelfG g low else 1) := by split_ifs <;> positivity
  generalize (if low then shelfG g low else 1) = k at *
  refine ⟨?_, by rw [response_zero, hh.a_sum, hh.b_sum, div_one]⟩
  have hd := hh.den (π * f)
  rw [hh.gain, div_div, div_eq_div_iff (by positivity) (by positivity), show π * f / 2 = π / 2 * f by ring] at *
  have key : num 1 (shelfGain (shelfG g low) fc 1 * al2) (0.25 * (al1 - shelfGain (shelfG g low) fc 1 * al2))
      (sin (π / 2 * f) ^ 2) = shelfGain (shelfG g low) fc f * num 1 al2 (0.25 * (al1 - al2)) (sin (π / 2 * f) ^ 2) := by
    rcases hf with rfl | rfl | rfl
    · have := hm _ (Or.inl rfl)
      unfold num
      linear_combination (-1 : ℝ) * this
    · have := hm _ (Or.inr rfl)
      unfold num
      linear_combination (-1 : ℝ) * this
    · have : sin (π / 2 * 1) = 1 := by rw [mul_one, sin_pi_div_two]
      rw [this]
      unfold num
      ring
  rw [key]
  ring

/-- What the model's expression for the gain is. -/
theorem shelfGain_analog (G fc f : ℝ) (hG : 0 < G) (h0 : 0 < fc) :
    shelfGain G fc f = ‖analogHighShelf G (f / fc)‖ ^ 2 := by
  rw [analog_sq _ _ hG, div_pow, shelfGain]
  have : 0 < fc ^ 4 := by positivity
  have h2 : 0 ≤ f ^ 4 := by positivity
  generalize fc ^ 4 = F at *
  generalize f ^ 4 = u at *
  field_simp

/-- **C80 (shelves).**  Unless the gain is below 1e-6 relative to one, the gain of a shelf at zero is exactly
that of the analog shelf, and the same holds for the magnitude at half the sampling rate and at two distinct
frequencies between. -/
theorem C80_shelving (f gain q fs : ℝ) (factor : Option ℝ) (c : Coeffs) :
    (matched .highshelf f gain q fs factor = .ok (some c) → 1e-6 ≤ |1 - (10 : ℝ) ^ (gain / 20)| →
      c.response 0 = analogHighShelf (10 ^ (gain / 20)) 0 ∧
      ∃ f1 f2, 0 < f1 ∧ f1 < f2 ∧ f2 < fs / 2 ∧ ∀ x, (x = f1 ∨ x = f2 ∨ x = fs / 2) →
        c.gain (2 * π * x / fs) = ‖analogHighShelf (10 ^ (gain / 20)) (x / f)‖) ∧
    (matched .lowshelf f gain q fs factor = .ok (some c) → 1e-6 ≤ |1 - 1 / (10 : ℝ) ^ (gain / 20)| →
      c.response 0 = analogLowShelf (10 ^ (gain / 20)) 0 ∧
      ∃ f1 f2, 0 < f1 ∧ f1 < f2 ∧ f2 < fs / 2 ∧ ∀ x, (x = f1 ∨ x = f2 ∨ x = fs / 2) →
        c.gain (2 * π * x / fs) = ‖analogLowShelf (10 ^ (gain / 20)) (x / f)‖) := by
  have hg := gain_pos gain
  generalize hgd : (10 : ℝ) ^ (gain / 20) = g at *
  have points : ∀ (hf : 0 < f ∧ f < fs / 2) (P : ℝ → Prop),
      (∀ y, (y = match1 (f / (fs / 2)) ∨ y = match2 (f / (fs / 2)) ∨ y = 1) → P (y * (fs / 2))) →
      ∃ f1 f2, 0 < f1 ∧ f1 < f2 ∧ f2 < fs / 2 ∧ ∀ x, (x = f1 ∨ x = f2 ∨ x = fs / 2) → P x := by
    intro hf P hP
    obtain ⟨r1, r2⟩ := rel_bounds hf.1 hf.2
    obtain ⟨m1, m2, m3⟩ := match_bounds _ r1 r2
    have hfs : 0 < fs / 2 := by linarith [hf.1, hf.2]
    refine ⟨match2 (f / (fs / 2)) * (fs / 2), match1 (f / (fs / 2)) * (fs / 2), by positivity,
      mul_lt_mul_of_pos_right m2 hfs, by nlinarith, ?_⟩
    rintro x (rfl | rfl | rfl)
    · exact hP _ (Or.inr (Or.inl rfl))
    · exact hP _ (Or.inl rfl)
    · simpa using hP 1 (Or.inr (Or.inr rfl))
  constructor
  · intro h hne
    obtain ⟨hf, hq⟩ := matched_ok h
    have hfs : 0 < fs := by linarith [hf.1, hf.2]
    obtain ⟨r1, r2⟩ := rel_bounds hf.1 hf.2
    have hs := (other_ok h).2.2.2.2 rfl
    rw [hgd] at hs
    have hG : shelfG g false = g := by
      simp only [shelfG, Bool.false_eq_true, if_false]
      rw [if_neg (not_lt.2 hne)]
    refine ⟨?_, points hf _ fun y hy => ?_⟩
    · rw [(shelf_gain _ g false r1 r2 hg c hs 1 (Or.inr (Or.inr rfl))).2]
      simp [analogHighShelf, butterworth]
    · have := (shelf_gain _ g false r1 r2 hg c hs y hy).1
      rw [hG, shelfGain_analog _ _ _ hg r1] at this
      simp only [Bool.false_eq_true, if_false, one_pow, div_one] at this
      have e1 : 2 * π * (y * (fs / 2)) / fs = π * y := by field_simp
      have e2 : y / (f / (fs / 2)) = y * (fs / 2) / f := by
        have := hf.1
        field_simp
      rw [e2] at this
      rw [e1]
      exact gain_of_sq (norm_nonneg _) this
  · intro h hne
    obtain ⟨hf, hq⟩ := matched_ok h
    have hfs : 0 < fs := by linarith [hf.1, hf.2]
    obtain ⟨r1, r2⟩ := rel_bounds hf.1 hf.2
    have hs := (other_ok h).2.2.2.1 rfl
    rw [hgd] at hs
    have hG : shelfG g true = 1 / g := by
      simp only [shelfG, if_true]
      rw [if_neg (not_lt.2 hne)]
    refine ⟨?_, points hf _ fun y hy => ?_⟩
    · rw [(shelf_gain _ g true r1 r2 hg c hs 1 (Or.inr (Or.inr rfl))).2, if_pos rfl, hG]
      simp [analogLowShelf, analogHighShelf, butterworth]
    · have := (shelf_gain _ g true r1 r2 hg c hs y hy).1
      rw [hG, shelfGain_analog _ _ _ (by positivity) r1, if_pos rfl] at this
      have e1 : 2 * π * (y * (fs / 2)) / fs = π * y := by field_simp
      have e2 : y / (f / (fs / 2)) = y * (fs / 2) / f := by
        have := hf.1
        field_simp
      rw [e2] at this
      rw [e1]
      refine gain_of_sq (norm_nonneg _) ?_
      rw [this, analogLowShelf, norm_mul, Complex.norm_real, norm_of_nonneg hg.le, mul_pow]
      field_simp

/-- The hypotheses can be met: +20 dB at a quarter of the sampling rate. -/
example : (∃ c, matched .highshelf 12000 20 1 48000 none = .ok (some c)) ∧
    (1e-6 : ℝ) ≤ |1 - (10 : ℝ) ^ ((20 : ℝ) / 20)| := by
  constructor
  · obtain ⟨c, hc, -⟩ := C80_stable .highshelf 12000 20 1 48000 none (by simp [Supported])
      ⟨by norm_num, by norm_num, by norm_num, by simp⟩
    exact ⟨c, hc⟩
  · norm_num

/-- **C80 (a shelf of 0 dB is not transparent).**  With a gain of exactly 0 dB the high shelf still raises half
the sampling rate, because the gain is replaced by 1 + 1e-6. -/
theorem C80_zero_shelf_wrong (f q fs : ℝ) (factor : Option ℝ) (c : Coeffs)
    (h : matched .highshelf f 0 q fs factor = .ok (some c)) : 1 < c.gain π := by
  obtain ⟨hf, hq⟩ := matched_ok h
  obtain ⟨r1, r2⟩ := rel_bounds hf.1 hf.2
  have hs := (other_ok h).2.2.2.2 rfl
  have hG : shelfG ((10 : ℝ) ^ ((0 : ℝ) / 20)) false = 1 + 1e-6 := by
    simp only [shelfG, zero_div, rpow_zero, Bool.false_eq_true, if_false]
    norm_num
  have := (shelf_gain _ _ false r1 r2 (gain_pos 0) c hs 1 (Or.inr (Or.inr rfl))).1
  rw [hG] at this
  simp only [Bool.false_eq_true, if_false, one_pow, div_one, mul_one, shelfGain] at this
  have hF : 0 < (f / (fs / 2)) ^ 4 := by positivity
  have h1 : 1 < c.gain π ^ 2 := by
    rw [this, lt_div_iff₀ (by positivity)]
    norm_num
  exact (one_lt_sq_iff₀ (norm_nonneg _)).1 h1

/-- **C80 (a peak of 0 dB is transparent).** -/
theorem C80_zero_peak (f q fs : ℝ) (factor : Option ℝ) (c : Coeffs)
    (h : matched .peaking f 0 q fs factor = .ok (some c)) (w : ℝ) : c.gain w = 1 := by
  obtain ⟨-, -, h1, h2⟩ := C80_peaking f 0 q fs factor c h
  exact le_antisymm (h2 w le_rfl).2 (h1 w le_rfl).1

/-- **C80 (both bandpass types are the same filter).**  The type with constant skirt gain should have the gain
`q` times the requested one at its frequency, as the unmatched biquad of that type has (C34); it has the
requested one instead, whatever the quality is. -/
theorem C80_skirt_wrong (f gain q fs : ℝ) (factor : Option ℝ) :
    matched .bandpassSkirt f gain q fs factor = matched .bandpassPeak f gain q fs factor ∧
      ∀ c, matched .bandpassSkirt f gain q fs factor = .ok (some c) → q ≠ 1 →
        c.gain (2 * π * f / fs) ≠ q * 10 ^ (gain / 20) := by
  refine ⟨rfl, fun c h hq e => ?_⟩
  rw [(C80_bandpass _ (Or.inr rfl) f gain q fs factor c h).2.1] at e
  have hg := gain_pos gain
  exact hq (mul_right_cancel₀ hg.ne' (by linarith))

end Verif.MatchedBiquad

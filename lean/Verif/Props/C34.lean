import Verif.Lemmas.Biquad

/-!
# C34: biquad designs are stable and have the specified gains
-/

namespace Verif.Biquad

/-- Gain given in dB as a factor. -/
noncomputable def linearGain (g : ℝ) : ℝ := 10 ^ (g / 20)

/-- What each design is supposed to do at DC, at the design frequency and at half the
sampling rate, for a gain of `G` (linear) and a quality `q`. -/
noncomputable def target (t : EqType) (G q : ℝ) : ℝ × ℝ × ℝ :=
  match t with
  | .lowpass => (G, q * G, 0)
  | .highpass => (0, q * G, G)
  | .peaking => (1, G, 1)
  | .lowshelf => (G, Real.sqrt G, 1)
  | .highshelf => (1, Real.sqrt G, G)
  | .bandpassSkirt => (0, q * G, 0)
  | .bandpassPeak => (0, G, 0)
  | .lowpassFirstOrder => (G, G / Real.sqrt 2, 0)
  | .highpassFirstOrder => (0, G / Real.sqrt 2, G)
  | .allpassFirstOrder => (G, G, G)
  | .allpass => (G, G, G)
  | .notch => (G, 0, G)
  | .inverter => (G, G, G)

/-- Every design is stable, for every frequency strictly between 0 and half the sampling
rate, every gain and every positive quality. -/
theorem C34_stable (t : EqType) (fs f gain q : ℝ) (h : Inside fs f) (hq : 0 < q) :
    (biquad t fs f gain q).Stable := by
  have hs := sn_pos h
  exact branch_stable t _ _ _ _ _ (gainFactor_pos t gain) (by positivity) (K_pos h)
    (cs_bounds h).1 (cs_bounds h).2

theorem gainFactor_sq (t : EqType) (g : ℝ) (ht : t = .peaking ∨ t = .lowshelf ∨ t = .highshelf) :
    gainFactor t g ^ 2 = linearGain g := by
  unfold gainFactor linearGain
  rw [if_pos ht, ← Real.rpow_natCast, ← Real.rpow_mul (by norm_num)]
  congr 1
  push_cast
  ring

theorem gainFactor_plain (t : EqType) (g : ℝ) (ht : ¬ (t = .peaking ∨ t = .lowshelf ∨ t = .highshelf)) :
    gainFactor t g = linearGain g := by
  unfold gainFactor linearGain
  rw [if_neg ht]

/-- Squared magnitude of numerator and denominator in terms of cosine and sine. -/
def numSq (c : Coeffs) (cs sn : ℝ) : ℝ := ((c.b0 + c.b2) * cs + c.b1) ^ 2 + ((c.b0 - c.b2) * sn) ^ 2

def denSq (c : Coeffs) (cs sn : ℝ) : ℝ := ((c.a0 + c.a2) * cs + c.a1) ^ 2 + ((c.a0 - c.a2) * sn) ^ 2

/-- Types whose gain is split between numerator and denominator. -/
def Split (t : EqType) : Prop := t = .peaking ∨ t = .lowshelf ∨ t = .highshelf

theorem dc_identity (t : EqType) (A sn cs α K G q : ℝ) (hp : ¬ Split t → A = G)
    (hsp : Split t → A ^ 2 = G) :
    numSq (branch t A sn cs α K) 1 0 =
      (target t G q).1 ^ 2 * denSq (branch t A sn cs α K) 1 0 := by
  by_cases hS : Split t
  · have hG := hsp hS
    subst hG
    rcases hS with rfl | rfl | rfl <;> simp only [target, branch, numSq, denSq] <;> ring1
  · have hG := hp hS
    subst hG
    cases t <;> simp only [target, branch, numSq, denSq] <;>
      first
        | ring1
        | exact absurd (by simp [Split]) hS

theorem nyquist_identity (t : EqType) (A sn cs α K G q : ℝ) (hp : ¬ Split t → A = G)
    (hsp : Split t → A ^ 2 = G) :
    numSq (branch t A sn cs α K) (-1) 0 =
      (target t G q).2.2 ^ 2 * denSq (branch t A sn cs α K) (-1) 0 := by
  by_cases hS : Split t
  · have hG := hsp hS
    subst hG
    rcases hS with rfl | rfl | rfl <;> simp only [target, branch, numSq, denSq] <;> ring1
  · have hG := hp hS
    subst hG
    cases t <;> simp only [target, branch, numSq, denSq] <;>
      first
        | ring1
        | exact absurd (by simp [Split]) hS

theorem centre_identity (t : EqType) (A sn cs α K G q : ℝ) (hA : 0 < A) (hp : ¬ Split t → A = G)
    (hsp : Split t → A ^ 2 = G) (hsq : Split t → Real.sqrt G = A)
    (hα : sn = 2 * q * α) (hc : sn ^ 2 + cs ^ 2 = 1) (hK : K ^ 2 * (1 - cs) = 1 + cs) :
    numSq (branch t A sn cs α K) cs sn =
      (target t G q).2.1 ^ 2 * denSq (branch t A sn cs α K) cs sn := by
  have h2 : (Real.sqrt 2) ^ 2 = 2 := Real.sq_sqrt (by norm_num)
  cases t with
  | lowpass =>
    simp only [target, branch, numSq, denSq]
    rw [← hp (by simp [Split])]
    linear_combination (-A ^ 2 * (1 - cs ^ 2 + sn ^ 2)) * hc + A ^ 2 * sn ^ 2 * (sn + 2 * q * α) * hα
  | highpass =>
    simp only [target, branch, numSq, denSq]
    rw [← hp (by simp [Split])]
    linear_combination (-A ^ 2 * (1 - cs ^ 2 + sn ^ 2)) * hc + A ^ 2 * sn ^ 2 * (sn + 2 * q * α) * hα
  | peaking =>
    simp only [target, branch, numSq, denSq]
    rw [← hsp (by simp [Split])]
    field_simp
    ring
  | lowshelf =>
    simp only [target, branch, numSq, denSq]
    rw [hsq (by simp [Split])]
    ring
  | highshelf =>
    simp only [target, branch, numSq, denSq]
    rw [hsq (by simp [Split])]
    ring
  | bandpassSkirt =>
    simp only [target, branch, numSq, denSq]
    rw [← hp (by simp [Split])]
    linear_combination A ^ 2 * sn ^ 2 * (sn + 2 * q * α) * hα
  | bandpassPeak =>
    simp only [target, branch, numSq, denSq]
    rw [← hp (by simp [Split])]
    ring
  | lowpassFirstOrder =>
    simp only [target, branch, numSq, denSq]
    rw [← hp (by simp [Split]), div_pow, h2]
    linear_combination (A ^ 2 - A ^ 2 / 2 * (1 + K) ^ 2) * hc - A ^ 2 * hK
  | highpassFirstOrder =>
    simp only [target, branch, numSq, denSq]
    rw [← hp (by simp [Split]), div_pow, h2]
    linear_combination (K ^ 2 * A ^ 2 - A ^ 2 / 2 * (1 + K) ^ 2) * hc + A ^ 2 * hK
  | allpassFirstOrder =>
    simp only [target, branch, numSq, denSq]
    rw [← hp (by simp [Split])]
    linear_combination (A ^ 2 * ((1 - K) ^ 2 - (1 + K) ^ 2)) * hc
  | allpass =>
    simp only [target, branch, numSq, denSq]
    rw [← hp (by simp [Split])]
    ring
  | notch =>
    simp only [target, branch, numSq, denSq]
    ring
  | inverter =>
    simp only [target, branch, numSq, denSq]
    rw [← hp (by simp [Split])]
    ring

/-- The gains at DC, at the design frequency and at half the sampling rate. -/
theorem C34_gains_partial (t : EqType) (fs f gain q : ℝ) (h : Inside fs f) (hq : 0 < q) :
    ((biquad t fs f gain q).gain 0, (biquad t fs f gain q).gain (omega fs f),
      (biquad t fs f gain q).gain Real.pi) = target t (linearGain gain) q := by
  have hst := C34_stable t fs f gain q h hq
  have hs := sn_pos h
  obtain ⟨hc1, hc2⟩ := cs_bounds h
  have hsc := Real.sin_sq_add_cos_sq (omega fs f)
  have hGpos : 0 < linearGain gain := by unfold linearGain; positivity
  have hApos := gainFactor_pos t gain
  have hsq : Split t → gainFactor t gain ^ 2 = linearGain gain := gainFactor_sq t gain
  have hpl : ¬ Split t → gainFactor t gain = linearGain gain := gainFactor_plain t gain
  have hsG : Split t → Real.sqrt (linearGain gain) = gainFactor t gain := by
    intro ht
    rw [← hsq ht, Real.sqrt_sq hApos.le]
  have hpos : 0 ≤ (target t (linearGain gain) q).1 ∧ 0 ≤ (target t (linearGain gain) q).2.1 ∧
      0 ≤ (target t (linearGain gain) q).2.2 := by
    cases t <;> simp only [target] <;> refine ⟨?_, ?_, ?_⟩ <;> positivity
  have hK : (1 / Real.tan (omega fs f / 2)) ^ 2 * (1 - Real.cos (omega fs f)) =
      1 + Real.cos (omega fs f) := by
    rw [K_eq h, div_pow, div_mul_eq_mul_div, div_eq_iff (by positivity)]
    linear_combination (-(1 + Real.cos (omega fs f))) * hsc
  refine Prod.ext ?_ (Prod.ext ?_ ?_)
  · refine gain_eq _ hst 0 _ hpos.1 ?_
    rw [Real.cos_zero, Real.sin_zero]
    exact dc_identity t _ _ _ _ _ _ q hpl hsq
  · refine gain_eq _ hst _ _ hpos.2.1 ?_
    refine centre_identity t _ _ _ _ _ _ q hApos hpl hsq hsG ?_ hsc hK
    field_simp
  · refine gain_eq _ hst Real.pi _ hpos.2.2 ?_
    rw [Real.cos_pi, Real.sin_pi]
    exact nyquist_identity t _ _ _ _ _ _ q hpl hsq

/-- The same with phase: values of the transfer function at DC, at the design frequency and at
half the sampling rate. -/
noncomputable def phaseTarget (t : EqType) (G q : ℝ) : ℂ × ℂ × ℂ :=
  let turn : ℂ := Real.sqrt (Real.sqrt G) + (Real.sqrt G - 1) * q * Complex.I
  let back : ℂ := Real.sqrt (Real.sqrt G) - (Real.sqrt G - 1) * q * Complex.I
  match t with
  | .lowpass => (G, -(q * G * Complex.I), 0)
  | .highpass => (0, q * G * Complex.I, G)
  | .peaking => (1, G, 1)
  | .lowshelf => (G, Real.sqrt G * (back / turn), 1)
  | .highshelf => (1, Real.sqrt G * (turn / back), G)
  | .bandpassSkirt => (0, q * G, 0)
  | .bandpassPeak => (0, G, 0)
  | .lowpassFirstOrder => (G, G * (1 - Complex.I) / 2, 0)
  | .highpassFirstOrder => (0, G * (1 + Complex.I) / 2, G)
  | .allpassFirstOrder => (G, -(G * Complex.I), -G)
  | .allpass => (G, -G, G)
  | .notch => (G, 0, G)
  | .inverter => (G, G, G)

theorem response_eq (c : Coeffs) (h : c.Stable) (w : ℝ) (v : ℂ)
    (he : ((c.b0 + c.b2) * Real.cos w + c.b1 + Complex.I * ((c.b0 - c.b2) * Real.sin w) : ℂ) =
      v * ((c.a0 + c.a2) * Real.cos w + c.a1 + Complex.I * ((c.a0 - c.a2) * Real.sin w))) :
    c.response w = v := by
  unfold Coeffs.response
  rw [div_eq_iff (den_ne_zero c h w)]
  have hexp : Complex.exp (-(w * Complex.I)) = (Real.cos w : ℂ) - Real.sin w * Complex.I := by
    rw [show -((w : ℂ) * Complex.I) = ((-w : ℝ) : ℂ) * Complex.I by push_cast; ring,
      Complex.exp_mul_I, ← Complex.ofReal_cos, ← Complex.ofReal_sin, Real.cos_neg, Real.sin_neg]
    push_cast
    ring
  have hsc : (Real.sin w : ℂ) ^ 2 + (Real.cos w : ℂ) ^ 2 = 1 := by
    exact_mod_cast Real.sin_sq_add_cos_sq w
  have hI := Complex.I_sq
  unfold poly
  rw [hexp]
  generalize (Real.cos w : ℂ) = C at *
  generalize (Real.sin w : ℂ) = S at *
  generalize (c.b0 : ℂ) = b0 at *
  generalize (c.b1 : ℂ) = b1 at *
  generalize (c.b2 : ℂ) = b2 at *
  generalize (c.a0 : ℂ) = a0 at *
  generalize (c.a1 : ℂ) = a1 at *
  generalize (c.a2 : ℂ) = a2 at *
  have hu : (C - S * Complex.I) * (C + S * Complex.I) = 1 := by
    linear_combination hsc - S ^ 2 * hI
  have key : ∀ p0 p1 p2 : ℂ, p0 + p1 * (C - S * Complex.I) + p2 * (C - S * Complex.I) ^ 2 =
      (C - S * Complex.I) * ((p0 + p2) * C + p1 + Complex.I * ((p0 - p2) * S)) := by
    intro p0 p1 p2
    linear_combination (-p0) * hu
  rw [key, key, he]
  ring

/-- `exp (i w)` times numerator and denominator. -/
noncomputable def numC (c : Coeffs) (cs sn : ℝ) : ℂ :=
  (c.b0 + c.b2) * cs + c.b1 + Complex.I * ((c.b0 - c.b2) * sn)
@[inherit_doc numC]
noncomputable def denC (c : Coeffs) (cs sn : ℝ) : ℂ :=
  (c.a0 + c.a2) * cs + c.a1 + Complex.I * ((c.a0 - c.a2) * sn)

theorem phase_edges (t : EqType) (A sn cs α K G q : ℝ) (hp : ¬ Split t → A = G)
    (hsp : Split t → A ^ 2 = G) :
    numC (branch t A sn cs α K) 1 0 =
      (phaseTarget t G q).1 * denC (branch t A sn cs α K) 1 0 ∧
    numC (branch t A sn cs α K) (-1) 0 =
      (phaseTarget t G q).2.2 * denC (branch t A sn cs α K) (-1) 0 := by
  by_cases hS : Split t
  · have hG := hsp hS
    subst hG
    constructor <;> cases t <;> simp [Split] at hS <;> simp only [branch, phaseTarget, numC, denC] <;>
      push_cast <;> ring
  · have hG := hp hS
    subst hG
    constructor <;> cases t <;> simp [Split] at hS <;> simp only [branch, phaseTarget, numC, denC] <;>
      push_cast <;> ring

theorem phase_centre (t : EqType) (A s c α K G q : ℝ) (hA : 0 < A) (hp : ¬ Split t → A = G)
    (hsp : Split t → A ^ 2 = G) (hsq : Split t → Real.sqrt G = A)
    (hα : s = 2 * q * α) (hsc : s ^ 2 + c ^ 2 = 1) (hK1 : K * s = 1 + c) (hK2 : K * (1 - c) = s) :
    numC (branch t A s c α K) c s =
      (phaseTarget t G q).2.1 * denC (branch t A s c α K) c s := by
  have hI := Complex.I_sq
  have hsc' : (s : ℂ) ^ 2 + (c : ℂ) ^ 2 = 1 := by exact_mod_cast hsc
  have hK1' : (K : ℂ) * s = 1 + c := by exact_mod_cast hK1
  have hK2' : (K : ℂ) * (1 - c) = s := by exact_mod_cast hK2
  have hα' : (s : ℂ) = 2 * q * α := by exact_mod_cast hα
  have hA0 : (A : ℂ) ≠ 0 := by exact_mod_cast hA.ne'
  have hturn : ((Real.sqrt A : ℝ) : ℂ) + ((A : ℝ) - 1) * q * Complex.I ≠ 0 ∧
      ((Real.sqrt A : ℝ) : ℂ) - ((A : ℝ) - 1) * q * Complex.I ≠ 0 := by
    have hp := Real.sqrt_pos.mpr hA
    constructor <;> intro h0 <;> have h1 := congrArg Complex.re h0 <;> simp at h1 <;>
      exact absurd h1 hp.ne'
  by_cases hS : Split t
  · have hG := hsq hS
    have hG2 := hsp hS
    obtain ⟨ht1, ht2⟩ := hturn
    cases t <;> simp [Split] at hS <;> simp only [branch, phaseTarget, numC, denC, hG]
    · rw [← hG2]
      push_cast
      field_simp
      ring
    · generalize Real.sqrt A = r at *
      rw [mul_div_assoc', div_mul_eq_mul_div, eq_div_iff ht1]
      push_cast
      linear_combination (((r : ℂ) + (A - 1) * q * Complex.I) * (-2 * A * (A - 1)) -
          A * ((r : ℂ) - (A - 1) * q * Complex.I) * (2 * (A - 1))) * hsc' +
        (((r : ℂ) + (A - 1) * q * Complex.I) * (2 * A * (A - 1) * s) +
          A * ((r : ℂ) - (A - 1) * q * Complex.I) * (2 * (A - 1) * s)) * hα' +
        (((r : ℂ) + (A - 1) * q * Complex.I) * (4 * A * α * s * (A - 1) * q) +
          A * ((r : ℂ) - (A - 1) * q * Complex.I) * (4 * α * s * (A - 1) * q)) * hI
    · generalize Real.sqrt A = r at *
      rw [mul_div_assoc', div_mul_eq_mul_div, eq_div_iff ht2]
      push_cast
      linear_combination (((r : ℂ) - (A - 1) * q * Complex.I) * (2 * A * (A - 1)) +
          A * ((r : ℂ) + (A - 1) * q * Complex.I) * (2 * (A - 1))) * hsc' -
        (((r : ℂ) - (A - 1) * q * Complex.I) * (2 * A * (A - 1) * s) +
          A * ((r : ℂ) + (A - 1) * q * Complex.I) * (2 * (A - 1) * s)) * hα' -
        (((r : ℂ) - (A - 1) * q * Complex.I) * (4 * A * α * s * (A - 1) * q) +
          A * ((r : ℂ) + (A - 1) * q * Complex.I) * (4 * α * s * (A - 1) * q)) * hI
  · have hG := hp hS
    subst hG
    cases t <;> simp [Split] at hS <;> simp only [branch, phaseTarget, numC, denC] <;> push_cast
    · linear_combination (-A : ℂ) * hsc' + A * s * hα' + 2 * q * α * A * s * hI
    · linear_combination (A : ℂ) * hsc' - A * s * hα' - 2 * q * α * A * s * hI
    · linear_combination Complex.I * A * s * hα'
    · ring
    · linear_combination A * (1 + c + Complex.I * s) / 2 * hI + A * (1 - Complex.I) / 2 * (s * hI + hK2' - Complex.I * hK1')
    · linear_combination (-(A * (1 - Complex.I) / 2) : ℂ) * (s * hI + hK2' - Complex.I * hK1') -
        A * (1 + c + Complex.I * s) / 2 * hI
    · linear_combination A * (1 + c + Complex.I * s) * hI + A * (1 - Complex.I) * (s * hI + hK2' - Complex.I * hK1')
    · ring
    · ring
    · ring

/-- The values of the transfer function, with phase, at DC, at the design frequency and at half
the sampling rate: no design turns the polarity around at DC, low- and highpass turn the phase at
the design frequency by a quarter or an eighth of a period, the allpasses by a half or a quarter. -/
theorem C34_phase (t : EqType) (fs f gain q : ℝ) (h : Inside fs f) (hq : 0 < q) :
    ((biquad t fs f gain q).response 0, (biquad t fs f gain q).response (omega fs f),
      (biquad t fs f gain q).response Real.pi) = phaseTarget t (linearGain gain) q := by
  have hst := C34_stable t fs f gain q h hq
  have hs := sn_pos h
  have hsc := Real.sin_sq_add_cos_sq (omega fs f)
  have hApos := gainFactor_pos t gain
  have hsq : Split t → gainFactor t gain ^ 2 = linearGain gain := gainFactor_sq t gain
  have hpl : ¬ Split t → gainFactor t gain = linearGain gain := gainFactor_plain t gain
  have hsG : Split t → Real.sqrt (linearGain gain) = gainFactor t gain := by
    intro ht
    rw [← hsq ht, Real.sqrt_sq hApos.le]
  have hK1 : 1 / Real.tan (omega fs f / 2) * Real.sin (omega fs f) = 1 + Real.cos (omega fs f) := by
    rw [K_eq h, div_mul_cancel₀ _ hs.ne']
  have hK2 : 1 / Real.tan (omega fs f / 2) * (1 - Real.cos (omega fs f)) =
      Real.sin (omega fs f) := by
    rw [K_eq h, div_mul_eq_mul_div, div_eq_iff hs.ne']
    linear_combination -hsc
  have hα : Real.sin (omega fs f) = 2 * q * (Real.sin (omega fs f) / (2 * q)) := by field_simp
  refine Prod.ext ?_ (Prod.ext ?_ ?_)
  · refine response_eq _ hst 0 _ ?_
    rw [Real.cos_zero, Real.sin_zero]
    exact (phase_edges t _ _ _ _ _ _ q hpl hsq).1
  · refine response_eq _ hst _ _ ?_
    exact phase_centre t _ _ _ _ _ _ q hApos hpl hsq hsG hα hsc hK1 hK2
  · refine response_eq _ hst Real.pi _ ?_
    rw [Real.cos_pi, Real.sin_pi]
    exact (phase_edges t _ _ _ _ _ _ q hpl hsq).2

/-- The inverter does not invert: it multiplies by the positive gain. -/
theorem C34_inverter_does_not_invert (fs f gain q w : ℝ) :
    (biquad .inverter fs f gain q).response w = ((linearGain gain : ℝ) : ℂ) ∧ 0 < linearGain gain := by
  constructor
  · have : gainFactor .inverter gain = linearGain gain := gainFactor_plain _ _ (by simp)
    simp [biquad, branch, Coeffs.response, poly, this]
  · unfold linearGain
    positivity

/-- Concrete case: 1 kHz at 48 kHz. -/
example : Inside 48000 1000 := ⟨by norm_num, by norm_num⟩

/-- Half the sampling rate is excluded for a reason: the peaking design with centre at half
the sampling rate has a pole on the unit circle. -/
theorem C34_nyquist_not_stable : ¬ (biquad .peaking 2 1 0 1).Stable := by
  intro h
  have hw : omega 2 1 = Real.pi := by unfold omega; ring
  have := h.2 (-1) (by simp [biquad, branch, hw]; norm_num)
  norm_num at this

end Verif.Biquad

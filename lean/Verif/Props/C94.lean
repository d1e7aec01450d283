import Verif.Model.GaussianKernel
import Mathlib.Analysis.SpecialFunctions.Trigonometric.Deriv
import Mathlib.Analysis.SpecialFunctions.Exp
import Mathlib.Analysis.SpecialFunctions.Complex.LogBounds
import Mathlib.Analysis.Convex.SpecificFunctions.Basic
import Mathlib.Analysis.Calculus.Deriv.Inv
import Mathlib.Analysis.Calculus.Deriv.Pow

/-!
# C94: the recursive gaussian window is a normalised, decreasing, stable smoothing filter
-/

namespace Verif.GaussianKernel

/-- Response of second order sections at `w` (the unit delay). -/
noncomputable def response (sos : List (List ℝ)) (w : ℂ) : ℂ :=
  (sos.map fun s => ((s.getD 0 0 : ℂ) + s.getD 1 0 * w + s.getD 2 0 * w ^ 2) /
    (s.getD 3 0 + s.getD 4 0 * w + s.getD 5 0 * w ^ 2)).prod

/-- Filtering forwards and backwards multiplies the spectrum by the squared magnitude. -/
noncomputable def zeroPhase (sos : List (List ℝ)) (omega : ℝ) : ℝ :=
  ‖response sos (Complex.exp (-(omega * Complex.I)))‖ ^ 2

theorem mu_root (l : ℝ) (hl : 0 < l) : l * (1 - mu l) ^ 2 = mu l := by
  unfold mu
  have hs : Real.sqrt (1 + 4 * l) ^ 2 = 1 + 4 * l := Real.sq_sqrt (by linarith)
  set s := Real.sqrt (1 + 4 * l)
  field_simp
  linear_combination hs

theorem mu_pos (l : ℝ) (hl : 0 < l) : 0 < mu l := by
  unfold mu
  refine div_pos ?_ (by linarith)
  have : Real.sqrt (1 + 4 * l) < 1 + 2 * l := by
    rw [Real.sqrt_lt' (by linarith)]
    nlinarith [sq_pos_of_pos hl]
  linarith

theorem mu_lt_one (l : ℝ) (hl : 0 < l) : mu l < 1 := by
  unfold mu
  rw [div_lt_one (by linarith)]
  have : 1 < Real.sqrt (1 + 4 * l) := by
    rw [Real.lt_sqrt (by norm_num)]
    linarith
  linarith

theorem lambda_pos (s : ℝ) (K : ℕ) (hs : s ≠ 0) (hK : 0 < K) : 0 < lambda s K := by
  unfold lambda
  have := sq_pos_of_ne_zero hs
  positivity

theorem section_power (l omega : ℝ) (hl : 0 < l) :
    ‖((Real.sqrt (mu l / l) : ℝ) : ℂ) / (1 + ((-mu l : ℝ) : ℂ) *
      Complex.exp (-(omega * Complex.I)))‖ ^ 2 = 1 / (1 + 2 * l * (1 - Real.cos omega)) := by
  have hm := mu_pos l hl
  have hr := mu_root l hl
  have hexp : Complex.exp (-(omega * Complex.I)) =
      ⟨Real.cos omega, -Real.sin omega⟩ := by
    rw [show -((omega : ℂ) * Complex.I) = ((-omega : ℝ) : ℂ) * Complex.I by push_cast; ring,
      Complex.exp_mul_I, ← Complex.ofReal_cos, ← Complex.ofReal_sin, Real.cos_neg, Real.sin_neg]
    generalize Real.cos omega = x
    generalize Real.sin omega = y
    apply Complex.ext <;> simp
  have hden : ‖(1 : ℂ) + ((-mu l : ℝ) : ℂ) * Complex.exp (-(omega * Complex.I))‖ ^ 2 =
      mu l / l * (1 + 2 * l * (1 - Real.cos omega)) := by
    rw [hexp, Complex.sq_norm, Complex.normSq_apply]
    simp only [Complex.add_re, Complex.add_im, Complex.mul_re, Complex.mul_im, Complex.ofReal_re,
      Complex.ofReal_im, Complex.one_re, Complex.one_im]
    have hcs := Real.sin_sq_add_cos_sq omega
    have e : mu l / l = (1 - mu l) ^ 2 := by
      rw [div_eq_iff hl.ne']
      linarith
    have e2 : mu l / l * (1 + 2 * l * (1 - Real.cos omega)) =
        (1 - mu l) ^ 2 + 2 * mu l * (1 - Real.cos omega) := by
      rw [mul_add, mul_one, e]
      congr 1
      rw [← e]
      field_simp
    rw [e2]
    linear_combination (mu l) ^ 2 * hcs
  rw [norm_div, div_pow, hden, Complex.norm_real, Real.norm_eq_abs, sq_abs,
    Real.sq_sqrt (by positivity)]
  have : mu l / l ≠ 0 := by positivity
  rw [← div_div, div_self this]

/-- **C94**, construction: for every even order there are `order / 2` equal sections with one
pole inside the unit circle; odd orders are refused. -/
theorem C94_sections (seconds boundary : ℝ) (order fs : ℕ)
    (hs : sigma seconds boundary fs ≠ 0) :
    (order % 2 = 1 → sections seconds boundary order fs = .error .assertionError) ∧
    (order % 2 = 0 → ∃ sos, sections seconds boundary order fs = .ok sos ∧
      sos.length = order / 2 ∧ ∀ s ∈ sos, ∃ g p, s = [g, 0, 0, 1, -p, 0] ∧ 0 < g ∧ 0 < p ∧
        p < 1) := by
  constructor
  · intro h
    unfold sections
    rw [if_pos (by omega)]
  · intro h
    unfold sections
    rw [if_neg (by omega)]
    refine ⟨_, rfl, by simp, fun s hmem => ?_⟩
    have hK : 0 < order / 2 := by
      rcases Nat.eq_zero_or_pos (order / 2) with h0 | h0
      · rw [h0] at hmem
        simp at hmem
      · exact h0
    have hl := lambda_pos _ _ hs hK
    have hm := mu_pos _ hl
    exact ⟨_, _, List.eq_of_mem_replicate hmem, Real.sqrt_pos.mpr (by positivity), hm,
      mu_lt_one _ hl⟩

/-- **C94**, response: applied forwards and backwards, the filter multiplies the spectrum at
`omega` (radians per sample) with `(1 + sigma² (1 - cos omega) / K)^(-K)`, `K` being half of the
order. -/
theorem C94_response (seconds boundary : ℝ) (K fs : ℕ) (hK : 0 < K)
    (hs : sigma seconds boundary fs ≠ 0) :
    ∃ sos, sections seconds boundary (2 * K) fs = .ok sos ∧ ∀ omega : ℝ, zeroPhase sos omega =
      ((1 + sigma seconds boundary fs ^ 2 * (1 - Real.cos omega) / K) ^ K)⁻¹ := by
  unfold sections
  rw [if_neg (by omega), Nat.mul_div_cancel_left _ (by norm_num)]
  refine ⟨_, rfl, fun omega => ?_⟩
  have hl := lambda_pos _ _ hs hK
  unfold zeroPhase response
  rw [List.map_replicate, List.prod_replicate, norm_pow, ← pow_mul, mul_comm K 2, pow_mul]
  simp only [List.getD_cons_zero, List.getD_cons_succ, Complex.ofReal_zero, zero_mul, add_zero,
    Complex.ofReal_one]
  rw [section_power _ _ hl, one_div, inv_pow]
  congr 2
  unfold lambda
  have : (K : ℝ) ≠ 0 := by positivity
  field_simp

/-- **C94**, smoothing: the gain is 1 for constants, strictly decreasing up to the Nyquist
frequency and positive. -/
theorem C94_smoothing (seconds boundary : ℝ) (K fs : ℕ) (hK : 0 < K)
    (hs : sigma seconds boundary fs ≠ 0) :
    ∃ sos, sections seconds boundary (2 * K) fs = .ok sos ∧ zeroPhase sos 0 = 1 ∧
      (∀ omega, 0 < zeroPhase sos omega ∧ zeroPhase sos omega ≤ 1) ∧
      ∀ a b, 0 ≤ a → a < b → b ≤ Real.pi → zeroPhase sos b < zeroPhase sos a := by
  obtain ⟨sos, h1, h2⟩ := C94_response seconds boundary K fs hK hs
  have hs2 := sq_pos_of_ne_zero hs
  have hKr : (0 : ℝ) < K := by exact_mod_cast hK
  have hge : ∀ omega, 1 ≤ 1 + sigma seconds boundary fs ^ 2 * (1 - Real.cos omega) / K := by
    intro omega
    have := Real.cos_le_one omega
    have : 0 ≤ sigma seconds boundary fs ^ 2 * (1 - Real.cos omega) / K := by
      refine div_nonneg (mul_nonneg hs2.le (by linarith)) hKr.le
    linarith
  refine ⟨sos, h1, by rw [h2]; simp, fun omega => ?_, fun a b ha hab hb => ?_⟩
  · rw [h2]
    have := one_le_pow₀ (hge omega) (n := K)
    exact ⟨by positivity, inv_le_one_of_one_le₀ this⟩
  · rw [h2, h2]
    refine inv_strictAnti₀ (by have := one_le_pow₀ (hge a) (n := K); linarith) ?_
    refine pow_lt_pow_left₀ ?_ (by linarith [hge a]) hK.ne'
    have hc := Real.cos_lt_cos_of_nonneg_of_le_pi ha hb hab
    have : sigma seconds boundary fs ^ 2 * (1 - Real.cos a) / K <
        sigma seconds boundary fs ^ 2 * (1 - Real.cos b) / K := by
      refine div_lt_div_of_pos_right (mul_lt_mul_of_pos_left (by linarith) hs2) hKr
    linarith

/-- **C94**, width: the second derivative of the response at frequency zero is `-sigma²`, so
that the impulse response has the variance of the gaussian window, for every order. -/
theorem C94_variance (seconds boundary : ℝ) (K fs : ℕ) (hK : 0 < K)
    (hs : sigma seconds boundary fs ≠ 0) :
    ∃ sos, sections seconds boundary (2 * K) fs = .ok sos ∧ ∃ M' : ℝ → ℝ,
      (∀ omega, HasDerivAt (zeroPhase sos) (M' omega) omega) ∧
      M' 0 = 0 ∧ HasDerivAt M' (-sigma seconds boundary fs ^ 2) 0 := by
  obtain ⟨sos, h1, h2⟩ := C94_response seconds boundary K fs hK hs
  have hKr : (0 : ℝ) < K := by exact_mod_cast hK
  set c := sigma seconds boundary fs ^ 2 / K with hc
  have hc0 : 0 ≤ c := by positivity
  set P : ℝ → ℝ := fun omega => 1 + c * (1 - Real.cos omega) with hP
  have hPpos : ∀ omega, 0 < P omega := by
    intro omega
    have := Real.cos_le_one omega
    have : 0 ≤ c * (1 - Real.cos omega) := mul_nonneg hc0 (by linarith)
    simp only [hP]
    linarith
  have hM : zeroPhase sos = fun omega => (P omega ^ K)⁻¹ := by
    funext omega
    rw [h2]
    congr 2
    simp only [hP, hc]
    ring
  have hdP : ∀ omega, HasDerivAt P (c * Real.sin omega) omega := by
    intro omega
    have := (((Real.hasDerivAt_cos omega).const_sub 1).const_mul c).const_add 1
    simpa [hP] using this
  refine ⟨sos, h1, fun omega => -(K * P omega ^ (K - 1) * (c * Real.sin omega)) /
    (P omega ^ K) ^ 2, fun omega => ?_, by simp, ?_⟩
  · rw [hM]
    exact ((hdP omega).pow K).fun_inv (pow_pos (hPpos omega) K).ne'
  · have hP0 : P 0 = 1 := by simp [hP]
    have hd1 : HasDerivAt (fun omega => (K : ℝ) * P omega ^ (K - 1)) (K * (((K - 1 : ℕ) : ℝ) *
        P 0 ^ (K - 1 - 1) * (c * Real.sin 0))) 0 := ((hdP 0).pow (K - 1)).const_mul _
    have hd2 : HasDerivAt (fun omega => c * Real.sin omega) (c * Real.cos 0) 0 :=
      (Real.hasDerivAt_sin 0).const_mul c
    have hd3 : HasDerivAt (fun omega => (P omega ^ K) ^ 2) (((2 : ℕ) : ℝ) * (P 0 ^ K) ^ (2 - 1) *
        (K * P 0 ^ (K - 1) * (c * Real.sin 0))) 0 := ((hdP 0).pow K).pow 2
    have hd := ((hd1.mul hd2).neg).div hd3 (by rw [hP0]; simp)
    refine (hd.congr_deriv ?_)
    rw [hP0]
    simp only [Real.sin_zero, Real.cos_zero, hc]
    simp
    field_simp

/-- **C94**, definition of the width: the gaussian window with this `sigma` reaches the boundary
value after the given length. -/
theorem C94_boundary (seconds boundary : ℝ) (fs : ℕ) (hb : 0 < boundary) (hb1 : boundary < 1)
    (hlen : 0 < seconds) (hfs : 0 < fs) :
    sigma seconds boundary fs ≠ 0 ∧
    Real.exp (-(seconds * fs) ^ 2 / (2 * sigma seconds boundary fs ^ 2)) = boundary := by
  have hfr : (0 : ℝ) < fs := by exact_mod_cast hfs
  have hlog : 0 < 2 * Real.log (1 / boundary) := by
    have : 0 < Real.log (1 / boundary) := Real.log_pos (by rw [lt_div_iff₀ hb]; linarith)
    linarith
  have hsq : Real.sqrt (2 * Real.log (1 / boundary)) ^ 2 = 2 * Real.log (1 / boundary) :=
    Real.sq_sqrt hlog.le
  have hpos : 0 < Real.sqrt (2 * Real.log (1 / boundary)) := Real.sqrt_pos.mpr hlog
  constructor
  · unfold sigma
    positivity
  · have e : -(seconds * fs) ^ 2 / (2 * sigma seconds boundary fs ^ 2) = Real.log boundary := by
      unfold sigma
      rw [div_pow, hsq, one_div, Real.log_inv]
      have hne : Real.log boundary ≠ 0 := by
        have := Real.log_neg hb hb1
        exact this.ne
      field_simp
    rw [e, Real.exp_log hb]

/-- **C94**, order: the response decreases with the order at every frequency and tends to
`exp(-sigma² (1 - cos omega))`, which is therefore a lower bound for all orders.  (For low
frequencies this is close to the response `exp(-sigma² omega² / 2)` of the gaussian window; it is
not equal to it.) -/
theorem C94_order (seconds boundary : ℝ) (fs : ℕ) (hs : sigma seconds boundary fs ≠ 0) :
    ∃ sos : ℕ → List (List ℝ),
      (∀ K, 0 < K → sections seconds boundary (2 * K) fs = .ok (sos K)) ∧
      ∀ omega : ℝ,
        (∀ K, 0 < K → zeroPhase (sos (K + 1)) omega ≤ zeroPhase (sos K) omega) ∧
        (∀ K, 0 < K → Real.exp (-(sigma seconds boundary fs ^ 2 * (1 - Real.cos omega))) ≤
          zeroPhase (sos K) omega) ∧
        Filter.Tendsto (fun K => zeroPhase (sos K) omega) Filter.atTop
          (nhds (Real.exp (-(sigma seconds boundary fs ^ 2 * (1 - Real.cos omega))))) := by
  have hex : ∀ K : ℕ, ∃ sos, 0 < K → sections seconds boundary (2 * K) fs = .ok sos ∧
      ∀ omega : ℝ, zeroPhase sos omega =
      ((1 + sigma seconds boundary fs ^ 2 * (1 - Real.cos omega) / K) ^ K)⁻¹ := by
    intro K
    by_cases hK : 0 < K
    · obtain ⟨sos, h⟩ := C94_response seconds boundary K fs hK hs
      exact ⟨sos, fun _ => h⟩
    · exact ⟨[], fun h => absurd h hK⟩
  choose sos hsos using hex
  refine ⟨sos, fun K hK => (hsos K hK).1, fun omega => ?_⟩
  set t := sigma seconds boundary fs ^ 2 * (1 - Real.cos omega) with ht
  have ht0 : 0 ≤ t := mul_nonneg (sq_nonneg _) (by linarith [Real.cos_le_one omega])
  have hval : ∀ K, 0 < K → zeroPhase (sos K) omega = ((1 + t / K) ^ K)⁻¹ := fun K hK =>
    (hsos K hK).2 omega
  refine ⟨fun K hK => ?_, fun K hK => ?_, ?_⟩
  · rw [hval K hK, hval (K + 1) (by omega)]
    have hKr : (0 : ℝ) < K := by exact_mod_cast hK
    refine inv_anti₀ (by positivity) ?_
    have hb : 1 + ((K : ℝ) + 1) / K * (t / (K + 1)) ≤ (1 + t / (K + 1)) ^ (((K : ℝ) + 1) / K) :=
      one_add_mul_self_le_rpow_one_add (by have : 0 ≤ t / ((K : ℝ) + 1) := by positivity
                                           linarith) (by rw [le_div_iff₀ hKr]; linarith)
    have e : 1 + ((K : ℝ) + 1) / K * (t / (K + 1)) = 1 + t / K := by
      field_simp
    rw [e] at hb
    have h2 := pow_le_pow_left₀ (by positivity) hb K
    rw [← Real.rpow_natCast ((1 + t / ((K : ℝ) + 1)) ^ (((K : ℝ) + 1) / K)) K,
      ← Real.rpow_mul (by positivity), div_mul_cancel₀ _ hKr.ne'] at h2
    have h3 : (1 + t / ((K : ℝ) + 1)) ^ ((K : ℝ) + 1) = (1 + t / ((K + 1 : ℕ) : ℝ)) ^ (K + 1) := by
      rw [← Real.rpow_natCast _ (K + 1)]
      push_cast
      rfl
    rwa [h3] at h2
  · rw [hval K hK, Real.exp_neg]
    refine inv_anti₀ (by positivity) ?_
    have hKr : (0 : ℝ) < K := by exact_mod_cast hK
    have h1 : 1 + t / K ≤ Real.exp (t / K) := by linarith [Real.add_one_le_exp (t / K)]
    have h2 := pow_le_pow_left₀ (by positivity) h1 K
    rwa [← Real.exp_nat_mul, mul_div_cancel₀ _ hKr.ne'] at h2
  · have h1 := Real.tendsto_one_add_div_pow_exp t
    have h2 := h1.inv₀ (Real.exp_pos t).ne'
    rw [Real.exp_neg]
    refine h2.congr' ?_
    filter_upwards [Filter.eventually_gt_atTop 0] with K hK
    rw [hval K hK]

/-- Concrete case: 10 ms at 48 kHz, boundary value 1/100, order 12. -/
example : ∃ sos, sections 0.01 0.01 (2 * 6) 48000 = .ok sos ∧ zeroPhase sos 0 = 1 := by
  obtain ⟨sos, h1, h2, -⟩ := C94_smoothing 0.01 0.01 6 48000 (by norm_num)
    (C94_boundary 0.01 0.01 48000 (by norm_num) (by norm_num) (by norm_num) (by norm_num)).1
  exact ⟨sos, h1, h2⟩

end Verif.GaussianKernel

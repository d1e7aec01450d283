import Mathlib.Analysis.SpecialFunctions.Trigonometric.Deriv
import Mathlib.Analysis.SpecialFunctions.Trigonometric.DerivHyp
import Mathlib.Analysis.Calculus.Deriv.MeanValue
import Mathlib.Analysis.SpecialFunctions.Sqrt
import Mathlib.Analysis.SpecificLimits.Basic

/-!
# Two inequalities between trigonometric and hyperbolic functions
-/

namespace Verif.MatchedBiquad

open Real

/-- The cosine of the poles. -/
noncomputable def poleCos (q w : ℝ) : ℝ :=
  if q ≤ 1 then cos (√(1 - q ^ 2) * w) else cosh (√(q ^ 2 - 1) * w)

/-- Comparison for a linear equation of second order. -/
theorem comparison (G G1 G2 S S1 : ℝ → ℝ) (lam w : ℝ) (hw : 0 ≤ w)
    (hG : ∀ t, HasDerivAt G (G1 t) t) (hG1 : ∀ t, HasDerivAt G1 (G2 t) t)
    (hS : ∀ t, HasDerivAt S (S1 t) t) (hS1 : ∀ t, HasDerivAt S1 (-lam * S t) t)
    (h0 : G 0 = 0) (h1 : G1 0 = 0) (hS0 : S 0 = 0) (hS10 : 0 < S1 0)
    (hpos : ∀ t, 0 ≤ t → t ≤ w → 0 ≤ S t) (hneg : ∀ t, 0 ≤ t → t ≤ w → G2 t + lam * G t ≤ 0) : G w ≤ 0 := by
  have hd : ∀ t, HasDerivAt (fun t => G t * S1 (w - t) + G1 t * S (w - t)) ((G2 t + lam * G t) * S (w - t)) t := by
    intro t
    have hsub : HasDerivAt (fun t : ℝ => w - t) (-1) t := by
      simpa using (hasDerivAt_id t).const_sub w
    have a1 := (hS1 (w - t)).comp t hsub
    have a2 := (hS (w - t)).comp t hsub
    have := ((hG t).mul a1).add ((hG1 t).mul a2)
    refine this.congr_deriv ?_
    simp only [Function.comp]
    ring
  have hanti : AntitoneOn (fun t => G t * S1 (w - t) + G1 t * S (w - t)) (Set.Icc 0 w) := by
    refine antitoneOn_of_deriv_nonpos (convex_Icc 0 w) (fun t _ => (hd t).continuousAt.continuousWithinAt)
      (fun t _ => (hd t).differentiableAt.differentiableWithinAt) fun t ht => ?_
    rw [interior_Icc] at ht
    rw [(hd t).deriv]
    exact mul_nonpos_of_nonpos_of_nonneg (hneg t ht.1.le ht.2.le) (hpos _ (by linarith [ht.2]) (by linarith [ht.1]))
  have := hanti (Set.left_mem_Icc.2 hw) (Set.right_mem_Icc.2 hw) hw
  dsimp only at this
  rw [h0, h1, sub_self, hS0] at this
  simp only [zero_mul, mul_zero, add_zero] at this
  by_contra hc
  push Not at hc
  nlinarith [mul_pos hc hS10]

theorem hasDerivAt_cosh_mul (q t : ℝ) : HasDerivAt (fun t => cosh (q * t)) (q * sinh (q * t)) t := by
  have := (hasDerivAt_cosh (q * t)).comp t ((hasDerivAt_id t).const_mul q)
  refine this.congr_deriv ?_
  ring

theorem hasDerivAt_sinh_mul (q t : ℝ) : HasDerivAt (fun t => sinh (q * t)) (q * cosh (q * t)) t := by
  have := (hasDerivAt_sinh (q * t)).comp t ((hasDerivAt_id t).const_mul q)
  refine this.congr_deriv ?_
  ring

theorem hasDerivAt_cos_mul (q t : ℝ) : HasDerivAt (fun t => cos (q * t)) (-q * sin (q * t)) t := by
  have := (hasDerivAt_cos (q * t)).comp t ((hasDerivAt_id t).const_mul q)
  refine this.congr_deriv ?_
  ring

theorem hasDerivAt_sin_mul (q t : ℝ) : HasDerivAt (fun t => sin (q * t)) (q * cos (q * t)) t := by
  have := (hasDerivAt_sin (q * t)).comp t ((hasDerivAt_id t).const_mul q)
  refine this.congr_deriv ?_
  ring

/-- The first inequality, from the data of the comparison. -/
theorem cosh_mul_cos_le_aux (q w lam : ℝ) (hq : 0 < q) (hw : 0 < w) (hwπ : w < π) (C C1 S S1 : ℝ → ℝ)
    (hlam : lam = 1 - q ^ 2)
    (hC : ∀ t, HasDerivAt C (C1 t) t) (hC1 : ∀ t, HasDerivAt C1 (-lam * C t) t) (hC0 : C 0 = 1) (hC10 : C1 0 = 0)
    (hS : ∀ t, HasDerivAt S (S1 t) t) (hS1 : ∀ t, HasDerivAt S1 (-lam * S t) t)
    (hS0 : S 0 = 0) (hS10 : 0 < S1 0) (hpos : ∀ t, 0 ≤ t → t ≤ w → 0 ≤ S t) :
    cosh (q * w) * cos w ≤ C w := by
  have := comparison (fun t => cosh (q * t) * cos t - C t)
    (fun t => q * sinh (q * t) * cos t - cosh (q * t) * sin t - C1 t)
    (fun t => q * (q * cosh (q * t)) * cos t - q * sinh (q * t) * sin t -
      (q * sinh (q * t) * sin t + cosh (q * t) * cos t) - -lam * C t) S S1 lam w hw.le ?_ ?_ hS hS1 ?_ ?_ hS0 hS10 hpos ?_
  · linarith
  · intro t
    have := ((hasDerivAt_cosh_mul q t).mul (hasDerivAt_cos t)).sub (hC t)
    refine this.congr_deriv ?_
    ring
  · intro t
    have := ((((hasDerivAt_sinh_mul q t).const_mul q).mul (hasDerivAt_cos t)).sub
      ((hasDerivAt_cosh_mul q t).mul (hasDerivAt_sin t))).sub (hC1 t)
    refine this.congr_deriv ?_
    ring
  · simp [hC0]
  · simp [hC10]
  · intro t h0 h1
    have e : q * (q * cosh (q * t)) * cos t - q * sinh (q * t) * sin t -
      (q * sinh (q * t) * sin t + cosh (q * t) * cos t) - -lam * C t + lam * (cosh (q * t) * cos t - C t) =
        -(2 * q * (sinh (q * t) * sin t)) := by
      rw [hlam]; ring
    rw [e]
    have h2 : 0 ≤ sinh (q * t) := sinh_nonneg_iff.2 (by positivity)
    have h3 : 0 ≤ sin t := sin_nonneg_of_nonneg_of_le_pi h0 (by linarith)
    have : 0 ≤ 2 * q * (sinh (q * t) * sin t) := by positivity
    linarith

/-- The first inequality: the value of the bandpass at the Nyquist frequency. -/
theorem cosh_mul_cos_le (q w : ℝ) (hq : 0 < q) (hw : 0 < w) (hwπ : w < π) :
    cosh (q * w) * cos w ≤ poleCos q w := by
  unfold poleCos
  rcases lt_trichotomy q 1 with h | h | h
  · rw [if_pos h.le]
    have hk2 : √(1 - q ^ 2) ^ 2 = 1 - q ^ 2 := sq_sqrt (by nlinarith)
    have hk : 0 < √(1 - q ^ 2) := sqrt_pos.2 (by nlinarith)
    have hk1 : √(1 - q ^ 2) ≤ 1 := sqrt_le_one.2 (by nlinarith)
    generalize √(1 - q ^ 2) = k at *
    refine cosh_mul_cos_le_aux q w (k ^ 2) hq hw hwπ (fun t => cos (k * t)) (fun t => -k * sin (k * t))
      (fun t => sin (k * t)) (fun t => k * cos (k * t)) hk2 (hasDerivAt_cos_mul k) ?_ (by simp) (by simp)
      (hasDerivAt_sin_mul k) ?_ (by simp) (by simpa using hk) ?_
    · intro t
      refine ((hasDerivAt_sin_mul k t).const_mul (-k)).congr_deriv ?_
      ring
    · intro t
      refine ((hasDerivAt_cos_mul k t).const_mul k).congr_deriv ?_
      ring
    · intro t h0 h1
      refine sin_nonneg_of_nonneg_of_le_pi (by positivity) ?_
      nlinarith
  · subst h
    rw [if_pos le_rfl]
    refine (cosh_mul_cos_le_aux 1 w 0 one_pos hw hwπ (fun _ => 1) (fun _ => 0) (fun t => t) (fun _ => 1)
      (by norm_num) (fun t => hasDerivAt_const t 1) ?_ rfl rfl (fun t => hasDerivAt_id t) ?_ rfl one_pos ?_).trans
      (by simp)
    · intro t; simpa using hasDerivAt_const t (0 : ℝ)
    · intro t; simpa using hasDerivAt_const t (1 : ℝ)
    · intro t h0 _; exact h0
  · rw [if_neg (not_le.2 h)]
    have hk2 : √(q ^ 2 - 1) ^ 2 = q ^ 2 - 1 := sq_sqrt (by nlinarith)
    have hk : 0 < √(q ^ 2 - 1) := sqrt_pos.2 (by nlinarith)
    generalize √(q ^ 2 - 1) = k at *
    refine cosh_mul_cos_le_aux q w (-k ^ 2) hq hw hwπ (fun t => cosh (k * t)) (fun t => k * sinh (k * t))
      (fun t => sinh (k * t)) (fun t => k * cosh (k * t)) (by linarith) (hasDerivAt_cosh_mul k) ?_ (by simp) (by simp)
      (hasDerivAt_sinh_mul k) ?_ (by simp) (by simpa using hk) ?_
    · intro t
      refine ((hasDerivAt_sinh_mul k t).const_mul k).congr_deriv ?_
      ring
    · intro t
      refine ((hasDerivAt_cosh_mul k t).const_mul k).congr_deriv ?_
      ring
    · intro t h0 h1
      exact sinh_nonneg_iff.2 (by positivity)

/-! ### The second inequality -/

theorem sinh_eq (a b : ℝ) : Complex.sinh (a + b * Complex.I) =
    ((sinh a * cos b : ℝ) : ℂ) + ((cosh a * sin b : ℝ) : ℂ) * Complex.I := by
  rw [Complex.sinh_add, Complex.cosh_mul_I, Complex.sinh_mul_I]
  push_cast
  ring

theorem cosh_eq' (a b : ℝ) : Complex.cosh (a + b * Complex.I) =
    ((cosh a * cos b : ℝ) : ℂ) + ((sinh a * sin b : ℝ) : ℂ) * Complex.I := by
  rw [Complex.cosh_add, Complex.cosh_mul_I, Complex.sinh_mul_I]
  push_cast
  ring

theorem normSq_sinh (a b : ℝ) : ‖Complex.sinh (a + b * Complex.I)‖ ^ 2 = (cosh (2 * a) - cos (2 * b)) / 2 := by
  rw [sinh_eq, Complex.sq_norm, Complex.normSq_add_mul_I, cosh_two_mul, cos_two_mul]
  have h1 := cosh_sq a
  rw [mul_pow, mul_pow, h1, sin_sq]
  ring

theorem normSq_cosh (a b : ℝ) : ‖Complex.cosh (a + b * Complex.I)‖ ^ 2 = (cosh (2 * a) + cos (2 * b)) / 2 := by
  rw [cosh_eq', Complex.sq_norm, Complex.normSq_add_mul_I, cosh_two_mul, cos_two_mul]
  have h1 := cosh_sq a
  rw [mul_pow, mul_pow, h1, sin_sq]
  ring

/-- The pole `q + i k` times `t`. -/
noncomputable def ray (q k t : ℝ) : ℂ := ((q * t : ℝ) : ℂ) + ((k * t : ℝ) : ℂ) * Complex.I

theorem sinh_ray_ne (q k t : ℝ) (hq : 0 < q) (ht : 0 < t) : Complex.sinh (ray q k t) ≠ 0 := by
  intro h
  have := normSq_sinh (q * t) (k * t)
  rw [ray] at h
  rw [h, norm_zero] at this
  have h1 : 1 < cosh (2 * (q * t)) := one_lt_cosh.2 (by positivity)
  have h2 := cos_le_one (2 * (k * t))
  norm_num at this
  linarith

theorem cosh_ray_ne (q k t : ℝ) (hq : 0 < q) (ht : 0 < t) : Complex.cosh (ray q k t) ≠ 0 := by
  intro h
  have := normSq_cosh (q * t) (k * t)
  rw [ray] at h
  rw [h, norm_zero] at this
  have h1 : 1 < cosh (2 * (q * t)) := one_lt_cosh.2 (by positivity)
  have h2 := neg_one_le_cos (2 * (k * t))
  norm_num at this
  linarith

theorem tanh_le (q k t : ℝ) (hq : 0 < q) (hk : 0 ≤ k) (hqk : q ^ 2 + k ^ 2 = 1) (ht : 0 < t) (ht2 : 2 * t < π) :
    ‖Complex.sinh (ray q k t) / Complex.cosh (ray q k t)‖ ^ 2 ≤ sin t ^ 2 / cos t ^ 2 := by
  have hc : 0 < cos t := cos_pos_of_mem_Ioo ⟨by linarith, by linarith⟩
  have hn : 0 < ‖Complex.cosh (ray q k t)‖ ^ 2 := by
    have := cosh_ray_ne q k t hq ht
    positivity
  rw [norm_div, div_pow, div_le_div_iff₀ hn (by positivity), ray, normSq_sinh, normSq_cosh]
  have h1 := cosh_mul_cos_le q (2 * t) hq (by linarith) ht2
  have hq1 : q ≤ 1 := by nlinarith [sq_nonneg k]
  have hks : √(1 - q ^ 2) = k := by rw [← hqk, add_sub_cancel_left, sqrt_sq hk]
  rw [poleCos, if_pos hq1, hks] at h1
  rw [show q * (2 * t) = 2 * (q * t) by ring, show k * (2 * t) = 2 * (k * t) by ring, cos_two_mul t] at h1
  rw [sin_sq]
  nlinarith

/-- The quantity that grows by halving. -/
noncomputable def excess (q k t : ℝ) : ℝ := (1 / Complex.sinh (ray q k t) ^ 2).re + 1 / sin t ^ 2

theorem excess_double (q k t : ℝ) (hq : 0 < q) (hk : 0 ≤ k) (hqk : q ^ 2 + k ^ 2 = 1) (ht : 0 < t) (ht2 : 2 * t < π) :
    excess q k t / 4 ≤ excess q k (2 * t) := by
  have hc : 0 < cos t := cos_pos_of_mem_Ioo ⟨by linarith, by linarith⟩
  have hs : 0 < sin t := sin_pos_of_pos_of_lt_pi ht (by linarith)
  have hC := cosh_ray_ne q k t hq ht
  have hS := sinh_ray_ne q k t hq ht
  have hr : ray q k (2 * t) = 2 * ray q k t := by
    unfold ray; push_cast; ring
  have e1 : 1 / Complex.sinh (ray q k (2 * t)) ^ 2 = ((1 / 4 : ℝ) : ℂ) * (1 / Complex.sinh (ray q k t) ^ 2 -
      (1 - (Complex.sinh (ray q k t) / Complex.cosh (ray q k t)) ^ 2)) := by
    rw [hr, Complex.sinh_two_mul]
    have := Complex.cosh_sq_sub_sinh_sq (ray q k t)
    push_cast
    field_simp
    linear_combination (4 * Complex.sinh (ray q k t) ^ 2 - 4) * this
  have e2 : 1 / sin (2 * t) ^ 2 = 1 / 4 * (1 / sin t ^ 2 + (1 + sin t ^ 2 / cos t ^ 2)) := by
    rw [sin_two_mul]
    have := sin_sq_add_cos_sq t
    field_simp
    linear_combination (-4 * sin t ^ 2 - 4) * this
  have h1 := tanh_le q k t hq hk hqk ht ht2
  have h2 : -((Complex.sinh (ray q k t) / Complex.cosh (ray q k t)) ^ 2).re ≤
      ‖Complex.sinh (ray q k t) / Complex.cosh (ray q k t)‖ ^ 2 := by
    rw [← norm_pow]
    exact (neg_le_abs _).trans (Complex.abs_re_le_norm _)
  unfold excess
  rw [e1, e2, Complex.re_ofReal_mul, Complex.sub_re, Complex.sub_re, Complex.one_re]
  linarith

theorem excess_pow (q k t : ℝ) (hq : 0 < q) (hk : 0 ≤ k) (hqk : q ^ 2 + k ^ 2 = 1) (ht : 0 < t) (ht2 : t < π) (n : ℕ) :
    excess q k (t / 2 ^ n) / 4 ^ n ≤ excess q k t := by
  induction n with
  | zero => simp
  | succ n ih =>
    refine le_trans ?_ ih
    have h1 := excess_double q k (t / 2 ^ (n + 1)) hq hk hqk (by positivity) (by
      rw [pow_succ]
      have : t / 2 ^ n ≤ t := div_le_self ht.le (one_le_pow₀ (by norm_num))
      have e : 2 * (t / (2 ^ n * 2)) = t / 2 ^ n := by field_simp
      linarith)
    rw [show 2 * (t / 2 ^ (n + 1)) = t / 2 ^ n by rw [pow_succ]; field_simp] at h1
    rw [pow_succ (4 : ℝ), ← div_div, div_right_comm]
    exact div_le_div_of_nonneg_right h1 (by positivity)

theorem tendsto_sinh_div : Filter.Tendsto (fun z : ℂ => z / Complex.sinh z) (nhdsWithin 0 {0}ᶜ) (nhds 1) := by
  have h := (Complex.hasDerivAt_sinh 0).tendsto_slope
  simp only [Complex.cosh_zero] at h
  have := h.inv₀ one_ne_zero
  rw [inv_one] at this
  refine this.congr fun z => ?_
  simp [slope_def_field]

theorem tendsto_sin_div : Filter.Tendsto (fun z : ℝ => z / sin z) (nhdsWithin 0 {0}ᶜ) (nhds 1) := by
  have h := (hasDerivAt_sin 0).tendsto_slope
  simp only [cos_zero] at h
  have := h.inv₀ one_ne_zero
  rw [inv_one] at this
  refine this.congr fun z => ?_
  simp [slope_def_field]

theorem tendsto_halves (t : ℝ) (ht : 0 < t) :
    Filter.Tendsto (fun n : ℕ => t / 2 ^ n) Filter.atTop (nhdsWithin 0 {0}ᶜ) := by
  refine tendsto_nhdsWithin_iff.2 ⟨?_, Filter.Eventually.of_forall fun n => ?_⟩
  · have := (tendsto_pow_atTop_nhds_zero_of_lt_one (by norm_num : (0 : ℝ) ≤ 1 / 2) (by norm_num)).const_mul t
    rw [mul_zero] at this
    refine this.congr fun n => ?_
    rw [div_pow, one_pow]; ring
  · have : t / 2 ^ n ≠ 0 := by positivity
    exact this

theorem ray_ne (q k t : ℝ) (hq : 0 < q) (ht : 0 < t) : ray q k t ≠ 0 := by
  intro h
  have := congrArg Complex.re h
  rw [ray] at this
  simp at this
  rcases this with h | h
  · exact hq.ne' h
  · exact ht.ne' h

theorem excess_nonneg (q k t : ℝ) (hq : 0 < q) (hk : 0 ≤ k) (hqk : q ^ 2 + k ^ 2 = 1) (ht : 0 < t) (ht2 : t < π) :
    0 ≤ excess q k t := by
  have hlim : Filter.Tendsto (fun n : ℕ => excess q k (t / 2 ^ n) / 4 ^ n) Filter.atTop
      (nhds ((1 / ray q k t ^ 2 * 1 ^ 2).re + 1 / t ^ 2 * 1 ^ 2)) := by
    have hray : ∀ n : ℕ, ray q k (t / 2 ^ n) = ray q k t / 2 ^ n := by
      intro n; unfold ray; push_cast; ring
    have h1 : Filter.Tendsto (fun n : ℕ => ray q k (t / 2 ^ n)) Filter.atTop (nhdsWithin 0 {0}ᶜ) := by
      refine tendsto_nhdsWithin_iff.2 ⟨?_, Filter.Eventually.of_forall fun n => ?_⟩
      · have hcont : Continuous (ray q k) := by
          unfold ray; fun_prop
        have h0 := hcont.tendsto 0
        have e0 : ray q k 0 = 0 := by simp [ray]
        rw [e0] at h0
        exact h0.comp ((tendsto_halves t ht).mono_right nhdsWithin_le_nhds)
      · exact ray_ne q k _ hq (by positivity)
    have h2 := ((tendsto_sinh_div.comp h1).pow 2).const_mul (1 / ray q k t ^ 2)
    have h3 := ((tendsto_sin_div.comp (tendsto_halves t ht)).pow 2).const_mul (1 / t ^ 2)
    have h4 := ((Complex.continuous_re.tendsto _).comp h2).add h3
    refine h4.congr fun n => ?_
    simp only [Function.comp]
    unfold excess
    have hS := sinh_ray_ne q k (t / 2 ^ n) hq (by positivity)
    have hr := ray_ne q k t hq ht
    have e1 : 1 / ray q k t ^ 2 * (ray q k (t / 2 ^ n) / Complex.sinh (ray q k (t / 2 ^ n))) ^ 2 =
        ((1 / 4 ^ n : ℝ) : ℂ) * (1 / Complex.sinh (ray q k (t / 2 ^ n)) ^ 2) := by
      rw [div_pow, hray n, div_pow, ← hray n, ← pow_mul, mul_comm n 2, pow_mul]
      push_cast
      norm_num
      field_simp
    have e2 : 1 / t ^ 2 * (t / 2 ^ n / sin (t / 2 ^ n)) ^ 2 = 1 / 4 ^ n * (1 / sin (t / 2 ^ n) ^ 2) := by
      rw [div_pow, div_pow, ← pow_mul, mul_comm n 2, pow_mul]
      norm_num
      field_simp
    rw [e1, e2, Complex.re_ofReal_mul]
    ring
  have hge := le_of_tendsto' hlim (excess_pow q k t hq hk hqk ht ht2)
  refine le_trans ?_ hge
  have hnr : ‖ray q k t‖ ^ 2 = t ^ 2 := by
    rw [ray, Complex.sq_norm, Complex.normSq_add_mul_I]
    linear_combination t ^ 2 * hqk
  have h1 : -(1 / ray q k t ^ 2).re ≤ 1 / t ^ 2 := by
    refine ((neg_le_abs _).trans (Complex.abs_re_le_norm _)).trans ?_
    rw [norm_div, norm_pow, hnr, norm_one]
  simp only [one_pow, mul_one]
  linarith

/-- The second inequality: the slope of the bandpass at 0 Hz. -/
theorem pole_slope (q w : ℝ) (hq : 0 < q) (hw : 0 < w) (hwπ : w < π) :
    0 ≤ (cosh (q * w) - poleCos q w) ^ 2 + (cosh (q * w) * poleCos q w - 1) * (1 - cos w) := by
  unfold poleCos
  split_ifs with h
  · have hk2 : √(1 - q ^ 2) ^ 2 = 1 - q ^ 2 := sq_sqrt (by nlinarith)
    have hk := sqrt_nonneg (1 - q ^ 2)
    generalize √(1 - q ^ 2) = k at *
    have := excess_nonneg q k (w / 2) hq hk (by linarith) (by linarith) (by linarith)
    unfold excess at this
    have hS := sinh_ray_ne q k (w / 2) hq (by linarith)
    have hsin : 2 * sin (w / 2) ^ 2 = 1 - cos w := by
      rw [show w = 2 * (w / 2) by ring, cos_two_mul, show 2 * (w / 2) / 2 = w / 2 by ring, cos_sq']
      ring
    have hsp : 0 < 1 - cos w := by
      rw [← hsin]
      have := sin_pos_of_pos_of_lt_pi (x := w / 2) (by linarith) (by linarith)
      positivity
    have hsq : Complex.sinh (ray q k (w / 2)) ^ 2 = (((cosh (q * w) * cos (k * w) - 1) / 2 : ℝ) : ℂ) +
        ((sinh (q * w) * sin (k * w) / 2 : ℝ) : ℂ) * Complex.I := by
      have h1 := Complex.cosh_two_mul (ray q k (w / 2))
      rw [Complex.cosh_sq] at h1
      have h2 : 2 * ray q k (w / 2) = ((q * w : ℝ) : ℂ) + ((k * w : ℝ) : ℂ) * Complex.I := by
        unfold ray; push_cast; ring
      rw [h2, cosh_eq'] at h1
      push_cast at h1 ⊢
      linear_combination -h1 / 2
    have hns : Complex.normSq (Complex.sinh (ray q k (w / 2)) ^ 2) = ((cosh (q * w) - cos (k * w)) / 2) ^ 2 := by
      rw [map_pow, ← Complex.sq_norm, ray, normSq_sinh, show 2 * (q * (w / 2)) = q * w by ring,
        show 2 * (k * (w / 2)) = k * w by ring]
    rw [one_div, Complex.inv_re, hns, hsq, Complex.add_re, Complex.ofReal_re, Complex.re_ofReal_mul, Complex.I_re] at this
    have hKC : 0 < cosh (q * w) - cos (k * w) := by
      have h1 : 1 < cosh (q * w) := one_lt_cosh.2 (by positivity)
      have h2 := cos_le_one (k * w)
      linarith
    have e : 1 / sin (w / 2) ^ 2 = 2 / (1 - cos w) := by
      rw [← hsin]; field_simp
    rw [e, mul_zero, add_zero] at this
    generalize cosh (q * w) - cos (k * w) = d at *
    generalize cosh (q * w) * cos (k * w) - 1 = m at *
    generalize 1 - cos w = s at *
    have h2 : m / 2 / (d / 2) ^ 2 + 2 / s = 2 / (d ^ 2 * s) * (d ^ 2 + m * s) := by
      field_simp
      ring
    rw [h2] at this
    exact nonneg_of_mul_nonneg_right this (by positivity)
  · have h1 := one_le_cosh (q * w)
    have h2 := one_le_cosh (√(q ^ 2 - 1) * w)
    have h3 := cos_le_one w
    have h4 : 0 ≤ (cosh (q * w) * cosh (√(q ^ 2 - 1) * w) - 1) * (1 - cos w) :=
      mul_nonneg (by nlinarith) (by linarith)
    positivity

end Verif.MatchedBiquad

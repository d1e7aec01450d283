import Verif.Lemmas.MatchedExistence
import Mathlib.Analysis.SpecialFunctions.Trigonometric.Bounds

/-!
# The inequality behind the matched low pass
-/

namespace Verif.MatchedBiquad

open Real

/-- The direction of the pole. -/
noncomputable def dir (q k : ℝ) : ℂ := (q : ℂ) + (k : ℂ) * Complex.I

theorem ray_eq (q k t : ℝ) : ray q k t = dir q k * t := by
  unfold ray dir; push_cast; ring

theorem norm_dir (q k : ℝ) (hqk : q ^ 2 + k ^ 2 = 1) : ‖dir q k‖ = 1 := by
  have : ‖dir q k‖ ^ 2 = 1 := by rw [dir, Complex.sq_norm, Complex.normSq_add_mul_I, hqk]
  exact (pow_eq_one_iff_of_nonneg (norm_nonneg _) two_ne_zero).1 this

theorem dir_sq (q k : ℝ) (hqk : q ^ 2 + k ^ 2 = 1) : dir q k ^ 2 + 1 = 2 * q * dir q k := by
  have h : ((q ^ 2 + k ^ 2 : ℝ) : ℂ) = 1 := by rw [hqk]; rfl
  push_cast at h
  unfold dir
  linear_combination -h + (k : ℂ) ^ 2 * Complex.I_sq

/-- `tanh² - (i tan)²` -/
noncomputable def tdiff (q k t : ℝ) : ℂ :=
  (Complex.sinh (ray q k t) / Complex.cosh (ray q k t)) ^ 2 + ((sin t / cos t : ℝ) : ℂ) ^ 2

/-- `t tan t / cos² t` -/
noncomputable def tbound (t : ℝ) : ℝ := t * (sin t / cos t) * (1 + (sin t / cos t) ^ 2)

theorem tan_double (t : ℝ) (hc : 0 < cos t) (hc2 : 0 < cos (2 * t)) :
    sin (2 * t) / cos (2 * t) = 2 * (sin t / cos t) / (1 - (sin t / cos t) ^ 2) := by
  have h2 : cos (2 * t) = cos t ^ 2 - sin t ^ 2 := by rw [cos_two_mul, sin_sq]; ring
  rw [h2] at hc2
  rw [h2, sin_two_mul]
  have : 1 - (sin t / cos t) ^ 2 = (cos t ^ 2 - sin t ^ 2) / cos t ^ 2 := by field_simp
  rw [this]
  field_simp

/-- One doubling. -/
theorem tdiff_double (q k t : ℝ) (hq : 0 < q) (hk : 0 ≤ k) (hqk : q ^ 2 + k ^ 2 = 1) (ht : 0 < t) (ht4 : 4 * t < π) :
    ‖tdiff q k (2 * t)‖ * tbound t ≤ ‖tdiff q k t‖ * tbound (2 * t) := by
  have hc : 0 < cos t := cos_pos_of_mem_Ioo ⟨by linarith, by linarith⟩
  have hc2 : 0 < cos (2 * t) := cos_pos_of_mem_Ioo ⟨by linarith, by linarith⟩
  have hs : 0 < sin t := sin_pos_of_pos_of_lt_pi ht (by linarith)
  have hC := cosh_ray_ne q k t hq ht
  have hC2 := cosh_ray_ne q k (2 * t) hq (by linarith)
  have hle := tanh_le q k t hq hk hqk ht (by linarith)
  have hr : ray q k (2 * t) = 2 * ray q k t := by
    unfold ray; push_cast; ring
  rw [hr, Complex.cosh_two_mul] at hC2
  have e1 : Complex.sinh (ray q k (2 * t)) / Complex.cosh (ray q k (2 * t)) =
      2 * (Complex.sinh (ray q k t) / Complex.cosh (ray q k t)) /
        (1 + (Complex.sinh (ray q k t) / Complex.cosh (ray q k t)) ^ 2) := by
    rw [hr, Complex.sinh_two_mul, Complex.cosh_two_mul]
    have : 1 + (Complex.sinh (ray q k t) / Complex.cosh (ray q k t)) ^ 2 =
        (Complex.cosh (ray q k t) ^ 2 + Complex.sinh (ray q k t) ^ 2) / Complex.cosh (ray q k t) ^ 2 := by
      field_simp
    rw [this]
    field_simp
  have hT : sin t ^ 2 / cos t ^ 2 < 1 := by
    rw [div_lt_one (by positivity)]
    have : cos (2 * t) = cos t ^ 2 - sin t ^ 2 := by rw [cos_two_mul, sin_sq]; ring
    linarith
  unfold tdiff tbound
  rw [e1, tan_double t hc hc2]
  have hT0 : 0 < sin t / cos t := by positivity
  rw [← div_pow] at hle hT
  generalize Complex.sinh (ray q k t) / Complex.cosh (ray q k t) = z at *
  generalize sin t / cos t = x at *
  have hz : ‖z ^ 2‖ ≤ x ^ 2 := by rw [norm_pow]; exact hle
  have hx : 0 < 1 - x ^ 2 := by linarith
  have h1 : 1 - x ^ 2 ≤ ‖1 + z ^ 2‖ := by
    have := norm_sub_norm_le (1 : ℂ) (-z ^ 2)
    rw [norm_one, norm_neg, sub_neg_eq_add] at this
    linarith
  have hz1 : 1 + z ^ 2 ≠ 0 := by
    intro h; rw [h, norm_zero] at h1; linarith
  have hx1 : (1 : ℂ) - (x : ℂ) ^ 2 ≠ 0 := by
    have : (((1 - x ^ 2 : ℝ)) : ℂ) ≠ 0 := by exact_mod_cast hx.ne'
    push_cast at this; exact this
  have h2 : ‖1 + z ^ 2 * (x : ℂ) ^ 2‖ ≤ (1 + x ^ 2) * ‖1 + z ^ 2‖ := by
    have e : 1 + z ^ 2 * (x : ℂ) ^ 2 = ((x ^ 2 : ℝ) : ℂ) * (1 + z ^ 2) + ((1 - x ^ 2 : ℝ) : ℂ) := by
      push_cast; ring
    rw [e]
    refine (norm_add_le _ _).trans ?_
    rw [norm_mul, Complex.norm_real, Complex.norm_real, Real.norm_of_nonneg (by positivity),
      Real.norm_of_nonneg hx.le]
    linarith
  have e2 : (2 * z / (1 + z ^ 2)) ^ 2 + ((2 * x / (1 - x ^ 2) : ℝ) : ℂ) ^ 2 =
      4 * (z ^ 2 + (x : ℂ) ^ 2) * (1 + z ^ 2 * (x : ℂ) ^ 2) / ((1 + z ^ 2) ^ 2 * (1 - (x : ℂ) ^ 2) ^ 2) := by
    push_cast
    field_simp
    ring
  have hn : ‖(1 : ℂ) - (x : ℂ) ^ 2‖ = 1 - x ^ 2 := by
    have : (1 : ℂ) - (x : ℂ) ^ 2 = ((1 - x ^ 2 : ℝ) : ℂ) := by push_cast; ring
    rw [this, Complex.norm_real, Real.norm_of_nonneg hx.le]
  rw [e2, norm_div, norm_mul, norm_mul, norm_mul, norm_pow, norm_pow (1 - (x : ℂ) ^ 2), hn]
  norm_num
  have e3 : 2 * t * (2 * x / (1 - x ^ 2)) * (1 + (2 * x / (1 - x ^ 2)) ^ 2) =
      4 * (t * x * (1 + x ^ 2)) * ((1 + x ^ 2) / (1 - x ^ 2) ^ 3) := by
    field_simp
    ring
  rw [e3]
  have h3 : ‖1 + z ^ 2 * (x : ℂ) ^ 2‖ / (‖1 + z ^ 2‖ ^ 2 * (1 - x ^ 2) ^ 2) ≤ (1 + x ^ 2) / (1 - x ^ 2) ^ 3 := by
    have hN : 0 < ‖1 + z ^ 2‖ := norm_pos_iff.2 hz1
    rw [div_le_div_iff₀ (by positivity) (by positivity)]
    calc ‖1 + z ^ 2 * (x : ℂ) ^ 2‖ * (1 - x ^ 2) ^ 3
        ≤ ((1 + x ^ 2) * ‖1 + z ^ 2‖) * (1 - x ^ 2) ^ 3 := mul_le_mul_of_nonneg_right h2 (by positivity)
      _ = (1 + x ^ 2) * (‖1 + z ^ 2‖ * (1 - x ^ 2) * (1 - x ^ 2) ^ 2) := by ring
      _ ≤ (1 + x ^ 2) * (‖1 + z ^ 2‖ * ‖1 + z ^ 2‖ * (1 - x ^ 2) ^ 2) := by gcongr
      _ = (1 + x ^ 2) * (‖1 + z ^ 2‖ ^ 2 * (1 - x ^ 2) ^ 2) := by ring
  calc _ = 4 * (t * x * (1 + x ^ 2)) * ‖z ^ 2 + (x : ℂ) ^ 2‖ *
        (‖1 + z ^ 2 * (x : ℂ) ^ 2‖ / (‖1 + z ^ 2‖ ^ 2 * (1 - x ^ 2) ^ 2)) := by ring
    _ ≤ 4 * (t * x * (1 + x ^ 2)) * ‖z ^ 2 + (x : ℂ) ^ 2‖ * ((1 + x ^ 2) / (1 - x ^ 2) ^ 3) :=
        mul_le_mul_of_nonneg_left h3 (by positivity)
    _ = _ := by ring

theorem tbound_pos (t : ℝ) (ht : 0 < t) (ht2 : 2 * t < π) : 0 < tbound t := by
  have hc : 0 < cos t := cos_pos_of_mem_Ioo ⟨by linarith, by linarith⟩
  have hs : 0 < sin t := sin_pos_of_pos_of_lt_pi ht (by linarith)
  unfold tbound
  positivity

theorem half_lt (t : ℝ) (ht : 0 < t) (n : ℕ) : t / 2 ^ n ≤ t := div_le_self ht.le (one_le_pow₀ (by norm_num))

theorem tdiff_pow (q k t : ℝ) (hq : 0 < q) (hk : 0 ≤ k) (hqk : q ^ 2 + k ^ 2 = 1) (ht : 0 < t) (ht2 : 2 * t < π) (n : ℕ) :
    ‖tdiff q k t‖ / tbound t ≤ ‖tdiff q k (t / 2 ^ n)‖ / tbound (t / 2 ^ n) := by
  induction n with
  | zero => simp
  | succ n ih =>
    refine ih.trans ?_
    have e : 2 * (t / 2 ^ (n + 1)) = t / 2 ^ n := by rw [pow_succ]; field_simp
    have h1 := tdiff_double q k (t / 2 ^ (n + 1)) hq hk hqk (by positivity) (by
      have := half_lt t ht n
      linarith)
    rw [e] at h1
    rw [div_le_div_iff₀ (tbound_pos _ (by positivity) (by have := half_lt t ht n; linarith))
      (tbound_pos _ (by positivity) (by have := half_lt t ht (n + 1); linarith))]
    exact h1

theorem tendsto_ray (q k t : ℝ) (hq : 0 < q) (ht : 0 < t) :
    Filter.Tendsto (fun n : ℕ => ray q k (t / 2 ^ n)) Filter.atTop (nhdsWithin 0 {0}ᶜ) := by
  refine tendsto_nhdsWithin_iff.2 ⟨?_, Filter.Eventually.of_forall fun n => ?_⟩
  · have hcont : Continuous (ray q k) := by
      unfold ray; fun_prop
    have h0 := hcont.tendsto 0
    have e0 : ray q k 0 = 0 := by simp [ray]
    rw [e0] at h0
    exact h0.comp ((tendsto_halves t ht).mono_right nhdsWithin_le_nhds)
  · exact ray_ne q k _ hq (by positivity)

/-- `z / sinh z` and `cosh z` along the halves. -/
theorem tendsto_parts (q k t : ℝ) (hq : 0 < q) (ht : 0 < t) :
    Filter.Tendsto (fun n : ℕ => ray q k (t / 2 ^ n) / Complex.sinh (ray q k (t / 2 ^ n))) Filter.atTop (nhds 1) ∧
    Filter.Tendsto (fun n : ℕ => Complex.cosh (ray q k (t / 2 ^ n))) Filter.atTop (nhds 1) ∧
    Filter.Tendsto (fun n : ℕ => (t / 2 ^ n) / sin (t / 2 ^ n)) Filter.atTop (nhds 1) ∧
    Filter.Tendsto (fun n : ℕ => cos (t / 2 ^ n)) Filter.atTop (nhds 1) := by
  refine ⟨tendsto_sinh_div.comp (tendsto_ray q k t hq ht), ?_, tendsto_sin_div.comp (tendsto_halves t ht), ?_⟩
  · have h : Continuous Complex.cosh := Complex.continuous_cosh
    have := (h.tendsto 0).comp ((tendsto_ray q k t hq ht).mono_right nhdsWithin_le_nhds)
    rw [Complex.cosh_zero] at this
    exact this
  · have := (continuous_cos.tendsto 0).comp ((tendsto_halves t ht).mono_right nhdsWithin_le_nhds)
    rw [cos_zero] at this
    exact this

/-- The bound of the difference. -/
theorem tdiff_le (q k t : ℝ) (hq : 0 < q) (hk : 0 ≤ k) (hqk : q ^ 2 + k ^ 2 = 1) (ht : 0 < t) (ht2 : 2 * t < π) :
    ‖tdiff q k t‖ ≤ 2 * q * tbound t := by
  obtain ⟨p1, p2, p3, p4⟩ := tendsto_parts q k t hq ht
  have p4' : Filter.Tendsto (fun n : ℕ => ((cos (t / 2 ^ n) : ℝ) : ℂ)) Filter.atTop (nhds ((1 : ℝ) : ℂ)) :=
    (Complex.continuous_ofReal.tendsto _).comp p4
  have p3' : Filter.Tendsto (fun n : ℕ => (((t / 2 ^ n) / sin (t / 2 ^ n) : ℝ) : ℂ)) Filter.atTop
      (nhds ((1 : ℝ) : ℂ)) := (Complex.continuous_ofReal.tendsto _).comp p3
  have hlim : Filter.Tendsto (fun n : ℕ => ‖tdiff q k (t / 2 ^ n)‖ / tbound (t / 2 ^ n)) Filter.atTop
      (nhds (‖dir q k ^ 2 * ((1 : ℂ)⁻¹ * (1 : ℂ)⁻¹) ^ 2 + (((1 : ℝ) : ℂ)⁻¹ * ((1 : ℝ) : ℂ)⁻¹) ^ 2‖ /
        (((1 : ℝ)⁻¹ * (1 : ℝ)⁻¹) * ((1 : ℝ)⁻¹ ^ 2)))) := by
    have n1 := (((p1.inv₀ one_ne_zero).mul (p2.inv₀ one_ne_zero)).pow 2).const_mul (dir q k ^ 2)
    have n2 := ((p3'.inv₀ (by simp)).mul (p4'.inv₀ (by simp))).pow 2
    have n3 := ((p3.inv₀ one_ne_zero).mul (p4.inv₀ one_ne_zero)).mul ((p4.inv₀ one_ne_zero).pow 2)
    refine ((n1.add n2).norm.div n3 (by simp)).congr fun n => ?_
    simp only [Pi.div_apply]
    have hu : 0 < t / 2 ^ n := by positivity
    have hu2 : 2 * (t / 2 ^ n) < π := by have := half_lt t ht n; linarith
    generalize t / 2 ^ n = u at *
    have hc : 0 < cos u := cos_pos_of_mem_Ioo ⟨by linarith, by linarith⟩
    have hs : 0 < sin u := sin_pos_of_pos_of_lt_pi hu (by linarith)
    have hC := cosh_ray_ne q k u hq hu
    have hS := sinh_ray_ne q k u hq hu
    have hcC : ((cos u : ℝ) : ℂ) ≠ 0 := by exact_mod_cast hc.ne'
    have huC : (u : ℂ) ≠ 0 := by exact_mod_cast hu.ne'
    have hd : dir q k ≠ 0 := by
      intro h; have := ray_ne q k u hq hu; rw [ray_eq, h, zero_mul] at this; exact this rfl
    have e1 : dir q k ^ 2 * ((ray q k u / Complex.sinh (ray q k u))⁻¹ * (Complex.cosh (ray q k u))⁻¹) ^ 2 +
        ((((u / sin u : ℝ)) : ℂ)⁻¹ * ((cos u : ℝ) : ℂ)⁻¹) ^ 2 = tdiff q k u / ((u ^ 2 : ℝ) : ℂ) := by
      unfold tdiff
      have : ray q k u / Complex.sinh (ray q k u) = dir q k * u / Complex.sinh (ray q k u) := by rw [← ray_eq]
      rw [this]
      push_cast
      field_simp
    have e2 : (u / sin u)⁻¹ * (cos u)⁻¹ * ((cos u)⁻¹ ^ 2) = tbound u / u ^ 2 := by
      unfold tbound
      have : 1 + (sin u / cos u) ^ 2 = (cos u)⁻¹ ^ 2 := by
        field_simp
        linarith [sin_sq_add_cos_sq u]
      rw [this]
      field_simp
    rw [e1, e2, norm_div, Complex.norm_real, Real.norm_of_nonneg (by positivity)]
    field_simp
  have hle := ge_of_tendsto' hlim (tdiff_pow q k t hq hk hqk ht ht2)
  have e : ‖dir q k ^ 2 * ((1 : ℂ)⁻¹ * (1 : ℂ)⁻¹) ^ 2 + (((1 : ℝ) : ℂ)⁻¹ * ((1 : ℝ) : ℂ)⁻¹) ^ 2‖ /
        (((1 : ℝ)⁻¹ * (1 : ℝ)⁻¹) * ((1 : ℝ)⁻¹ ^ 2)) = 2 * q := by
    have : dir q k ^ 2 * ((1 : ℂ)⁻¹ * (1 : ℂ)⁻¹) ^ 2 + (((1 : ℝ) : ℂ)⁻¹ * ((1 : ℝ) : ℂ)⁻¹) ^ 2 = ((2 * q : ℝ) : ℂ) * dir q k := by
      push_cast
      linear_combination dir_sq q k hqk
    rw [this, norm_mul, norm_dir q k hqk, Complex.norm_real, Real.norm_of_nonneg (by positivity)]
    norm_num
  rw [e, div_le_iff₀ (tbound_pos t ht ht2)] at hle
  exact hle

/-! ### The difference of the cosecants -/

/-- `csch² + csc²` -/
noncomputable def adiff (q k t : ℝ) : ℂ := 1 / Complex.sinh (ray q k t) ^ 2 + ((1 / sin t ^ 2 : ℝ) : ℂ)

/-- What remains of the projected difference. -/
noncomputable def rest (q k t : ℝ) : ℝ := (dir q k * adiff q k t).re - 2 * q * (t * cos t / sin t ^ 3)

theorem rest_double (q k t : ℝ) (hq : 0 < q) (hk : 0 ≤ k) (hqk : q ^ 2 + k ^ 2 = 1) (ht : 0 < t) (ht2 : 2 * t < π) :
    rest q k t / 4 ≤ rest q k (2 * t) := by
  have hc : 0 < cos t := cos_pos_of_mem_Ioo ⟨by linarith, by linarith⟩
  have hs : 0 < sin t := sin_pos_of_pos_of_lt_pi ht (by linarith)
  have hC := cosh_ray_ne q k t hq ht
  have hS := sinh_ray_ne q k t hq ht
  have hsC : ((sin t : ℝ) : ℂ) ≠ 0 := by exact_mod_cast hs.ne'
  have hcC : ((cos t : ℝ) : ℂ) ≠ 0 := by exact_mod_cast hc.ne'
  have hr : ray q k (2 * t) = 2 * ray q k t := by
    unfold ray; push_cast; ring
  have e2 : 1 / sin (2 * t) ^ 2 = 1 / 4 * (1 / sin t ^ 2 + (1 + (sin t / cos t) ^ 2)) := by
    rw [sin_two_mul]
    have := sin_sq_add_cos_sq t
    field_simp
    linear_combination (-4 * sin t ^ 2 - 4) * this
  have e1 : adiff q k (2 * t) = ((1 / 4 : ℝ) : ℂ) * (adiff q k t + tdiff q k t) := by
    unfold adiff tdiff
    rw [e2, hr, Complex.sinh_two_mul]
    have := Complex.cosh_sq_sub_sinh_sq (ray q k t)
    have h1 : 1 / (2 * Complex.sinh (ray q k t) * Complex.cosh (ray q k t)) ^ 2 = 1 / 4 * (1 / Complex.sinh (ray q k t) ^ 2 -
      (1 - (Complex.sinh (ray q k t) / Complex.cosh (ray q k t)) ^ 2)) := by
      field_simp
      linear_combination (4 * Complex.sinh (ray q k t) ^ 2 - 4) * this
    rw [h1]
    push_cast
    ring
  have e3 : 2 * t * cos (2 * t) / sin (2 * t) ^ 3 = 1 / 4 * (t * cos t / sin t ^ 3 - tbound t) := by
    unfold tbound
    have h1 : 1 + (sin t / cos t) ^ 2 = 1 / cos t ^ 2 := by
      field_simp
      linarith [sin_sq_add_cos_sq t]
    have h2 : cos (2 * t) = cos t ^ 4 - sin t ^ 4 := by
      have := sin_sq_add_cos_sq t
      rw [cos_two_mul]
      have h3 : sin t ^ 2 = 1 - cos t ^ 2 := by linarith
      have : sin t ^ 4 = (1 - cos t ^ 2) ^ 2 := by rw [← h3]; ring
      rw [this]; ring
    rw [h1, h2, sin_two_mul]
    field_simp
    ring
  have h1 := tdiff_le q k t hq hk hqk ht ht2
  have h2 : -(dir q k * tdiff q k t).re ≤ ‖tdiff q k t‖ := by
    have := (neg_le_abs _).trans (Complex.abs_re_le_norm (dir q k * tdiff q k t))
    rwa [norm_mul, norm_dir q k hqk, one_mul] at this
  unfold rest
  rw [e1, e3, mul_left_comm, Complex.re_ofReal_mul, mul_add, Complex.add_re]
  linarith

theorem rest_pow (q k t : ℝ) (hq : 0 < q) (hk : 0 ≤ k) (hqk : q ^ 2 + k ^ 2 = 1) (ht : 0 < t) (ht2 : t < π) (n : ℕ) :
    rest q k (t / 2 ^ n) / 4 ^ n ≤ rest q k t := by
  induction n with
  | zero => simp
  | succ n ih =>
    refine le_trans ?_ ih
    have e : 2 * (t / 2 ^ (n + 1)) = t / 2 ^ n := by rw [pow_succ]; field_simp
    have h1 := rest_double q k (t / 2 ^ (n + 1)) hq hk hqk (by positivity) (by
      rw [e]
      have := half_lt t ht n
      linarith)
    rw [e] at h1
    rw [pow_succ (4 : ℝ), ← div_div, div_right_comm]
    exact div_le_div_of_nonneg_right h1 (by positivity)

theorem rest_nonneg (q k t : ℝ) (hq : 0 < q) (hk : 0 ≤ k) (hqk : q ^ 2 + k ^ 2 = 1) (ht : 0 < t) (ht2 : 2 * t < π) :
    0 ≤ rest q k t := by
  obtain ⟨p1, p2, p3, p4⟩ := tendsto_parts q k t hq ht
  have hlim : Filter.Tendsto (fun n : ℕ => rest q k (t / 2 ^ n) / 4 ^ n) Filter.atTop
      (nhds ((dir q k * (1 / ray q k t ^ 2 * 1 ^ 2 + ((1 / t ^ 2 * 1 ^ 2 : ℝ) : ℂ))).re -
        2 * q * (1 / t ^ 2) * (1 ^ 3 * 1))) := by
    have n1 := (p1.pow 2).const_mul (1 / ray q k t ^ 2)
    have n2 := (Complex.continuous_ofReal.tendsto _).comp ((p3.pow 2).const_mul (1 / t ^ 2))
    have n3 := (Complex.continuous_re.tendsto _).comp ((n1.add n2).const_mul (dir q k))
    have n4 := ((p3.pow 3).mul p4).const_mul (2 * q * (1 / t ^ 2))
    refine (n3.sub n4).congr fun n => ?_
    simp only [Function.comp]
    have hu : 0 < t / 2 ^ n := by positivity
    have hu2 : 2 * (t / 2 ^ n) < π := by have := half_lt t ht n; linarith
    have hray : ray q k (t / 2 ^ n) = ray q k t / 2 ^ n := by
      unfold ray; push_cast; ring
    have h4 : t ^ 2 = (t / 2 ^ n) ^ 2 * 4 ^ n := by
      rw [div_pow, ← pow_mul, mul_comm n 2, pow_mul]
      norm_num
    have hr4 : ray q k t ^ 2 = ray q k (t / 2 ^ n) ^ 2 * ((4 ^ n : ℝ) : ℂ) := by
      rw [hray, div_pow, ← pow_mul, mul_comm n 2, pow_mul]
      push_cast
      norm_num
    rw [h4, hr4]
    generalize t / 2 ^ n = u at *
    have hc : 0 < cos u := cos_pos_of_mem_Ioo ⟨by linarith, by linarith⟩
    have hs : 0 < sin u := sin_pos_of_pos_of_lt_pi hu (by linarith)
    have hS := sinh_ray_ne q k u hq hu
    have hru := ray_ne q k u hq hu
    have hpos : (0 : ℝ) < 4 ^ n := by positivity
    generalize (4 : ℝ) ^ n = m at *
    have hm : (m : ℂ) ≠ 0 := by exact_mod_cast hpos.ne'
    have e1 : 1 / (ray q k u ^ 2 * (m : ℂ)) * (ray q k u / Complex.sinh (ray q k u)) ^ 2 +
        ((1 / (u ^ 2 * m) * (u / sin u) ^ 2 : ℝ) : ℂ) = ((1 / m : ℝ) : ℂ) * adiff q k u := by
      have e2 : 1 / (u ^ 2 * m) * (u / sin u) ^ 2 = 1 / m * (1 / sin u ^ 2) := by field_simp
      rw [e2]
      unfold adiff
      push_cast
      field_simp
    rw [e1, mul_left_comm, Complex.re_ofReal_mul]
    unfold rest
    field_simp
  have hge := le_of_tendsto' hlim (rest_pow q k t hq hk hqk ht (by linarith))
  refine le_trans (le_of_eq ?_) hge
  have hd : dir q k ≠ 0 := by
    intro h; have := norm_dir q k hqk; rw [h, norm_zero] at this; exact zero_ne_one this
  have htC : (t : ℂ) ≠ 0 := by exact_mod_cast ht.ne'
  have e : dir q k * (1 / ray q k t ^ 2 * 1 ^ 2 + ((1 / t ^ 2 * 1 ^ 2 : ℝ) : ℂ)) = ((2 * q * (1 / t ^ 2) : ℝ) : ℂ) := by
    rw [ray_eq]
    push_cast
    field_simp
    linear_combination dir_sq q k hqk
  rw [e, Complex.ofReal_re]
  ring

theorem adiff_ge (q k t : ℝ) (hq : 0 < q) (hk : 0 ≤ k) (hqk : q ^ 2 + k ^ 2 = 1) (ht : 0 < t) (ht2 : 2 * t < π) :
    2 * q * cos t / sin t ^ 2 ≤ ‖adiff q k t‖ := by
  have hc : 0 < cos t := cos_pos_of_mem_Ioo ⟨by linarith, by linarith⟩
  have hs : 0 < sin t := sin_pos_of_pos_of_lt_pi ht (by linarith)
  have h := rest_nonneg q k t hq hk hqk ht ht2
  unfold rest at h
  have h1 := Complex.re_le_norm (dir q k * adiff q k t)
  rw [norm_mul, norm_dir q k hqk, one_mul] at h1
  have h2 : 2 * q * cos t / sin t ^ 2 ≤ 2 * q * (t * cos t / sin t ^ 3) := by
    rw [← mul_div_assoc, div_le_div_iff₀ (by positivity) (by positivity)]
    have h3 : sin t ≤ t := sin_le ht.le
    have h4 : 2 * q * cos t * sin t ^ 2 * sin t ≤ 2 * q * cos t * sin t ^ 2 * t :=
      mul_le_mul_of_nonneg_left h3 (by positivity)
    linarith [h4]
  linarith

/-! ### Real poles -/

theorem csch_double (x : ℝ) (hx : 0 < x) : (1 / sinh x ^ 2 + 1 / 3) / 4 ≤ 1 / sinh (2 * x) ^ 2 + 1 / 3 := by
  have hs : 0 < sinh x := sinh_pos_iff.2 hx
  have hc := one_le_cosh x
  have e : 1 / sinh (2 * x) ^ 2 = 1 / 4 * (1 / sinh x ^ 2 - 1 / cosh x ^ 2) := by
    rw [sinh_two_mul]
    have := cosh_sq x
    field_simp
    linear_combination (-4 : ℝ) * this
  have h1 : 1 / cosh x ^ 2 ≤ 1 := by
    rw [div_le_one (by positivity)]
    exact one_le_pow₀ hc
  rw [e]
  linarith

theorem csch_pow (x : ℝ) (hx : 0 < x) (n : ℕ) :
    (1 / sinh (x / 2 ^ n) ^ 2 + 1 / 3) / 4 ^ n ≤ 1 / sinh x ^ 2 + 1 / 3 := by
  induction n with
  | zero => simp
  | succ n ih =>
    refine le_trans ?_ ih
    have e : 2 * (x / 2 ^ (n + 1)) = x / 2 ^ n := by rw [pow_succ]; field_simp
    have h1 := csch_double (x / 2 ^ (n + 1)) (by positivity)
    rw [e] at h1
    rw [pow_succ (4 : ℝ), ← div_div, div_right_comm]
    exact div_le_div_of_nonneg_right h1 (by positivity)

theorem tendsto_rsinh_div : Filter.Tendsto (fun z : ℝ => z / sinh z) (nhdsWithin 0 {0}ᶜ) (nhds 1) := by
  have h := (hasDerivAt_sinh 0).tendsto_slope
  simp only [cosh_zero] at h
  have := h.inv₀ one_ne_zero
  rw [inv_one] at this
  refine this.congr fun z => ?_
  simp [slope_def_field]

theorem csch_ge (x : ℝ) (hx : 0 < x) : 1 / x ^ 2 ≤ 1 / sinh x ^ 2 + 1 / 3 := by
  have hlim : Filter.Tendsto (fun n : ℕ => (1 / sinh (x / 2 ^ n) ^ 2 + 1 / 3) / 4 ^ n) Filter.atTop
      (nhds (1 / x ^ 2 * 1 ^ 2 + 1 / 3 * 0)) := by
    have n1 := ((tendsto_rsinh_div.comp (tendsto_halves x hx)).pow 2).const_mul (1 / x ^ 2)
    have n2 := (tendsto_pow_atTop_nhds_zero_of_lt_one (by norm_num : (0 : ℝ) ≤ 1 / 4) (by norm_num)).const_mul (1 / 3)
    refine (n1.add n2).congr fun n => ?_
    simp only [Function.comp]
    have hs : 0 < sinh (x / 2 ^ n) := sinh_pos_iff.2 (by positivity)
    have h4 : x ^ 2 = (x / 2 ^ n) ^ 2 * 4 ^ n := by
      rw [div_pow, ← pow_mul, mul_comm n 2, pow_mul]
      norm_num
    rw [h4, div_pow 1 4, one_pow]
    have hu : 0 < x / 2 ^ n := by positivity
    generalize x / 2 ^ n = u at *
    field_simp
  have := le_of_tendsto' hlim (csch_pow x hx)
  simpa using this

theorem single (a r : ℝ) (ha : 0 < a) (hr : 0 < r) (hr2 : 2 * r < π) :
    (1 + 1 / a ^ 2) * cos r * sinh (a * r) ^ 2 ≤ sinh (a * r) ^ 2 + sin r ^ 2 := by
  have hs : 0 < sinh (a * r) := sinh_pos_iff.2 (by positivity)
  have hc : 0 < cos r := cos_pos_of_mem_Ioo ⟨by linarith, by linarith⟩
  have h1 := csch_ge (a * r) (by positivity)
  have h2 : r ^ 2 * cos r ≤ sin r ^ 2 := by
    have hx : 0 < cos (r / 2) := cos_pos_of_mem_Ioo ⟨by linarith, by linarith⟩
    have ht : r / 2 * cos (r / 2) ≤ sin (r / 2) := by
      have := le_tan (x := r / 2) (by linarith) (by linarith)
      rw [tan_eq_sin_div_cos, le_div_iff₀ hx] at this
      exact this
    have e1 : sin r = 2 * sin (r / 2) * cos (r / 2) := by
      rw [← sin_two_mul]; congr 1; ring
    have e2 : cos r = 2 * cos (r / 2) ^ 2 - 1 := by
      rw [← cos_two_mul]; congr 1; ring
    have h3 : (r / 2 * cos (r / 2)) ^ 2 ≤ sin (r / 2) ^ 2 := pow_le_pow_left₀ (by positivity) ht 2
    rw [e1, e2]
    have h4 : 4 * cos (r / 2) ^ 2 * (r / 2 * cos (r / 2)) ^ 2 ≤ 4 * cos (r / 2) ^ 2 * sin (r / 2) ^ 2 :=
      mul_le_mul_of_nonneg_left h3 (by positivity)
    nlinarith [mul_nonneg (sq_nonneg r) (sq_nonneg (cos (r / 2) ^ 2 - 1))]
  have h5 : sin r ^ 2 * (sinh (a * r) ^ 2 * (1 / (a * r) ^ 2)) ≤
      sin r ^ 2 * (sinh (a * r) ^ 2 * (1 / sinh (a * r) ^ 2 + 1 / 3)) := by gcongr
  have e5 : sinh (a * r) ^ 2 * (1 / sinh (a * r) ^ 2 + 1 / 3) = 1 + sinh (a * r) ^ 2 / 3 := by field_simp
  rw [e5] at h5
  have h6 : cos r / a ^ 2 ≤ sin r ^ 2 * (1 / (a * r) ^ 2) := by
    rw [mul_one_div, div_le_div_iff₀ (by positivity) (by positivity)]
    nlinarith [mul_le_mul_of_nonneg_left h2 (sq_nonneg a)]
  have h7 : 0 ≤ 1 - cos r - sin r ^ 2 / 3 := by
    rw [sin_sq]
    nlinarith [cos_le_one r]
  have h8 : 0 ≤ sinh (a * r) ^ 2 * ((sin r ^ 2 * (1 / (a * r) ^ 2) - cos r / a ^ 2) + (1 - cos r - sin r ^ 2 / 3)) :=
    mul_nonneg (by positivity) (by linarith)
  have e9 : (1 + 1 / a ^ 2) * cos r * sinh (a * r) ^ 2 = sinh (a * r) ^ 2 * (cos r + cos r / a ^ 2) := by ring
  rw [e9]
  nlinarith

/-- The inequality of the low pass. -/
theorem lowpass_ineq (q w : ℝ) (hq : 0 < q) (hw : 0 < w) (hwπ : w < π) :
    2 * q ^ 2 * (1 + cos w) * (cosh (q * w) - poleCos q w) ^ 2 ≤
      (poleCos q w - cosh (q * w) * cos w) ^ 2 + sinh (q * w) ^ 2 * sin w ^ 2 := by
  have hcw : cos w = 2 * cos (w / 2) ^ 2 - 1 := by rw [← cos_two_mul]; congr 1; ring
  have hsin : 1 - cos w = 2 * sin (w / 2) ^ 2 := by rw [hcw, sin_sq]; ring
  have hs : 0 < sin (w / 2) := sin_pos_of_pos_of_lt_pi (by linarith) (by linarith)
  have hc : 0 < cos (w / 2) := cos_pos_of_mem_Ioo ⟨by linarith, by linarith⟩
  unfold poleCos
  split_ifs with h
  · have hk2 : √(1 - q ^ 2) ^ 2 = 1 - q ^ 2 := sq_sqrt (by nlinarith)
    have hk := sqrt_nonneg (1 - q ^ 2)
    generalize √(1 - q ^ 2) = k at *
    have hA := adiff_ge q k (w / 2) hq hk (by linarith) (by linarith) (by linarith)
    have hS := sinh_ray_ne q k (w / 2) hq (by linarith)
    have hsC : ((sin (w / 2) : ℝ) : ℂ) ≠ 0 := by exact_mod_cast hs.ne'
    have e1 : adiff q k (w / 2) = (Complex.cosh (((q * w : ℝ) : ℂ) + ((k * w : ℝ) : ℂ) * Complex.I) - ((cos w : ℝ) : ℂ)) /
        (2 * Complex.sinh (ray q k (w / 2)) ^ 2 * ((sin (w / 2) ^ 2 : ℝ) : ℂ)) := by
      have h2 : ((q * w : ℝ) : ℂ) + ((k * w : ℝ) : ℂ) * Complex.I = 2 * ray q k (w / 2) := by
        unfold ray; push_cast; ring
      have h3 : ((cos w : ℝ) : ℂ) = 1 - 2 * ((sin (w / 2) : ℝ) : ℂ) ^ 2 := by
        rw [show cos w = 1 - 2 * sin (w / 2) ^ 2 by linarith]; push_cast; ring
      rw [h2, Complex.cosh_two_mul, Complex.cosh_sq, h3]
      unfold adiff
      generalize sin (w / 2) = x at *
      push_cast
      field_simp
      ring
    have e2 : ‖Complex.sinh (ray q k (w / 2))‖ ^ 2 = (cosh (q * w) - cos (k * w)) / 2 := by
      rw [ray, normSq_sinh, show 2 * (q * (w / 2)) = q * w by ring, show 2 * (k * (w / 2)) = k * w by ring]
    have hM : 0 < cosh (q * w) - cos (k * w) := by
      have h1 : 1 < cosh (q * w) := one_lt_cosh.2 (by positivity)
      have h2 := cos_le_one (k * w)
      linarith
    rw [e1, norm_div, norm_mul, norm_mul, norm_pow, e2, Complex.norm_real, Real.norm_of_nonneg (by positivity),
      show ‖(2 : ℂ)‖ = 2 by norm_num, div_le_div_iff₀ (by positivity) (by positivity)] at hA
    have hA2 : 2 * q * cos (w / 2) * (cosh (q * w) - cos (k * w)) ≤
        ‖Complex.cosh (((q * w : ℝ) : ℂ) + ((k * w : ℝ) : ℂ) * Complex.I) - ((cos w : ℝ) : ℂ)‖ := by
      have h3 : 0 < sin (w / 2) ^ 2 := by positivity
      refine le_of_mul_le_mul_right ?_ h3
      linarith
    have hsq := pow_le_pow_left₀ (by positivity) hA2 2
    rw [cosh_eq', add_sub_right_comm, ← Complex.ofReal_sub, Complex.sq_norm, Complex.normSq_add_mul_I] at hsq
    have e3 : (cosh (q * w) * cos (k * w) - cos w) ^ 2 + (sinh (q * w) * sin (k * w)) ^ 2 =
        (cos (k * w) - cosh (q * w) * cos w) ^ 2 + sinh (q * w) ^ 2 * sin w ^ 2 := by
      rw [mul_pow, sin_sq, sin_sq, sinh_sq]
      ring
    rw [e3] at hsq
    refine le_trans (le_of_eq ?_) hsq
    rw [hcw]
    ring
  · push Not at h
    have hk2 : √(q ^ 2 - 1) ^ 2 = q ^ 2 - 1 := sq_sqrt (by nlinarith)
    have hk0 := sqrt_nonneg (q ^ 2 - 1)
    generalize √(q ^ 2 - 1) = k at *
    have hkq : k < q := by nlinarith
    have hab : (q + k) * (q - k) = 1 := by linear_combination -hk2
    have ha : 0 < q + k := by positivity
    have hb : 0 < q - k := by linarith
    have s1 := single (q + k) (w / 2) ha (by linarith) (by linarith)
    have s2 := single (q - k) (w / 2) hb (by linarith) (by linarith)
    have e1 : 2 * sinh ((q + k) * (w / 2)) ^ 2 = cosh (q * w) * cosh (k * w) + sinh (q * w) * sinh (k * w) - 1 := by
      rw [← cosh_add, show q * w + k * w = 2 * ((q + k) * (w / 2)) by ring, cosh_two_mul, cosh_sq]
      ring
    have e2 : 2 * sinh ((q - k) * (w / 2)) ^ 2 = cosh (q * w) * cosh (k * w) - sinh (q * w) * sinh (k * w) - 1 := by
      rw [← cosh_sub, show q * w - k * w = 2 * ((q - k) * (w / 2)) by ring, cosh_two_mul, cosh_sq]
      ring
    have e3 : (1 + 1 / (q + k) ^ 2) * (1 + 1 / (q - k) ^ 2) = 4 * q ^ 2 := by
      have h1 : 1 / (q + k) = q - k := by rw [div_eq_iff ha.ne']; linarith
      have h2 : 1 / (q - k) = q + k := by rw [div_eq_iff hb.ne']; linarith
      rw [← one_div_pow, ← one_div_pow, h1, h2]
      linear_combination (-(q + k) * (q - k) + 1 - 2 + 2 * (q+k)*(q-k)) * hab
    have hmul := mul_le_mul s1 s2 (by positivity) (by positivity)
    have e4 : (1 + 1 / (q + k) ^ 2) * cos (w / 2) * sinh ((q + k) * (w / 2)) ^ 2 *
        ((1 + 1 / (q - k) ^ 2) * cos (w / 2) * sinh ((q - k) * (w / 2)) ^ 2) =
        q ^ 2 * cos (w / 2) ^ 2 * ((2 * sinh ((q + k) * (w / 2)) ^ 2) * (2 * sinh ((q - k) * (w / 2)) ^ 2)) := by
      linear_combination (cos (w / 2) ^ 2 * sinh ((q + k) * (w / 2)) ^ 2 * sinh ((q - k) * (w / 2)) ^ 2) * e3
    have e5 : (sinh ((q + k) * (w / 2)) ^ 2 + sin (w / 2) ^ 2) * (sinh ((q - k) * (w / 2)) ^ 2 + sin (w / 2) ^ 2) =
        1 / 4 * ((2 * sinh ((q + k) * (w / 2)) ^ 2 + (1 - cos w)) * (2 * sinh ((q - k) * (w / 2)) ^ 2 + (1 - cos w))) := by
      rw [hsin]; ring
    rw [e4, e5, e1, e2] at hmul
    have e6 := cosh_sq (q * w)
    have e7 := cosh_sq (k * w)
    have e8 : (cosh (q * w) * cosh (k * w) + sinh (q * w) * sinh (k * w) - 1) *
        (cosh (q * w) * cosh (k * w) - sinh (q * w) * sinh (k * w) - 1) = (cosh (q * w) - cosh (k * w)) ^ 2 := by
      have h1 : sinh (q * w) ^ 2 = cosh (q * w) ^ 2 - 1 := by linarith
      have h2 : sinh (k * w) ^ 2 = cosh (k * w) ^ 2 - 1 := by linarith
      linear_combination (-sinh (k * w) ^ 2) * h1 - (cosh (q * w) ^ 2 - 1) * h2
    have e9 : (cosh (q * w) * cosh (k * w) + sinh (q * w) * sinh (k * w) - 1 + (1 - cos w)) *
        (cosh (q * w) * cosh (k * w) - sinh (q * w) * sinh (k * w) - 1 + (1 - cos w)) =
        (cosh (k * w) - cosh (q * w) * cos w) ^ 2 + sinh (q * w) ^ 2 * sin w ^ 2 := by
      have h1 : sinh (q * w) ^ 2 = cosh (q * w) ^ 2 - 1 := by linarith
      have h2 : sinh (k * w) ^ 2 = cosh (k * w) ^ 2 - 1 := by linarith
      rw [sin_sq]
      linear_combination (-sinh (k * w) ^ 2) * h1 - (cosh (q * w) ^ 2 - 1) * h2 - (1 - cos w ^ 2) * h1
    rw [e8, e9] at hmul
    rw [hcw] at *
    linarith

end Verif.MatchedBiquad

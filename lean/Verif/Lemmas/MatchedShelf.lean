import Verif.Lemmas.MatchedLowpass
import Verif.Model.MatchedBiquad
import Mathlib.Analysis.SpecialFunctions.Log.Deriv
import Mathlib.Analysis.Real.Pi.Bounds

/-!
# The inequalities behind the matched shelves
-/

namespace Verif.MatchedBiquad

open Real

/-- `1 / y - cot y` -/
noncomputable def cotRest (y : ℝ) : ℝ := 1 / y - cos y / sin y

theorem cotRest_double (u : ℝ) (hu : 0 < u) (hu2 : 2 * u < π) :
    cotRest (2 * u) = 1 / 2 * cotRest u + 1 / 2 * (sin u / cos u) := by
  have hc : 0 < cos u := cos_pos_of_mem_Ioo ⟨by linarith, by linarith⟩
  have hs : 0 < sin u := sin_pos_of_pos_of_lt_pi hu (by linarith)
  unfold cotRest
  have h2 : cos (2 * u) = cos u ^ 2 - sin u ^ 2 := by rw [cos_two_mul, sin_sq]; ring
  rw [h2, sin_two_mul]
  field_simp
  ring

theorem cotRest_tendsto (y : ℝ) (hy : 0 < y) (c : ℝ) :
    Filter.Tendsto (fun n : ℕ => (cotRest (y / 2 ^ n) - c * (y / 2 ^ n)) / 2 ^ n) Filter.atTop (nhds 0) := by
  obtain ⟨-, -, p3, p4⟩ := tendsto_parts 1 0 y one_pos hy
  have n1 := (((p3.mul p4).const_sub 1).const_mul (1 / y))
  have n2 := (tendsto_pow_atTop_nhds_zero_of_lt_one (by norm_num : (0 : ℝ) ≤ 1 / 4) (by norm_num)).const_mul (c * y)
  have h := n1.sub n2
  have e : 1 / y * (1 - 1 * 1) - c * y * 0 = 0 := by ring
  rw [e] at h
  refine h.congr fun n => ?_
  have e1 : c * y * (1 / 4) ^ n = c * (y / 2 ^ n) / 2 ^ n := by
    rw [one_div_pow, mul_div_assoc, div_div, ← mul_pow]
    norm_num
    ring
  have hu : 0 < y / 2 ^ n := by positivity
  have e2 : 1 / y = 1 / (y / 2 ^ n) / 2 ^ n := by field_simp
  rw [e1, e2]
  unfold cotRest
  generalize y / 2 ^ n = u at *
  field_simp

/-- An upper bound of the cotangent's remainder from one of the tangent. -/
theorem cotRest_le (m Y y : ℝ) (hY : Y < π) (hm : ∀ u, 0 < u → 2 * u ≤ Y → sin u / cos u ≤ m * u) (hy : 0 < y)
    (hyY : y ≤ Y) : cotRest y ≤ m / 3 * y := by
  have hstep : ∀ n : ℕ, cotRest y - m / 3 * y ≤ (cotRest (y / 2 ^ n) - m / 3 * (y / 2 ^ n)) / 2 ^ n := by
    intro n
    induction n with
    | zero => simp
    | succ n ih =>
      refine ih.trans ?_
      have e : 2 * (y / 2 ^ (n + 1)) = y / 2 ^ n := by rw [pow_succ]; field_simp
      have hle := half_lt y hy n
      have h1 := cotRest_double (y / 2 ^ (n + 1)) (by positivity) (by rw [e]; linarith)
      have h2 := hm (y / 2 ^ (n + 1)) (by positivity) (by rw [e]; linarith)
      rw [e] at h1
      have e4 : ∀ a : ℝ, a / 2 ^ (n + 1) = a / 2 / 2 ^ n := by
        intro a; rw [pow_succ, div_div, mul_comm]
      rw [h1, ← e, e4 (_ - _)]
      refine div_le_div_of_nonneg_right ?_ (by positivity)
      linarith
  have := ge_of_tendsto' (cotRest_tendsto y hy (m / 3)) hstep
  linarith

theorem cotRest_ge (y : ℝ) (hy : 0 < y) (hyπ : y < π) : 1 / 3 * y ≤ cotRest y := by
  have hstep : ∀ n : ℕ, (cotRest (y / 2 ^ n) - 1 / 3 * (y / 2 ^ n)) / 2 ^ n ≤ cotRest y - 1 / 3 * y := by
    intro n
    induction n with
    | zero => simp
    | succ n ih =>
      refine le_trans ?_ ih
      have e : 2 * (y / 2 ^ (n + 1)) = y / 2 ^ n := by rw [pow_succ]; field_simp
      have hle := half_lt y hy n
      have h1 := cotRest_double (y / 2 ^ (n + 1)) (by positivity) (by rw [e]; linarith)
      have h2 := le_tan (x := y / 2 ^ (n + 1)) (by positivity) (by linarith)
      rw [tan_eq_sin_div_cos] at h2
      rw [e] at h1
      have e4 : ∀ a : ℝ, a / 2 ^ (n + 1) = a / 2 / 2 ^ n := by
        intro a; rw [pow_succ, div_div, mul_comm]
      rw [h1, ← e, e4 (_ - _)]
      refine div_le_div_of_nonneg_right ?_ (by positivity)
      linarith
  have := le_of_tendsto' (cotRest_tendsto y hy (1 / 3)) hstep
  linarith

theorem tan_of_cotRest (y c : ℝ) (hy : 0 < y) (hy2 : 2 * y < π) (h : cotRest y ≤ c * y) (hc : c * y ^ 2 < 1) :
    sin y / cos y ≤ y / (1 - c * y ^ 2) := by
  have hc' : 0 < cos y := cos_pos_of_mem_Ioo ⟨by linarith, by linarith⟩
  have hs : 0 < sin y := sin_pos_of_pos_of_lt_pi hy (by linarith)
  unfold cotRest at h
  rw [div_le_div_iff₀ hc' (by linarith)]
  have h1 : 1 / y - c * y ≤ cos y / sin y := by linarith
  rw [le_div_iff₀ hs] at h1
  have h2 : (1 / y - c * y) * sin y * y ≤ cos y * y := mul_le_mul_of_nonneg_right h1 hy.le
  have e : (1 / y - c * y) * sin y * y = sin y * (1 - c * y ^ 2) := by field_simp
  rw [e] at h2
  linarith

theorem tan_small (u : ℝ) (hu : 0 < u) (hu2 : u ≤ 0.301) : sin u / cos u ≤ 1.0476 * u := by
  have hc := one_sub_sq_div_two_le_cos (x := u)
  have hs := sin_le hu.le
  have : 0.9546 ≤ cos u := by nlinarith
  rw [div_le_iff₀ (by linarith)]
  nlinarith [mul_le_mul_of_nonneg_left this hu.le]

theorem tan_medium (u : ℝ) (hu : 0 < u) (hu2 : u ≤ 0.602) : sin u / cos u ≤ 1.146 * u := by
  have hp := pi_gt_three
  have h1 := cotRest_le 1.0476 0.602 u (by linarith) (fun v hv hv2 => tan_small v hv (by linarith)) hu hu2
  have hlt : 1.0476 / 3 * u ^ 2 ≤ 0.1266 := by nlinarith
  have h2 := tan_of_cotRest u _ hu (by linarith) h1 (by linarith)
  refine h2.trans ?_
  rw [div_le_iff₀ (by linarith)]
  nlinarith

/-- An upper bound of the tangent up to 1.204. -/
theorem tan_large (y : ℝ) (hy : 0 < y) (hy2 : y ≤ 1.204) : sin y / cos y ≤ y / (1 - 0.382 * y ^ 2) := by
  have hp := pi_gt_three
  have h1 := cotRest_le 1.146 1.204 y (by linarith) (fun v hv hv2 => tan_medium v hv (by linarith)) hy hy2
  have h1' : cotRest y ≤ 0.382 * y := h1.trans (by norm_num)
  exact tan_of_cotRest y 0.382 hy (by linarith) h1' (by nlinarith)

/-- A lower bound of the tangent. -/
theorem tan_lower (y : ℝ) (hy : 0 < y) (hy2 : 2 * y < π) : y * (1 + y ^ 2 / 3) ≤ sin y / cos y := by
  have hc' : 0 < cos y := cos_pos_of_mem_Ioo ⟨by linarith, by linarith⟩
  have hs : 0 < sin y := sin_pos_of_pos_of_lt_pi hy (by linarith)
  have h := cotRest_ge y hy (by linarith)
  unfold cotRest at h
  have h1 : cos y / sin y ≤ 1 / y - 1 / 3 * y := by linarith
  rw [div_le_iff₀ hs] at h1
  rw [le_div_iff₀ hc']
  have h2 : cos y * y ≤ (1 / y - 1 / 3 * y) * sin y * y := mul_le_mul_of_nonneg_right h1 hy.le
  have e : (1 / y - 1 / 3 * y) * sin y * y = sin y * (1 - y ^ 2 / 3) := by field_simp
  rw [e] at h2
  have h3 : cos y * y * (1 + y ^ 2 / 3) ≤ sin y * (1 - y ^ 2 / 3) * (1 + y ^ 2 / 3) :=
    mul_le_mul_of_nonneg_right h2 (by positivity)
  nlinarith [mul_nonneg hs.le (sq_nonneg (y ^ 2))]

/-! ### The matching frequencies -/

theorem match1_sq (fc : ℝ) : match1 fc ^ 2 = fc ^ 2 / (0.16 + 1.543 * fc ^ 2) := by
  unfold match1
  rw [div_pow, sq_sqrt (by positivity)]

theorem match2_sq (fc : ℝ) : match2 fc ^ 2 = fc ^ 2 / (0.947 + 3.806 * fc ^ 2) := by
  unfold match2
  rw [div_pow, sq_sqrt (by positivity)]

theorem match_bounds (fc : ℝ) (h0 : 0 < fc) (h1 : fc < 1) :
    0 < match2 fc ∧ match2 fc < match1 fc ∧ match1 fc < 0.7664 := by
  have p1 : 0 < 0.16 + 1.543 * fc ^ 2 := by positivity
  have p2 : 0 < 0.947 + 3.806 * fc ^ 2 := by positivity
  have m1 : 0 < match1 fc := div_pos h0 (sqrt_pos.2 p1)
  have m2 : 0 < match2 fc := div_pos h0 (sqrt_pos.2 p2)
  refine ⟨m2, ?_, ?_⟩
  · refine lt_of_pow_lt_pow_left₀ 2 m1.le ?_
    rw [match1_sq, match2_sq]
    refine div_lt_div_of_pos_left (by positivity) p1 (by nlinarith)
  · refine lt_of_pow_lt_pow_left₀ 2 (by norm_num) ?_
    rw [match1_sq, div_lt_iff₀ p1]
    nlinarith

theorem clear (X T : ℝ) (hX : X ≠ 0) : (1 - (1 / X) ^ 2) * T / (1 / X) ^ 2 = (X ^ 2 - 1) * T := by
  field_simp

theorem second_upper (X P T : ℝ) (hX : 1.703 < X) (hP0 : 0 < P) (hP : P < 9.8703)
    (h : T ≤ P / 4 * (1 / X) / (1 - 0.382 * (P / 4 * (1 / X))) ^ 2) :
    (X ^ 2 - 1) * T ≤ P / 4 * (X + 1.8855 + 2.194) := by
  have hX0 : 0 < X := by linarith
  have hq : 0 < X - 0.9427 := by linarith
  have q2 : X - 0.9427 ≤ X - 0.382 * P / 4 := by linarith
  have a1 : T ≤ P / 4 * (X / (X - 0.9427) ^ 2) := by
    refine h.trans ?_
    have h' : 1 - 0.382 * (P / 4 * (1 / X)) = (X - 0.382 * P / 4) / X := by
      field_simp
    have hne : 0 < X - 0.382 * P / 4 := by linarith
    rw [h']
    generalize X - 0.382 * P / 4 = Y at *
    have e : P / 4 * (1 / X) / (Y / X) ^ 2 = P / 4 * (X / Y ^ 2) := by field_simp
    rw [e]
    gcongr
  have h1 : 0 ≤ X ^ 2 - 1 := by nlinarith
  refine (mul_le_mul_of_nonneg_left a1 h1).trans ?_
  have e : (X ^ 2 - 1) * (P / 4 * (X / (X - 0.9427) ^ 2)) = P / 4 * ((X ^ 2 - 1) * X / (X - 0.9427) ^ 2) := by ring
  rw [e]
  refine mul_le_mul_of_nonneg_left ?_ (by linarith)
  generalize hY : X - 0.9427 = Y at *
  have hXY : X = Y + 0.9427 := by linarith
  have hY1 : 0.7603 < Y := by linarith
  rw [div_le_iff₀ (by positivity), hXY]
  have : 1.667 * Y ≤ 2.194 * Y ^ 2 := by nlinarith
  nlinarith

theorem second_lower (Z P T : ℝ) (hZ : 4.753 < Z) (hP : 9.869 < P)
    (h : P / 4 * (1 / Z) * (1 + P / 4 * (1 / Z) / 3) ^ 2 ≤ T) : P / 4 * (Z + 1.36) ≤ (Z ^ 2 - 1) * T := by
  have hZ0 : 0 < Z := by linarith
  have hP0 : 0 < P := by linarith
  have a2 : P / 4 * (1 / Z + 1.644 / Z ^ 2) ≤ T := by
    refine le_trans ?_ h
    have : P / 4 * (1 / Z) * (1 + P / 4 * (1 / Z) / 3) ^ 2 =
        P / 4 * (1 / Z + (P / 6) / Z ^ 2 + (P / 12) ^ 2 / Z ^ 3) := by
      field_simp
      ring
    rw [this]
    refine mul_le_mul_of_nonneg_left ?_ (by linarith)
    have h3 : 1.644 / Z ^ 2 ≤ (P / 6) / Z ^ 2 := by gcongr; linarith
    have h4 : 0 ≤ (P / 12) ^ 2 / Z ^ 3 := by positivity
    linarith
  have h1 : 0 ≤ Z ^ 2 - 1 := by nlinarith
  refine le_trans ?_ (mul_le_mul_of_nonneg_left a2 h1)
  have e : (Z ^ 2 - 1) * (P / 4 * (1 / Z + 1.644 / Z ^ 2)) = P / 4 * (Z + 1.644 - 1 / Z - 1.644 / Z ^ 2) := by
    field_simp
    ring
  rw [e]
  refine mul_le_mul_of_nonneg_left ?_ (by linarith)
  have h1 : 1 / Z ≤ 0.2105 := by rw [div_le_iff₀ hZ0]; linarith
  have h2 : 1.644 / Z ^ 2 ≤ 0.0735 := by
    rw [div_le_iff₀ (by positivity)]; nlinarith
  linarith

/-- `(1 - f⁴) / f⁴ tan²` at the two frequencies. -/
theorem match_second (fc : ℝ) (h0 : 0 < fc) (h1 : fc < 1) :
    (1 - match1 fc ^ 4) * (sin (π / 2 * match1 fc) / cos (π / 2 * match1 fc)) ^ 2 / match1 fc ^ 4 <
      (1 - match2 fc ^ 4) * (sin (π / 2 * match2 fc) / cos (π / 2 * match2 fc)) ^ 2 / match2 fc ^ 4 := by
  obtain ⟨m2, m21, m1⟩ := match_bounds fc h0 h1
  have m1p : 0 < match1 fc := by linarith
  have hπ := pi_gt_d4
  have hπ2 := pi_lt_d4
  have y1 : π / 2 * match1 fc ≤ 1.204 := by nlinarith
  have y2 : 2 * (π / 2 * match2 fc) < π := by nlinarith
  have u1 := tan_large (π / 2 * match1 fc) (by positivity) y1
  have u2 := tan_lower (π / 2 * match2 fc) (by positivity) y2
  have t1 : 0 ≤ sin (π / 2 * match1 fc) / cos (π / 2 * match1 fc) := by
    have hc' : 0 < cos (π / 2 * match1 fc) :=
      cos_pos_of_mem_Ioo ⟨by linarith [mul_pos (half_pos pi_pos) m1p], by linarith⟩
    have hs : 0 < sin (π / 2 * match1 fc) := sin_pos_of_pos_of_lt_pi (by positivity) (by linarith)
    positivity
  have w1 := pow_le_pow_left₀ t1 u1 2
  have w2 := pow_le_pow_left₀ (by positivity) u2 2
  have hs1 : 1 < 1 / fc ^ 2 := by
    rw [lt_div_iff₀ (by positivity)]; nlinarith
  have e1 : match1 fc ^ 2 = 1 / (0.16 * (1 / fc ^ 2) + 1.543) := by
    rw [match1_sq]; field_simp
  have e2 : match2 fc ^ 2 = 1 / (0.947 * (1 / fc ^ 2) + 3.806) := by
    rw [match2_sq]; field_simp
  have hP : 9.869 < π ^ 2 := by nlinarith
  have hP2 : π ^ 2 < 9.8703 := by nlinarith
  have s1 : (π / 2 * match1 fc) ^ 2 = π ^ 2 / 4 * (1 / (0.16 * (1 / fc ^ 2) + 1.543)) := by
    rw [mul_pow, e1]; ring
  have s2 : (π / 2 * match2 fc) ^ 2 = π ^ 2 / 4 * (1 / (0.947 * (1 / fc ^ 2) + 3.806)) := by
    rw [mul_pow, e2]; ring
  rw [div_pow (π / 2 * match1 fc) _ 2, s1] at w1
  rw [mul_pow _ _ 2, s2] at w2
  have b1 := second_upper _ _ _ (by linarith) (by positivity) hP2 w1
  have b2 := second_lower _ _ _ (by linarith) hP w2
  have k1 : match1 fc ^ 4 = (match1 fc ^ 2) ^ 2 := by ring
  have k2 : match2 fc ^ 4 = (match2 fc ^ 2) ^ 2 := by ring
  rw [k1, k2, e1, e2, clear _ _ (by linarith), clear _ _ (by linarith)]
  refine lt_of_le_of_lt b1 (lt_of_lt_of_le ?_ b2)
  refine mul_lt_mul_of_pos_left ?_ (by positivity)
  linarith

/-- `(1 - f⁴) / f⁴ tan⁴` grows. -/
theorem match_first (f g : ℝ) (hf : 0 < f) (hfg : f ≤ g) (hg : g < 1) :
    (1 - f ^ 4) * (sin (π / 2 * f) / cos (π / 2 * f)) ^ 4 / f ^ 4 ≤
      (1 - g ^ 4) * (sin (π / 2 * g) / cos (π / 2 * g)) ^ 4 / g ^ 4 := by
  have hπ := pi_pos
  have hpos : ∀ x ∈ Set.Ioo (0 : ℝ) 1, 0 < sin (π / 2 * x) ∧ 0 < cos (π / 2 * x) ∧ 0 < 1 - x ^ 4 := by
    intro x hx
    refine ⟨sin_pos_of_pos_of_lt_pi (by have := hx.1; positivity) (by nlinarith [hx.2]),
      cos_pos_of_mem_Ioo ⟨by nlinarith [hx.1], by nlinarith [hx.2]⟩, ?_⟩
    have : x ^ 4 < 1 := pow_lt_one₀ hx.1.le hx.2 (by norm_num)
    linarith
  have hd : ∀ x ∈ Set.Ioo (0 : ℝ) 1, HasDerivAt (fun x => log (1 - x ^ 4) - 4 * log x +
      4 * log (sin (π / 2 * x)) - 4 * log (cos (π / 2 * x)))
      (-(4 * x ^ 3) / (1 - x ^ 4) - 4 * x⁻¹ + 4 * ((π / 2 * cos (π / 2 * x)) / sin (π / 2 * x)) -
        4 * ((-(π / 2) * sin (π / 2 * x)) / cos (π / 2 * x))) x := by
    intro x hx
    obtain ⟨h1, h2, h3⟩ := hpos x hx
    have d1 : HasDerivAt (fun x : ℝ => 1 - x ^ 4) (-(4 * x ^ 3)) x := by
      have := (hasDerivAt_pow 4 x).const_sub 1
      simpa using this
    exact (((d1.log h3.ne').sub ((hasDerivAt_log hx.1.ne').const_mul 4)).add
      (((hasDerivAt_sin_mul (π / 2) x).log h1.ne').const_mul 4)).sub
      (((hasDerivAt_cos_mul (π / 2) x).log h2.ne').const_mul 4)
  have hmono : MonotoneOn (fun x => log (1 - x ^ 4) - 4 * log x +
      4 * log (sin (π / 2 * x)) - 4 * log (cos (π / 2 * x))) (Set.Ioo 0 1) := by
    refine monotoneOn_of_deriv_nonneg (convex_Ioo 0 1) (fun x hx => (hd x hx).continuousAt.continuousWithinAt)
      (fun x hx => (hd x (by rwa [interior_Ioo] at hx)).differentiableAt.differentiableWithinAt) fun x hx => ?_
    rw [interior_Ioo] at hx
    rw [(hd x hx).deriv]
    obtain ⟨h1, h2, h3⟩ := hpos x hx
    have hx0 := hx.1
    have key : sin (π * x) ≤ π * x * (1 - x ^ 4) := by
      rcases le_or_gt (x ^ 2) (1 / 2) with h | h
      · have e : sin (π * x) = 2 * sin (π / 2 * x) * cos (π / 2 * x) := by
          rw [← sin_two_mul]; congr 1; ring
        have c1 : cos (π / 2 * x) ≤ 1 - x ^ 2 / 2 := by
          have := cos_le_one_sub_mul_cos_sq (x := π / 2 * x) (by
            rw [abs_of_pos (by positivity)]; nlinarith [hx.2])
          refine this.trans (le_of_eq ?_)
          field_simp
        have c2 : sin (π / 2 * x) ≤ π / 2 * x := sin_le (by positivity)
        rw [e]
        have : 2 * sin (π / 2 * x) * cos (π / 2 * x) ≤ 2 * (π / 2 * x) * (1 - x ^ 2 / 2) := by
          gcongr
        refine this.trans ?_
        have : π * x * (1 - x ^ 2 / 2) ≤ π * x * (1 - x ^ 4) := by
          refine mul_le_mul_of_nonneg_left ?_ (by positivity)
          nlinarith
        linarith
      · have e : sin (π * x) = sin (π * (1 - x)) := by
          rw [← sin_pi_sub]; congr 1; ring
        rw [e]
        have c2 : sin (π * (1 - x)) ≤ π * (1 - x) := sin_le (by nlinarith [hx.2])
        refine c2.trans ?_
        have hx7 : 0.7 < x := by nlinarith
        have : 1 - x ≤ x * (1 - x ^ 4) := by
          have e : x * (1 - x ^ 4) = (1 - x) * (x * (1 + x) * (1 + x ^ 2)) := by ring
          rw [e]
          have : 1 ≤ x * (1 + x) * (1 + x ^ 2) := by nlinarith
          nlinarith [hx.2]
        nlinarith
    have e2 : sin (π * x) = 2 * sin (π / 2 * x) * cos (π / 2 * x) := by
      rw [← sin_two_mul]; congr 1; ring
    have hsp : 0 < sin (π * x) := by rw [e2]; positivity
    have e : -(4 * x ^ 3) / (1 - x ^ 4) - 4 * x⁻¹ + 4 * ((π / 2 * cos (π / 2 * x)) / sin (π / 2 * x)) -
        4 * ((-(π / 2) * sin (π / 2 * x)) / cos (π / 2 * x)) = 4 * (π / sin (π * x) - 1 / (x * (1 - x ^ 4))) := by
      rw [e2]
      have := sin_sq_add_cos_sq (π / 2 * x)
      have a1 : 4 * ((π / 2 * cos (π / 2 * x)) / sin (π / 2 * x)) - 4 * ((-(π / 2) * sin (π / 2 * x)) / cos (π / 2 * x)) =
          4 * (π / (2 * sin (π / 2 * x) * cos (π / 2 * x))) := by
        generalize sin (π / 2 * x) = S at *
        generalize cos (π / 2 * x) = C at *
        field_simp
        linear_combination this
      have a2 : -(4 * x ^ 3) / (1 - x ^ 4) - 4 * x⁻¹ = -4 * (1 / (x * (1 - x ^ 4))) := by
        field_simp
        ring
      linear_combination a1 + a2
    rw [e]
    have : 1 / (x * (1 - x ^ 4)) ≤ π / sin (π * x) := by
      rw [div_le_div_iff₀ (by positivity) hsp]
      linarith
    linarith
  have hlog := hmono ⟨hf, by linarith⟩ ⟨by linarith, hg⟩ hfg
  have hval : ∀ x ∈ Set.Ioo (0 : ℝ) 1, exp (log (1 - x ^ 4) - 4 * log x +
      4 * log (sin (π / 2 * x)) - 4 * log (cos (π / 2 * x))) =
      (1 - x ^ 4) * (sin (π / 2 * x) / cos (π / 2 * x)) ^ 4 / x ^ 4 := by
    intro x hx
    obtain ⟨h1, h2, h3⟩ := hpos x hx
    have l : ∀ y : ℝ, 0 < y → exp (4 * log y) = y ^ 4 := by
      intro y hy
      rw [show 4 * log y = ((4 : ℕ) : ℝ) * log y by norm_num, exp_nat_mul, exp_log hy]
    rw [exp_sub, exp_add, exp_sub, exp_log h3, l x hx.1, l _ h1, l _ h2, div_pow]
    have := hx.1
    field_simp
  rw [← hval f ⟨hf, by linarith⟩, ← hval g ⟨by linarith, hg⟩]
  exact exp_le_exp.2 hlog

end Verif.MatchedBiquad

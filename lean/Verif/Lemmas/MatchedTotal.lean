import Verif.Lemmas.MatchedBiquad
import Verif.Lemmas.MatchedShelf

/-!
# Every matched biquad has coefficients
-/

namespace Verif.MatchedBiquad

open Verif.Biquad Real

theorem root_ok {x : ℝ} (h : 0 ≤ x) : root x = some √x := by rw [root, if_pos h]

theorem quot_ok {x y : ℝ} (h : y ≠ 0) : quot x y = some (x / y) := by rw [quot, if_neg h]

/-! ### The helpers by hyperbolic functions -/

theorem helpers_eq (w Q : ℝ) (hQ : 0 < Q) :
    ∃ q E K S C : ℝ, 0 < q ∧ 2 * Q * q = 1 ∧ 0 < E ∧ (helpers w Q).a1 = -2 * E * C ∧ (helpers w Q).a2 = E ^ 2 ∧
      1 + E ^ 2 = 2 * E * K ∧ 1 - E ^ 2 = 2 * E * S ∧ K ^ 2 = S ^ 2 + 1 ∧ K = cosh (q * w) ∧ S = sinh (q * w) ∧
      C = poleCos q w := by
  refine ⟨1 / (2 * Q), exp (-(1 / (2 * Q)) * w), _, _, _, by positivity, by field_simp, exp_pos _, ?_, ?_, ?_, ?_,
    cosh_sq _, rfl, rfl, rfl⟩
  · unfold helpers poleCos
    dsimp only
    split_ifs <;> rfl
  · unfold helpers
    dsimp only
    rw [← exp_nat_mul]
    congr 1
    push_cast
    ring
  · generalize 1 / (2 * Q) = q
    have : exp (-q * w) * exp (q * w) = 1 := by rw [← exp_add]; simp
    rw [cosh_eq, show -(q * w) = -q * w by ring]
    linear_combination -this
  · generalize 1 / (2 * Q) = q
    have : exp (-q * w) * exp (q * w) = 1 := by rw [← exp_add]; simp
    rw [Real.sinh_eq, show -(q * w) = -q * w by ring]
    linear_combination -this

theorem p_eq (w Q : ℝ) : (helpers w Q).p = (1 - cos w) / 2 := by
  rw [helpers_p]
  have : cos w = 2 * cos (w / 2) ^ 2 - 1 := by rw [← cos_two_mul]; congr 1; ring
  rw [this, sin_sq]; ring

/-- The two conditions of the bandpass. -/
theorem bandpass_cond (w Q : ℝ) (hw : 0 < w) (hwπ : w < π) (hQ : 0 < Q) (h : Helpers) (hh : h = helpers w Q)
    (B1 B2 : ℝ) (h2 : B2 = (h.dot - h.slope * h.p) / 4 / h.p ^ 2)
    (h1 : B1 = h.slope + 4 * (h.p - (1 - h.p)) * B2) : 0 ≤ B1 ∧ 0 ≤ B1 + 4 * B2 := by
  obtain ⟨q, E, K, S, C, hq, -, hE, a1, a2, k1, k2, k3, hK, hS, hC⟩ := helpers_eq w Q hQ
  have i1 := cosh_mul_cos_le q w hq hw hwπ
  have i2 := pole_slope q w hq hw hwπ
  rw [← hK, ← hC] at i1 i2
  have hp := p_eq w Q
  obtain ⟨hp0, hp1⟩ := p_pos w Q hw hwπ
  rw [← hh] at a1 a2 hp hp0 hp1
  have hcos : cos w = 1 - 2 * h.p := by rw [hp]; ring
  rw [hcos] at i1 i2
  have hKC : 0 ≤ K - C := by
    have := (sum_pos w Q hw hQ).1
    rw [← hh, a1, a2] at this
    nlinarith
  have hKC' : 0 ≤ K + C := by
    have := (sum_pos w Q hw hQ).2
    rw [← hh, a1, a2] at this
    nlinarith
  have e1 : B1 = h.A1 - h.A0 * ((1 - h.p) / h.p) ^ 2 := by
    rw [h1, h2]
    unfold Helpers.slope Helpers.dot
    field_simp
    ring
  have e2 : B1 + 4 * B2 = h.A1 - h.A0 + 4 * h.A2 + 2 * h.A0 / h.p := by
    rw [h1, h2]
    unfold Helpers.slope Helpers.dot
    field_simp
    ring
  have hA0 : h.A0 = (2 * E * (K - C)) ^ 2 := by
    rw [Helpers.A0, a1, a2]; congr 1; linear_combination k1
  have hA1 : h.A1 = (2 * E * (K + C)) ^ 2 := by
    rw [Helpers.A1, a1, a2]; congr 1; linear_combination k1
  have hA2 : h.A2 = -4 * E ^ 2 := by rw [Helpers.A2, a2]
  generalize h.p = p at *
  constructor
  · rw [e1, hA0, hA1]
    have e : (2 * E * (K + C)) ^ 2 - (2 * E * (K - C)) ^ 2 * ((1 - p) / p) ^ 2 =
        (2 * E / p) ^ 2 * (((K + C) * p - (K - C) * (1 - p)) * ((K + C) * p + (K - C) * (1 - p))) := by
      field_simp
      ring
    rw [e]
    refine mul_nonneg (by positivity) (mul_nonneg (by nlinarith) ?_)
    have := mul_nonneg hKC' hp0.le
    have := mul_nonneg hKC (sub_nonneg.2 hp1.le)
    linarith
  · rw [e2, hA0, hA1, hA2]
    have e : (2 * E * (K + C)) ^ 2 - (2 * E * (K - C)) ^ 2 + 4 * (-4 * E ^ 2) + 2 * (2 * E * (K - C)) ^ 2 / p =
        8 * E ^ 2 / p * ((K - C) ^ 2 + (K * C - 1) * (1 - (1 - 2 * p))) := by
      field_simp
      ring
    rw [e]
    exact mul_nonneg (by positivity) i2

theorem bandpass_total (w g Q : ℝ) (hw : 0 < w) (hwπ : w < π) (hQ : 0 < Q) : ∃ c, bandpass w g Q = some c := by
  obtain ⟨c1, c2⟩ := bandpass_cond w Q hw hwπ hQ _ rfl _ _ rfl rfl
  unfold bandpass
  dsimp only
  rw [root_ok c1]
  simp only [Option.bind_eq_bind, Option.bind_some]
  have hs := sq_sqrt c1
  rw [root_ok (by rw [mul_pow, hs]; linarith)]
  exact ⟨_, rfl⟩

theorem peaking_total (w g Q : ℝ) (hw : 0 < w) (hwπ : w < π) (hQ : 0 < Q) : ∃ c, peaking w g Q = some c := by
  obtain ⟨c1, c2⟩ := bandpass_cond w Q hw hwπ hQ _ rfl _ _ rfl rfl
  obtain ⟨hp0, hp1⟩ := p_pos w Q hw hwπ
  have hs0 := (sum_pos w Q hw hQ).1
  unfold peaking
  dsimp only
  generalize helpers w Q = h at *
  have e1 : g ^ 2 * h.slope + h.A0 + 4 * (h.p - (1 - h.p)) *
      ((g ^ 2 * h.dot - g ^ 2 * h.slope * h.p - h.A0) / (4 * h.p ^ 2)) =
      g ^ 2 * (h.slope + 4 * (h.p - (1 - h.p)) * ((h.dot - h.slope * h.p) / 4 / h.p ^ 2)) +
        h.A0 * ((1 - h.p) / h.p) ^ 2 := by
    unfold Helpers.slope Helpers.dot
    field_simp
    ring
  have e2 : (g ^ 2 * h.dot - g ^ 2 * h.slope * h.p - h.A0) / (4 * h.p ^ 2) =
      g ^ 2 * ((h.dot - h.slope * h.p) / 4 / h.p ^ 2) - h.A0 / (4 * h.p ^ 2) := by
    field_simp
  have hA0 : 0 ≤ h.A0 := sq_nonneg _
  rw [root_ok hA0, e1, e2]
  generalize h.slope + 4 * (h.p - (1 - h.p)) * ((h.dot - h.slope * h.p) / 4 / h.p ^ 2) = b1 at *
  generalize (h.dot - h.slope * h.p) / 4 / h.p ^ 2 = b2 at *
  have hB1 : 0 ≤ g ^ 2 * b1 + h.A0 * ((1 - h.p) / h.p) ^ 2 := by positivity
  rw [root_ok hB1]
  simp only [Option.bind_eq_bind, Option.bind_some]
  have hr0 := sq_sqrt hA0
  have hr1 := sq_sqrt hB1
  have hge : (1 - h.p) / h.p * √h.A0 ≤ √(g ^ 2 * b1 + h.A0 * ((1 - h.p) / h.p) ^ 2) := by
    refine le_sqrt_of_sq_le ?_
    rw [mul_pow, hr0]
    nlinarith [mul_nonneg (sq_nonneg g) c1]
  have hpos : 0 < √h.A0 := by
    rw [Helpers.A0, sqrt_sq hs0.le]; exact hs0
  have hr1n := sqrt_nonneg (g ^ 2 * b1 + h.A0 * ((1 - h.p) / h.p) ^ 2)
  generalize √h.A0 = r0 at *
  generalize √(g ^ 2 * b1 + h.A0 * ((1 - h.p) / h.p) ^ 2) = r1 at *
  have hW : 0 ≤ (0.5 * (r0 + r1)) ^ 2 + (g ^ 2 * b2 - h.A0 / (4 * h.p ^ 2)) := by
    have e3 : (0.5 * (r0 + r1)) ^ 2 + (g ^ 2 * b2 - h.A0 / (4 * h.p ^ 2)) =
        1 / 4 * (g ^ 2 * (b1 + 4 * b2) + 2 * r0 * (r1 - (1 - h.p) / h.p * r0)) := by
      have : h.A0 / (4 * h.p ^ 2) = 1 / 4 * (h.A0 + 2 * h.A0 * ((1 - h.p) / h.p) + h.A0 * ((1 - h.p) / h.p) ^ 2) := by
        field_simp
        ring
      rw [this]
      linear_combination 0.25 * hr0 + 0.25 * hr1 + 1 / 2 * ((1 - h.p) / h.p) * hr0
    rw [e3]
    have := mul_nonneg (sq_nonneg g) c2
    have := mul_nonneg hpos.le (sub_nonneg.2 hge)
    linarith
  rw [root_ok hW]
  simp only [Option.bind_some]
  have := sqrt_nonneg ((0.5 * (r0 + r1)) ^ 2 + (g ^ 2 * b2 - h.A0 / (4 * h.p ^ 2)))
  rw [quot_ok (by
    have : 0 < 4 * (0.5 * (0.5 * (r0 + r1) + √((0.5 * (r0 + r1)) ^ 2 + (g ^ 2 * b2 - h.A0 / (4 * h.p ^ 2))))) := by
      linarith
    exact this.ne')]
  exact ⟨_, rfl⟩

theorem lowpass_total (w g Q : ℝ) (hw : 0 < w) (hwπ : w < π) (hQ : 0 < Q) : ∃ c, lowpass w g Q = some c := by
  obtain ⟨q, E, K, S, C, hq, hQq, hE, a1, a2, k1, k2, k3, hK, hS, hC⟩ := helpers_eq w Q hQ
  have i := lowpass_ineq q w hq hw hwπ
  rw [← hK, ← hC, ← hS, sin_sq] at i
  have hp := p_eq w Q
  obtain ⟨hp0, hp1⟩ := p_pos w Q hw hwπ
  have hcos : cos w = 1 - 2 * (helpers w Q).p := by rw [hp]; ring
  rw [hcos] at i
  unfold lowpass
  dsimp only
  generalize helpers w Q = h at *
  have hA0 : h.A0 = (2 * E * (K - C)) ^ 2 := by
    rw [Helpers.A0, a1, a2]; congr 1; linear_combination k1
  have hA1 : h.A1 = (2 * E * (K + C)) ^ 2 := by
    rw [Helpers.A1, a1, a2]; congr 1; linear_combination k1
  have hA2 : h.A2 = -4 * E ^ 2 := by rw [Helpers.A2, a2]
  have hdot : h.dot = 4 * E ^ 2 * ((C - K * (1 - 2 * h.p)) ^ 2 + S ^ 2 * (1 - (1 - 2 * h.p) ^ 2)) := by
    rw [Helpers.dot, hA0, hA1, hA2]
    have : S ^ 2 = K ^ 2 - 1 := by linarith
    rw [this]
    ring
  have hB : 0 ≤ (Q ^ 2 * h.dot - h.A0 * (1 - h.p)) / h.p := by
    refine div_nonneg ?_ hp0.le
    rw [hdot, hA0]
    have h2 := mul_le_mul_of_nonneg_left i (show 0 ≤ 4 * E ^ 2 * Q ^ 2 by positivity)
    have e : 4 * E ^ 2 * Q ^ 2 * (2 * q ^ 2 * (1 + (1 - 2 * h.p)) * (K - C) ^ 2) =
        (2 * E * (K - C)) ^ 2 * (1 - h.p) := by
      linear_combination (4 * E ^ 2 * (K - C) ^ 2 * (1 - h.p)) * (2 * Q * q + 1) * hQq
    rw [e] at h2
    linarith
  rw [root_ok hB]
  exact ⟨_, rfl⟩

theorem highpass_total (w g Q : ℝ) (hw : 0 < w) (hQ : 0 < Q) : ∃ c, highpass w g Q = some c := by
  unfold highpass
  dsimp only
  have : 0 ≤ (helpers w Q).dot := (D_pos w Q w hw hQ).le
  rw [root_ok this]
  exact ⟨_, rfl⟩

/-! ### Shelves -/

/-- The system of the matching conditions has a solution of the right signs. -/
theorem shelf_solve (u1 u2 x1 x2 δ1 δ2 k : ℝ) (hu1 : 0 < u1) (hu2 : 0 < u2) (hu1' : u1 < 1)
    (hx1 : 0 < x1) (hx2 : 0 < x2) (hx1' : x1 < 1) (hx2' : x2 < 1) (hδ1 : δ1 ≠ 0) (hδ : 0 < δ1 * δ2) (hk : 0 < k)
    (ha : (1 - u2) * (x2 / (1 - x2)) ^ 2 / u2 ≤ (1 - u1) * (x1 / (1 - x1)) ^ 2 / u1)
    (hb : (1 - u1) * (x1 / (1 - x1)) / u1 < (1 - u2) * (x2 / (1 - x2)) / u2)
    (d1 d2 c11 c12 c21 c22 : ℝ) (hd1 : d1 = δ1 * u1 * (1 - x1)) (hd2 : d2 = δ2 * u2 * (1 - x2))
    (h11 : c11 = -x1 * d1) (h21 : c21 = -x2 * d2) (h12 : c12 = δ1 * k * (1 - u1) * x1 ^ 2)
    (h22 : c22 = δ2 * k * (1 - u2) * x2 ^ 2) :
    ∃ al1 al2, quot (c22 * d1 - c12 * d2) (c11 * c22 - c12 * c21) = some al1 ∧
      quot (d1 - c11 * al1) c12 = some al2 ∧ -1 ≤ al1 ∧ 0 < al2 ∧ d1 - c11 * al1 = c12 * al2 ∧
      d2 - c21 * al1 = c22 * al2 := by
  have y1 : 0 < 1 - x1 := by linarith
  have y2 : 0 < 1 - x2 := by linarith
  have hb' : (1 - u1) * x1 * u2 * (1 - x2) < (1 - u2) * x2 * u1 * (1 - x1) := by
    have := mul_lt_mul_of_pos_right hb (show 0 < u1 * u2 * (1 - x1) * (1 - x2) by positivity)
    have e1 : (1 - u1) * (x1 / (1 - x1)) / u1 * (u1 * u2 * (1 - x1) * (1 - x2)) = (1 - u1) * x1 * u2 * (1 - x2) := by
      field_simp
    have e2 : (1 - u2) * (x2 / (1 - x2)) / u2 * (u1 * u2 * (1 - x1) * (1 - x2)) = (1 - u2) * x2 * u1 * (1 - x1) := by
      field_simp
    rwa [e1, e2] at this
  have ha' : (1 - u2) * x2 ^ 2 * u1 * (1 - x1) ^ 2 ≤ (1 - u1) * x1 ^ 2 * u2 * (1 - x2) ^ 2 := by
    have := mul_le_mul_of_nonneg_right ha (show 0 ≤ u1 * u2 * (1 - x1) ^ 2 * (1 - x2) ^ 2 by positivity)
    have e1 : (1 - u1) * (x1 / (1 - x1)) ^ 2 / u1 * (u1 * u2 * (1 - x1) ^ 2 * (1 - x2) ^ 2) =
        (1 - u1) * x1 ^ 2 * u2 * (1 - x2) ^ 2 := by field_simp
    have e2 : (1 - u2) * (x2 / (1 - x2)) ^ 2 / u2 * (u1 * u2 * (1 - x1) ^ 2 * (1 - x2) ^ 2) =
        (1 - u2) * x2 ^ 2 * u1 * (1 - x1) ^ 2 := by field_simp
    rwa [e1, e2] at this
  have edet : c11 * c22 - c12 * c21 = δ1 * δ2 * k * x1 * x2 *
      ((1 - u1) * x1 * u2 * (1 - x2) - (1 - u2) * x2 * u1 * (1 - x1)) := by
    rw [h11, h21, h12, h22, hd1, hd2]; ring
  have hdet : c11 * c22 - c12 * c21 < 0 := by
    rw [edet]
    exact mul_neg_of_pos_of_neg (by positivity) (by linarith)
  have hc12 : c12 ≠ 0 := by
    rw [h12]
    have : 0 < 1 - u1 := by linarith
    positivity
  refine ⟨_, _, quot_ok hdet.ne, quot_ok hc12, ?_, ?_, ?_, ?_⟩
  · rw [le_div_iff_of_neg hdet]
    have e : (c22 * d1 - c12 * d2) + (c11 * c22 - c12 * c21) =
        δ1 * δ2 * k * ((1 - u2) * x2 ^ 2 * u1 * (1 - x1) ^ 2 - (1 - u1) * x1 ^ 2 * u2 * (1 - x2) ^ 2) := by
      rw [h11, h21, h12, h22, hd1, hd2]; ring
    have : (c22 * d1 - c12 * d2) + (c11 * c22 - c12 * c21) ≤ 0 := by
      rw [e]
      exact mul_nonpos_of_nonneg_of_nonpos (by positivity) (by linarith)
    linarith
  · have hal : -1 ≤ (c22 * d1 - c12 * d2) / (c11 * c22 - c12 * c21) := by
      rw [le_div_iff_of_neg hdet]
      have e : (c22 * d1 - c12 * d2) + (c11 * c22 - c12 * c21) =
          δ1 * δ2 * k * ((1 - u2) * x2 ^ 2 * u1 * (1 - x1) ^ 2 - (1 - u1) * x1 ^ 2 * u2 * (1 - x2) ^ 2) := by
        rw [h11, h21, h12, h22, hd1, hd2]; ring
      have : (c22 * d1 - c12 * d2) + (c11 * c22 - c12 * c21) ≤ 0 := by
        rw [e]
        exact mul_nonpos_of_nonneg_of_nonpos (by positivity) (by linarith)
      linarith
    generalize (c22 * d1 - c12 * d2) / (c11 * c22 - c12 * c21) = al at *
    have hu : 0 < 1 - u1 := by linarith
    have e : (d1 - c11 * al) / c12 = u1 * (1 - x1) * (1 + x1 * al) / (k * (1 - u1) * x1 ^ 2) := by
      rw [h11, h12, hd1]
      field_simp
      ring
    rw [e]
    have : 0 < 1 + x1 * al := by nlinarith
    positivity
  · field_simp
  · have hne := hdet.ne
    rw [← mul_div_assoc c22, eq_div_iff hc12]
    have e : (c22 * d1 - c12 * d2) / (c11 * c22 - c12 * c21) * (c11 * c22 - c12 * c21) = c22 * d1 - c12 * d2 :=
      div_mul_cancel₀ _ hne
    linear_combination e

/-- The coefficients of a polynomial of the shelf exist. -/
theorem factor_total (B al : ℝ) (hB : 0 < B) (hal : -1 ≤ al) :
    ∃ b0 b1 b2, factor B (0.25 * (al - B)) = some (b0, b1, b2) ∧ 0 < b0 ∧ b0 + b1 + b2 = 1 ∧
      b0 - b1 + b2 = √B ∧ -4 * b0 * b2 = 0.25 * (al - B) ∧ 0 < b0 + b2 ∧ 0 < b0 - b2 := by
  have hr := sq_sqrt hB.le
  have hrp : 0 < √B := sqrt_pos.2 hB
  unfold factor
  rw [root_ok hB.le]
  simp only [Option.bind_eq_bind, Option.bind_some]
  generalize √B = r at *
  have hW : 0 < (0.5 * (1 + r)) ^ 2 + 0.25 * (al - B) := by
    have : (0.5 * (1 + r)) ^ 2 + 0.25 * (al - B) = 0.25 * (1 + 2 * r + al) := by
      linear_combination 0.25 * hr
    rw [this]
    linarith
  have hs := sq_sqrt hW.le
  have hsp : 0 < √((0.5 * (1 + r)) ^ 2 + 0.25 * (al - B)) := sqrt_pos.2 hW
  rw [root_ok hW.le]
  simp only [Option.bind_some]
  generalize √((0.5 * (1 + r)) ^ 2 + 0.25 * (al - B)) = s at *
  have hb0 : 0 < 0.5 * (0.5 * (1 + r) + s) := by linarith
  rw [quot_ok hb0.ne']
  simp only [Option.bind_some, Option.pure_def]
  have e : -0.25 * (0.25 * (al - B)) / (0.5 * (0.5 * (1 + r) + s)) =
      -(0.25 * (al - B)) / (4 * (0.5 * (0.5 * (1 + r) + s))) := by
    rw [div_eq_div_iff hb0.ne' (by positivity)]
    ring
  have key := split_key (0.5 * (1 + r)) s (0.25 * (al - B)) _ hs rfl hb0.ne'
  rw [← e] at key
  have key2 : 0.5 * (0.5 * (1 + r) + s) - -0.25 * (0.25 * (al - B)) / (0.5 * (0.5 * (1 + r) + s)) = s := by
    linear_combination (-1 : ℝ) * key
  refine ⟨_, _, _, rfl, hb0, by linear_combination key, by linear_combination key, ?_, by linarith, by linarith⟩
  generalize 0.5 * (0.5 * (1 + r) + s) = b0 at *
  field_simp
  norm_num

/-- What a shelf is. -/
structure ShelfHas (c : Coeffs) (al1 al2 hny k : ℝ) : Prop where
  a0 : 0 < c.a0
  a_sum : c.a0 + c.a1 + c.a2 = 1
  a_alt : (c.a0 - c.a1 + c.a2) ^ 2 = al2
  a_prod : -4 * c.a0 * c.a2 = 0.25 * (al1 - al2)
  b_sum : c.b0 + c.b1 + c.b2 = 1 / k
  b_alt : (c.b0 - c.b1 + c.b2) ^ 2 = hny * al2 / k ^ 2
  b_prod : -4 * c.b0 * c.b2 = 0.25 * (al1 - hny * al2) / k ^ 2
  stable : c.Stable

theorem shelfG_ne (g : ℝ) (hg : 0 < g) (low : Bool) : 0 < shelfG g low ∧ shelfG g low ≠ 1 := by
  unfold shelfG
  dsimp only
  have hG : 0 < (if low then 1 / g else g) := by split_ifs <;> positivity
  generalize (if low then 1 / g else g) = G at *
  split_ifs with h
  · norm_num
  · refine ⟨hG, ?_⟩
    rintro rfl
    norm_num at h

theorem shelving_total (fc g : ℝ) (low : Bool) (h0 : 0 < fc) (h1 : fc < 1) (hg : 0 < g) :
    ∃ c al1 al2, shelving fc g low = some c ∧ 0 < al2 ∧
      ShelfHas c al1 al2 (shelfGain (shelfG g low) fc 1) (if low then shelfG g low else 1) ∧
      ∀ f, (f = match1 fc ∨ f = match2 fc) →
        (shelfGain (shelfG g low) fc f - 1) * (1 - sin (π / 2 * f) ^ 2) * (1 + sin (π / 2 * f) ^ 2 * al1) =
          (shelfGain (shelfG g low) fc 1 - shelfGain (shelfG g low) fc f) * (sin (π / 2 * f) ^ 2) ^ 2 * al2 := by
  obtain ⟨hG, hG1⟩ := shelfG_ne g hg low
  obtain ⟨m2, m21, m1⟩ := match_bounds fc h0 h1
  have hb := match_second fc h0 h1
  have ha := match_first (match2 fc) (match1 fc) m2 m21.le (by linarith)
  unfold shelving
  dsimp only
  generalize shelfG g low = G at *
  have hπ := pi_pos
  have hpos : ∀ f : ℝ, 0 < f → f < 1 → 0 < sin (π / 2 * f) ^ 2 ∧ sin (π / 2 * f) ^ 2 < 1 ∧
      (sin (π / 2 * f) / cos (π / 2 * f)) ^ 2 = sin (π / 2 * f) ^ 2 / (1 - sin (π / 2 * f) ^ 2) ∧
      (sin (π / 2 * f) / cos (π / 2 * f)) ^ 4 = (sin (π / 2 * f) ^ 2 / (1 - sin (π / 2 * f) ^ 2)) ^ 2 := by
    intro f hf hf1
    have hs : 0 < sin (π / 2 * f) := sin_pos_of_pos_of_lt_pi (by positivity) (by nlinarith)
    have hc : 0 < cos (π / 2 * f) := cos_pos_of_mem_Ioo ⟨by nlinarith, by nlinarith⟩
    have e := sin_sq_add_cos_sq (π / 2 * f)
    have e' : 1 - sin (π / 2 * f) ^ 2 = cos (π / 2 * f) ^ 2 := by linarith
    refine ⟨by positivity, by nlinarith [pow_pos hc 2], ?_, ?_⟩
    · rw [e', div_pow]
    · rw [e', ← div_pow]; ring
  obtain ⟨x1, x1', t1, t1'⟩ := hpos (match1 fc) (by linarith) (by linarith)
  obtain ⟨x2, x2', t2, t2'⟩ := hpos (match2 fc) m2 (by linarith)
  rw [t1, t2] at hb
  rw [t1', t2'] at ha
  have hsg : shelfGain G fc 1 = (fc ^ 4 + G) / (fc ^ 4 + 1 / G) := by
    unfold shelfGain; norm_num
  rw [← hsg]
  have hu1 : 0 < match1 fc ^ 4 := by have : 0 < match1 fc := by linarith
                                     positivity
  have hu1' : match1 fc ^ 4 < 1 := pow_lt_one₀ (by linarith) (by linarith) (by norm_num)
  have hu2 : 0 < match2 fc ^ 4 := by positivity
  have hF : 0 < fc ^ 4 := by positivity
  have d1 : shelfGain G fc (match1 fc) - 1 = (G - 1 / G) / (fc ^ 4 + match1 fc ^ 4 / G) * match1 fc ^ 4 := by
    unfold shelfGain
    generalize match1 fc ^ 4 = u at *
    generalize fc ^ 4 = F at *
    field_simp
    ring
  have d2 : shelfGain G fc (match2 fc) - 1 = (G - 1 / G) / (fc ^ 4 + match2 fc ^ 4 / G) * match2 fc ^ 4 := by
    unfold shelfGain
    generalize match2 fc ^ 4 = u at *
    generalize fc ^ 4 = F at *
    field_simp
    ring
  have n1 : shelfGain G fc 1 - shelfGain G fc (match1 fc) = (G - 1 / G) / (fc ^ 4 + match1 fc ^ 4 / G) *
      (fc ^ 4 / (fc ^ 4 + 1 / G)) * (1 - match1 fc ^ 4) := by
    rw [hsg]
    unfold shelfGain
    generalize match1 fc ^ 4 = u at *
    generalize fc ^ 4 = F at *
    field_simp
    ring
  have n2 : shelfGain G fc 1 - shelfGain G fc (match2 fc) = (G - 1 / G) / (fc ^ 4 + match2 fc ^ 4 / G) *
      (fc ^ 4 / (fc ^ 4 + 1 / G)) * (1 - match2 fc ^ 4) := by
    rw [hsg]
    unfold shelfGain
    generalize match2 fc ^ 4 = u at *
    generalize fc ^ 4 = F at *
    field_simp
    ring
  have hΔ : G - 1 / G ≠ 0 := by
    intro h
    have : G = 1 / G := by linarith
    rw [eq_div_iff hG.ne'] at this
    apply hG1
    nlinarith
  have hδ1 : (G - 1 / G) / (fc ^ 4 + match1 fc ^ 4 / G) ≠ 0 := div_ne_zero hΔ (by positivity)
  have hδ : 0 < (G - 1 / G) / (fc ^ 4 + match1 fc ^ 4 / G) * ((G - 1 / G) / (fc ^ 4 + match2 fc ^ 4 / G)) := by
    rw [div_mul_div_comm]
    have := mul_self_pos.2 hΔ
    positivity
  obtain ⟨al1, al2, q1, q2, hal1, hal2, s1, s2⟩ := shelf_solve (match1 fc ^ 4) (match2 fc ^ 4) _ _ _ _
    (fc ^ 4 / (fc ^ 4 + 1 / G)) hu1 hu2 hu1' x1 x2 x1' x2' hδ1 hδ (by positivity) ha hb
    ((shelfGain G fc (match1 fc) - 1) * (1 - sin (π / 2 * match1 fc) ^ 2))
    ((shelfGain G fc (match2 fc) - 1) * (1 - sin (π / 2 * match2 fc) ^ 2))
    (-sin (π / 2 * match1 fc) ^ 2 * ((shelfGain G fc (match1 fc) - 1) * (1 - sin (π / 2 * match1 fc) ^ 2)))
    ((shelfGain G fc 1 - shelfGain G fc (match1 fc)) * (sin (π / 2 * match1 fc) ^ 2) ^ 2)
    (-sin (π / 2 * match2 fc) ^ 2 * ((shelfGain G fc (match2 fc) - 1) * (1 - sin (π / 2 * match2 fc) ^ 2)))
    ((shelfGain G fc 1 - shelfGain G fc (match2 fc)) * (sin (π / 2 * match2 fc) ^ 2) ^ 2)
    (by rw [d1]) (by rw [d2]) rfl rfl (by rw [n1]) (by rw [n2])
  rw [q1]
  simp only [Option.bind_eq_bind, Option.bind_some]
  rw [q2]
  simp only [Option.bind_some]
  have hh : 0 < shelfGain G fc 1 := by rw [hsg]; positivity
  obtain ⟨a0, a1, a2, fa, ap, as, aa, apr, ap1, ap2⟩ := factor_total al2 al1 hal2 hal1
  obtain ⟨b0, b1, b2, fb, -, bs, ba, bpr, -, -⟩ := factor_total (shelfGain G fc 1 * al2) al1 (by positivity) hal1
  rw [fa]
  simp only [Option.bind_some]
  rw [fb]
  simp only [Option.bind_some, Option.pure_def]
  have hk : 0 < (if low then G else 1) := by split_ifs <;> positivity
  generalize (if low then G else 1) = k at *
  refine ⟨_, al1, al2, rfl, hal2, ⟨ap, as, ?_, apr, ?_, ?_, ?_, ?_⟩, ?_⟩
  · dsimp only
    rw [aa, sq_sqrt hal2.le]
  · dsimp only
    rw [← bs]; ring
  · dsimp only
    have e : b0 / k - b1 / k + b2 / k = √(shelfGain G fc 1 * al2) / k := by rw [← ba]; ring
    rw [e, div_pow, sq_sqrt (by positivity)]
  · dsimp only
    rw [← bpr]
    field_simp
  · refine stable_of_triangle _ ap ?_ ?_
    · rw [abs_lt]; constructor <;> dsimp only <;> linarith
    · have := sqrt_pos.2 hal2
      rw [abs_lt]
      constructor <;> dsimp only <;> linarith
  · rintro f (rfl | rfl)
    · linear_combination s1
    · linear_combination s2

end Verif.MatchedBiquad

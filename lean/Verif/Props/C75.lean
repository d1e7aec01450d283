import Verif.Model.Beamforming
import Verif.Props.C43
import Verif.Props.C45
import Verif.Props.C60
import Mathlib.Algebra.Order.BigOperators.Ring.Finset
import Mathlib.Tactic.LinearCombination

/-!
# C75: steering vectors and delay-and-sum maps

"The delay-and-sum map of a point source on the grid shows its power with the formulations inverse
and true power, and has its maximum at the source with the formulation true location; it is never
negative, and it adds up the powers of incoherent sources."
-/

namespace Verif.Beamforming

open Complex Finset

/-! ### Specification: the sound field of a point source -/

/-- The pressures at the microphones (as phasors) for a point source at `s`, if the pressure at the
center microphone is 1: spherical waves. -/
noncomputable def field (k : ℝ) (mics : List Point) (s : Point) (i : ℕ) : ℂ :=
  ((distance s (center mics) / distance s (mics.getD i 0) : ℝ) : ℂ) *
    exp (-I * k * (distance s (mics.getD i 0) - distance s (center mics)))

/-- The cross-spectral matrix of one source with the power `P` and the pressures `a`. -/
def oneSource (P : ℝ) (a : ℕ → ℂ) (r c : ℕ) : ℂ := P * (a r * (starRingEnd ℂ) (a c))

/-- No microphone is at the point. -/
def Apart (mics : List Point) (s : Point) : Prop :=
  0 < distance s (center mics) ∧ ∀ i < mics.length, 0 < distance s (mics.getD i 0)

/-! ### Distances and the center -/

theorem distance_sq (x y : Point) : distance x y ^ 2 = ∑ i, (x i - y i) ^ 2 := by
  have h : ∑ i, x i ^ 2 + ∑ i, y i ^ 2 - 2 * ∑ i, x i * y i = ∑ i, (x i - y i) ^ 2 := by
    rw [mul_sum, ← sum_add_distrib, ← sum_sub_distrib]
    exact sum_congr rfl fun i _ => by ring
  unfold distance
  rw [h, Real.sq_sqrt (sum_nonneg fun i _ => sq_nonneg _)]

theorem distance_nonneg (x y : Point) : 0 ≤ distance x y := Real.sqrt_nonneg _

theorem distance_comm (x y : Point) : distance x y = distance y x := by
  rw [← Real.sqrt_sq (distance_nonneg x y), ← Real.sqrt_sq (distance_nonneg y x), distance_sq,
    distance_sq]
  congr 1
  exact sum_congr rfl fun i _ => by ring

/-- The matrix of distances has the Euclidean distances, zero exactly for equal points. -/
theorem C75_distance (x y : Point) :
    distance x y = √((x 0 - y 0) ^ 2 + (x 1 - y 1) ^ 2 + (x 2 - y 2) ^ 2) ∧
      (distance x y = 0 ↔ x = y) := by
  have h := distance_sq x y
  rw [Fin.sum_univ_three] at h
  refine ⟨by rw [← h, Real.sqrt_sq (distance_nonneg x y)], ?_, ?_⟩
  · intro h0
    rw [h0] at h
    have h1 := sq_nonneg (x 0 - y 0)
    have h2 := sq_nonneg (x 1 - y 1)
    have h3 := sq_nonneg (x 2 - y 2)
    funext i
    fin_cases i
    · exact sub_eq_zero.1 (pow_eq_zero_iff (two_ne_zero)|>.1 (by linarith : (x 0 - y 0) ^ 2 = 0))
    · exact sub_eq_zero.1 (pow_eq_zero_iff (two_ne_zero)|>.1 (by linarith : (x 1 - y 1) ^ 2 = 0))
    · exact sub_eq_zero.1 (pow_eq_zero_iff (two_ne_zero)|>.1 (by linarith : (x 2 - y 2) ^ 2 = 0))
  · rintro rfl
    have : distance x x ^ 2 = 0 := by rw [distance_sq]; simp
    exact pow_eq_zero_iff two_ne_zero |>.1 this

/-- `find_nearest_point` returns the first of the nearest points and its coordinates. -/
theorem C75_nearest (points : List Point) (hp : points ≠ []) (p : Point) :
    ∃ i, findNearestPoint points p = .ok (i, points.getD i 0) ∧ i < points.length ∧
      (∀ j < points.length, distance (points.getD i 0) p ≤ distance (points.getD j 0) p) ∧
      ∀ j < i, distance (points.getD i 0) p < distance (points.getD j 0) p := by
  obtain ⟨i, hi, h1, h2, h3⟩ := Helpers.argmin_spec (points.map fun q => distance q p) (by simpa)
  have hg : ∀ j < points.length, (points.map fun q => distance q p).getD j 0 =
      distance (points.getD j 0) p := by
    intro j hj
    rw [List.getD_eq_getElem _ _ (by simpa using hj), List.getElem_map, List.getD_eq_getElem _ _ hj]
  rw [List.length_map] at h1
  refine ⟨i, ?_, h1, fun j hj => ?_, fun j hj => ?_⟩
  · unfold findNearestPoint
    rw [hi]
  · rw [← hg i h1, ← hg j hj]
    exact h2 j (by simpa using hj)
  · rw [← hg i h1, ← hg j (by omega)]
    exact h3 j hj

/-- The center of the array is one of the microphones, and none is nearer to the mean of the
positions. -/
theorem C75_center (mics : List Point) (hm : mics ≠ []) :
    ∃ i < mics.length, centerIndex mics = .ok i ∧ center mics = mics.getD i 0 ∧
      ∀ j < mics.length, distance (center mics) (centroid mics) ≤
        distance (mics.getD j 0) (centroid mics) := by
  obtain ⟨i, hi, h1, h2, -⟩ := C75_nearest mics hm (centroid mics)
  have hc : centerIndex mics = .ok i := by
    unfold findNearestPoint at hi
    unfold centerIndex
    split at hi
    · exact nomatch hi
    · rename_i j hj
      rw [hj]
      have := congrArg Prod.fst (Except.ok.inj hi)
      exact congrArg Except.ok this
  have hc' : center mics = mics.getD i 0 := by
    unfold center
    rw [hc]
  exact ⟨i, h1, hc, hc', fun j hj => by rw [hc']; exact h2 j hj⟩

/-! ### Quadratic forms -/

theorem phase_conj (k : ℝ) (mics : List Point) (t : Point) (i : ℕ) :
    (starRingEnd ℂ) (phase k mics t i) * phase k mics t i = 1 := by
  unfold phase
  rw [← exp_conj, ← exp_add]
  simp only [map_mul, map_neg, conj_I, conj_ofReal]
  rw [show -(-I) * (k : ℂ) * ((distance t (mics.getD i 0) - distance t (center mics) : ℝ) : ℂ) +
    -I * k * ((distance t (mics.getD i 0) - distance t (center mics) : ℝ) : ℂ) = 0 by ring, exp_zero]

theorem field_eq (k : ℝ) (mics : List Point) (s : Point) (i : ℕ) :
    field k mics s i = ((distance s (center mics) / distance s (mics.getD i 0) : ℝ) : ℂ) *
      phase k mics s i := by
  unfold field phase
  push_cast
  rfl

theorem form_oneSource (n : ℕ) (P : ℝ) (a h : ℕ → ℂ) :
    form n h (oneSource P a) = P * ‖∑ i ∈ range n, (starRingEnd ℂ) (h i) * a i‖ ^ 2 := by
  unfold form oneSource
  have h1 : ∑ r ∈ range n, ∑ c ∈ range n,
      (starRingEnd ℂ) (h r) * (P * (a r * (starRingEnd ℂ) (a c))) * h c =
      P * ((∑ i ∈ range n, (starRingEnd ℂ) (h i) * a i) *
        (starRingEnd ℂ) (∑ i ∈ range n, (starRingEnd ℂ) (h i) * a i)) := by
    rw [map_sum, sum_mul_sum, mul_sum]
    refine sum_congr rfl fun r _ => ?_
    rw [mul_sum]
    refine sum_congr rfl fun c _ => ?_
    rw [map_mul, conj_conj]
    ring
  rw [h1, mul_conj, normSq_eq_norm_sq, ← ofReal_mul, ofReal_re]

theorem form_withoutDiagonal (n : ℕ) (h : ℕ → ℂ) (C : ℕ → ℕ → ℂ) :
    form n h (withoutDiagonal n C) = (n / (n - 1) : ℝ) *
      (form n h C - ∑ i ∈ range n, ‖h i‖ ^ 2 * (C i i).re) := by
  unfold form withoutDiagonal
  rw [← ofReal_re (∑ i ∈ range n, ‖h i‖ ^ 2 * (C i i).re), mul_comm]
  have key : ∀ r ∈ range n, (∑ c ∈ range n, (starRingEnd ℂ) (h r) *
      (if r = c then 0 else C r c * ((n / (n - 1) : ℝ) : ℂ)) * h c) =
      (∑ c ∈ range n, (starRingEnd ℂ) (h r) * C r c * h c -
        (starRingEnd ℂ) (h r) * C r r * h r) * ((n / (n - 1) : ℝ) : ℂ) := by
    intro r hr
    have e1 : ∑ c ∈ range n, (starRingEnd ℂ) (h r) * C r c * h c - (starRingEnd ℂ) (h r) * C r r * h r
        = ∑ c ∈ range n, (if r = c then 0 else (starRingEnd ℂ) (h r) * C r c * h c) := by
      rw [← add_sum_erase _ _ hr, add_sub_cancel_left, ← add_sum_erase (range n)
        (fun c => if r = c then 0 else (starRingEnd ℂ) (h r) * C r c * h c) hr, if_pos rfl, zero_add]
      refine sum_congr rfl fun c hc => ?_
      rw [if_neg (ne_of_mem_erase hc).symm]
    rw [e1, sum_mul]
    refine sum_congr rfl fun c _ => ?_
    split_ifs <;> ring
  rw [sum_congr rfl key, ← sum_mul, re_mul_ofReal, sum_sub_distrib, sub_re, ofReal_re]
  congr 2
  rw [re_sum]
  refine sum_congr rfl fun i _ => ?_
  rw [mul_right_comm, mul_comm ((starRingEnd ℂ) (h i)), mul_conj, normSq_eq_norm_sq, re_ofReal_mul]

theorem steering_field (f : Formulation) (k : ℝ) (mics : List Point) (s : Point) (i : ℕ) :
    (starRingEnd ℂ) (steering f k mics s i) * field k mics s i =
      ((magnitude f mics s i * (distance s (center mics) / distance s (mics.getD i 0)) : ℝ) : ℂ) := by
  rw [field_eq]
  unfold steering
  rw [map_mul, conj_ofReal, mul_mul_mul_comm, phase_conj, mul_one, ← ofReal_mul]

theorem norm_phase (k : ℝ) (mics : List Point) (t : Point) (i : ℕ) : ‖phase k mics t i‖ = 1 := by
  have h := phase_conj k mics t i
  rw [mul_comm, mul_conj, normSq_eq_norm_sq] at h
  have h2 : ‖phase k mics t i‖ ^ 2 = 1 := by exact_mod_cast h
  have := norm_nonneg (phase k mics t i)
  nlinarith

theorem norm_steering (f : Formulation) (k : ℝ) (mics : List Point) (t : Point) (i : ℕ) :
    ‖steering f k mics t i‖ ^ 2 = magnitude f mics t i ^ 2 := by
  unfold steering
  rw [norm_mul, norm_phase, mul_one, norm_real, Real.norm_eq_abs, sq_abs]

theorem norm_field (k : ℝ) (mics : List Point) (s : Point) (i : ℕ) :
    ‖field k mics s i‖ ^ 2 = (distance s (center mics) / distance s (mics.getD i 0)) ^ 2 := by
  rw [field_eq, norm_mul, norm_phase, mul_one, norm_real, Real.norm_eq_abs, sq_abs]

/-- The gain of a steering vector for a source at its own point. -/
noncomputable def gain (f : Formulation) (mics : List Point) (s : Point) : ℝ :=
  ∑ i ∈ range mics.length, magnitude f mics s i *
    (distance s (center mics) / distance s (mics.getD i 0))

theorem response (f : Formulation) (k : ℝ) (mics : List Point) (s : Point) (P : ℝ) :
    form mics.length (steering f k mics s) (oneSource P (field k mics s)) =
      P * gain f mics s ^ 2 := by
  rw [form_oneSource, sum_congr rfl fun i _ => steering_field f k mics s i, ← ofReal_sum, norm_real,
    Real.norm_eq_abs, sq_abs]
  rfl

theorem inverseSquares_eq (mics : List Point) (t : Point) :
    inverseSquares mics t = ∑ i ∈ range mics.length, 1 / distance t (mics.getD i 0) ^ 2 :=
  sum_congr rfl fun i _ => by rw [distance_comm]

theorem inverseSquares_pos (mics : List Point) (hm : mics ≠ []) (t : Point) (h : Apart mics t) :
    0 < inverseSquares mics t := by
  rw [inverseSquares_eq]
  refine sum_pos (fun i hi => ?_) ⟨0, mem_range.2 (List.length_pos_of_ne_nil hm)⟩
  have := h.2 i (mem_range.1 hi)
  positivity

theorem gain_inverse (mics : List Point) (hm : mics ≠ []) (s : Point) (h : Apart mics s) :
    gain .inverse mics s = 1 := by
  have hN : (mics.length : ℝ) ≠ 0 := by exact_mod_cast (List.length_pos_of_ne_nil hm).ne'
  have h0 := h.1.ne'
  unfold gain
  have : ∀ i ∈ range mics.length, magnitude .inverse mics s i *
      (distance s (center mics) / distance s (mics.getD i 0)) = 1 / mics.length := by
    intro i hi
    have h1 := (h.2 i (mem_range.1 hi)).ne'
    unfold magnitude
    dsimp only
    field_simp
  rw [sum_congr rfl this, sum_const, card_range, nsmul_eq_mul]
  field_simp

theorem gain_truePower (mics : List Point) (hm : mics ≠ []) (s : Point) (h : Apart mics s) :
    gain .truePower mics s = 1 := by
  have h0 := h.1.ne'
  have hS := (inverseSquares_pos mics hm s h).ne'
  unfold gain
  have : ∀ i ∈ range mics.length, magnitude .truePower mics s i *
      (distance s (center mics) / distance s (mics.getD i 0)) =
      (1 / distance s (mics.getD i 0) ^ 2) / inverseSquares mics s := by
    intro i hi
    have h1 := (h.2 i (mem_range.1 hi)).ne'
    unfold magnitude
    dsimp only
    field_simp
  rw [sum_congr rfl this, ← sum_div, ← inverseSquares_eq, div_self hS]

/-! ### The map of one source -/

/-- Without removal of the diagonal, the formulations inverse and true power show the power of the
source at its position, for every array, position, frequency and power. -/
theorem C75_power (f : Formulation) (hf : f = .inverse ∨ f = .truePower) (k : ℝ)
    (mics : List Point) (hm : mics ≠ []) (s : Point) (h : Apart mics s) (P : ℝ) :
    das mics.length false (oneSource P (field k mics s)) (steering f k mics s) = P := by
  unfold das
  rw [if_neg (by simp), response]
  rcases hf with rfl | rfl
  · rw [gain_inverse mics hm s h]
    ring
  · rw [gain_truePower mics hm s h]
    ring

/-- With removal of the diagonal this holds for the inverse formulation. -/
theorem C75_power_without_diagonal (k : ℝ) (mics : List Point) (hm : 2 ≤ mics.length) (s : Point)
    (h : Apart mics s) (P : ℝ) (hP : 0 ≤ P) :
    das mics.length true (oneSource P (field k mics s)) (steering .inverse k mics s) = P := by
  have hne : mics ≠ [] := by
    rintro rfl
    simp at hm
  have hN : (2 : ℝ) ≤ mics.length := by exact_mod_cast hm
  have hd : ∑ i ∈ range mics.length, ‖steering .inverse k mics s i‖ ^ 2 *
      (oneSource P (field k mics s) i i).re = P / mics.length := by
    have : ∀ i ∈ range mics.length, ‖steering .inverse k mics s i‖ ^ 2 *
        (oneSource P (field k mics s) i i).re = P / mics.length / mics.length := by
      intro i hi
      have h1 := (h.2 i (mem_range.1 hi)).ne'
      have h0 := h.1.ne'
      unfold oneSource
      rw [mul_conj, normSq_eq_norm_sq, ← ofReal_mul, ofReal_re, norm_steering, norm_field]
      unfold magnitude
      dsimp only
      have : (mics.length : ℝ) ≠ 0 := by linarith
      field_simp
    rw [sum_congr rfl this, sum_const, card_range, nsmul_eq_mul]
    have : (mics.length : ℝ) ≠ 0 := by linarith
    field_simp
  have hv : form mics.length (steering .inverse k mics s) (withoutDiagonal mics.length
      (oneSource P (field k mics s))) = P := by
    rw [form_withoutDiagonal, response, gain_inverse mics hne s h, hd]
    have h1 : (mics.length : ℝ) ≠ 0 := by linarith
    have h2 : (mics.length : ℝ) - 1 ≠ 0 := by
      intro hc
      linarith
    field_simp
  unfold das
  simp only [if_true]
  rw [hv, if_neg (by linarith)]

/-- For the true power formulation the removal of the diagonal loses power, except if all
microphones are at the same distance from the source. -/
theorem C75_true_power_without_diagonal (k : ℝ) (mics : List Point) (hm : 2 ≤ mics.length)
    (s : Point) (h : Apart mics s) (P : ℝ) (hP : 0 < P) :
    0 ≤ das mics.length true (oneSource P (field k mics s)) (steering .truePower k mics s) ∧
    das mics.length true (oneSource P (field k mics s)) (steering .truePower k mics s) ≤ P ∧
    (das mics.length true (oneSource P (field k mics s)) (steering .truePower k mics s) = P ↔
      ∀ i < mics.length, ∀ j < mics.length,
        distance s (mics.getD i 0) = distance s (mics.getD j 0)) := by
  have hne : mics ≠ [] := by
    rintro rfl
    simp at hm
  have hN : (2 : ℝ) ≤ mics.length := by exact_mod_cast hm
  have hN0 : (mics.length : ℝ) ≠ 0 := by linarith
  have hN1 : (0 : ℝ) < (mics.length : ℝ) - 1 := by linarith
  have hS := inverseSquares_pos mics hne s h
  set q : ℕ → ℝ := fun i => 1 / distance s (mics.getD i 0) ^ 2 / inverseSquares mics s with hq
  have hq1 : ∑ i ∈ range mics.length, q i = 1 := by
    rw [← sum_div, ← inverseSquares_eq, div_self hS.ne']
  have hd : ∑ i ∈ range mics.length, ‖steering .truePower k mics s i‖ ^ 2 *
      (oneSource P (field k mics s) i i).re = P * ∑ i ∈ range mics.length, q i ^ 2 := by
    rw [mul_sum]
    refine sum_congr rfl fun i hi => ?_
    have h1 := (h.2 i (mem_range.1 hi)).ne'
    have h0 := h.1.ne'
    unfold oneSource
    rw [mul_conj, normSq_eq_norm_sq, ← ofReal_mul, ofReal_re, norm_steering, norm_field, hq]
    unfold magnitude
    dsimp only
    have := hS.ne'
    field_simp
  have hv : form mics.length (steering .truePower k mics s) (withoutDiagonal mics.length
      (oneSource P (field k mics s))) = P * (mics.length / (mics.length - 1) *
        (1 - ∑ i ∈ range mics.length, q i ^ 2)) := by
    rw [form_withoutDiagonal, response, gain_truePower mics hne s h, hd]
    ring
  have hdev : ∑ i ∈ range mics.length, (q i - 1 / mics.length) ^ 2 =
      ∑ i ∈ range mics.length, q i ^ 2 - 1 / mics.length := by
    have : ∀ i ∈ range mics.length, (q i - 1 / mics.length) ^ 2 =
        q i ^ 2 - 2 / mics.length * q i + (1 / mics.length) ^ 2 := fun i _ => by ring
    rw [sum_congr rfl this, sum_add_distrib, sum_sub_distrib, ← mul_sum, hq1, sum_const, card_range,
      nsmul_eq_mul]
    field_simp
    ring
  have hq0 : ∀ i ∈ range mics.length, 0 ≤ q i := by
    intro i hi
    have := h.2 i (mem_range.1 hi)
    positivity
  have hle1 : ∑ i ∈ range mics.length, q i ^ 2 ≤ 1 := by
    rw [← hq1]
    refine sum_le_sum fun i hi => ?_
    have h1 : q i ≤ 1 := by
      rw [← hq1]
      exact single_le_sum hq0 hi
    have := hq0 i hi
    nlinarith
  have hdas : das mics.length true (oneSource P (field k mics s)) (steering .truePower k mics s) =
      P * (mics.length / (mics.length - 1) * (1 - ∑ i ∈ range mics.length, q i ^ 2)) := by
    unfold das
    simp only [if_true]
    rw [hv, if_neg]
    rw [not_lt]
    have : (0 : ℝ) ≤ 1 - ∑ i ∈ range mics.length, q i ^ 2 := by linarith
    positivity
  have hdev0 : 0 ≤ ∑ i ∈ range mics.length, (q i - 1 / mics.length) ^ 2 :=
    sum_nonneg fun i _ => sq_nonneg _
  have hrew : (mics.length : ℝ) / (mics.length - 1) * (1 - ∑ i ∈ range mics.length, q i ^ 2) =
      1 - mics.length / (mics.length - 1) *
        ∑ i ∈ range mics.length, (q i - 1 / mics.length) ^ 2 := by
    rw [hdev]
    have := hN1.ne'
    field_simp
    ring
  have hfac : (0 : ℝ) < mics.length / (mics.length - 1) := by positivity
  refine ⟨?_, ?_, ?_⟩
  · rw [hdas]
    have : (0 : ℝ) ≤ 1 - ∑ i ∈ range mics.length, q i ^ 2 := by linarith
    positivity
  · rw [hdas, hrew]
    have := mul_nonneg hfac.le hdev0
    nlinarith
  · rw [hdas, hrew]
    constructor
    · intro he
      have h1 : (mics.length : ℝ) / (mics.length - 1) *
          ∑ i ∈ range mics.length, (q i - 1 / mics.length) ^ 2 = 0 := by
        have : P * ((mics.length : ℝ) / (mics.length - 1) *
          ∑ i ∈ range mics.length, (q i - 1 / mics.length) ^ 2) = 0 := by linarith
        exact (mul_eq_zero.1 this).resolve_left hP.ne'
      have h2 := (mul_eq_zero.1 h1).resolve_left hfac.ne'
      rw [sum_eq_zero_iff_of_nonneg fun i _ => sq_nonneg _] at h2
      have h3 : ∀ i < mics.length, q i = 1 / mics.length := by
        intro i hi
        have := pow_eq_zero_iff two_ne_zero |>.1 (h2 i (mem_range.2 hi))
        linarith
      intro i hi j hj
      have h4 : q i = q j := by rw [h3 i hi, h3 j hj]
      have di := h.2 i hi
      have dj := h.2 j hj
      rw [hq] at h4
      dsimp only at h4
      rw [div_left_inj' hS.ne', div_eq_div_iff (by positivity) (by positivity), one_mul, one_mul] at h4
      exact ((sq_eq_sq₀ dj.le di.le).1 h4).symm
    · intro he
      have h3 : ∀ i ∈ range mics.length, q i = 1 / mics.length := by
        intro i hi
        have h4 : ∀ j ∈ range mics.length, q j = q i := by
          intro j hj
          rw [hq]
          dsimp only
          rw [he j (mem_range.1 hj) i (mem_range.1 hi)]
        rw [sum_congr rfl h4, sum_const, card_range, nsmul_eq_mul] at hq1
        field_simp
        linarith
      have h5 : ∑ i ∈ range mics.length, (q i - 1 / mics.length) ^ 2 = 0 :=
        sum_eq_zero fun i hi => by rw [h3 i hi]; ring
      rw [h5]
      ring

/-- With the formulation true location no grid point has a larger value than the one at the
source, whatever the grid. -/
theorem C75_location (k : ℝ) (mics : List Point) (hm : mics ≠ []) (s t : Point)
    (hs : Apart mics s) (ht : Apart mics t) (P : ℝ) (hP : 0 ≤ P) :
    das mics.length false (oneSource P (field k mics s)) (steering .trueLocation k mics t) ≤
      das mics.length false (oneSource P (field k mics s)) (steering .trueLocation k mics s) := by
  have hN : (0 : ℝ) < mics.length := by exact_mod_cast List.length_pos_of_ne_nil hm
  have hSs := inverseSquares_pos mics hm s hs
  have hSt := inverseSquares_pos mics hm t ht
  unfold das
  simp only [Bool.false_eq_true, if_false]
  rw [response, form_oneSource]
  refine mul_le_mul_of_nonneg_left ?_ hP
  -- the level at the source
  have hg : gain .trueLocation mics s ^ 2 =
      distance s (center mics) ^ 2 * inverseSquares mics s / mics.length := by
    have h1 : gain .trueLocation mics s =
        distance s (center mics) * inverseSquares mics s / √(mics.length * inverseSquares mics s) := by
      unfold gain
      have : ∀ i ∈ range mics.length, magnitude .trueLocation mics s i *
          (distance s (center mics) / distance s (mics.getD i 0)) =
          (1 / distance s (mics.getD i 0) ^ 2) *
            (distance s (center mics) / √(mics.length * inverseSquares mics s)) := by
        intro i hi
        have h1 := (hs.2 i (mem_range.1 hi)).ne'
        unfold magnitude
        dsimp only
        have h2 : √(mics.length * inverseSquares mics s) ≠ 0 :=
          (Real.sqrt_pos.2 (mul_pos hN hSs)).ne'
        field_simp
      rw [sum_congr rfl this, ← sum_mul, ← inverseSquares_eq]
      ring
    rw [h1, div_pow, Real.sq_sqrt (mul_pos hN hSs).le]
    have := hSs.ne'
    field_simp
  rw [hg]
  -- Cauchy-Schwarz
  have h1 : ‖∑ i ∈ range mics.length, (starRingEnd ℂ) (steering .trueLocation k mics t i) *
      field k mics s i‖ ≤ ∑ i ∈ range mics.length, ‖steering .trueLocation k mics t i‖ *
        ‖field k mics s i‖ := by
    refine (norm_sum_le _ _).trans (le_of_eq (sum_congr rfl fun i _ => ?_))
    rw [norm_mul, RCLike.norm_conj]
  have h2 := sum_mul_sq_le_sq_mul_sq (range mics.length)
    (fun i => ‖steering .trueLocation k mics t i‖) (fun i => ‖field k mics s i‖)
  have h3 : ∑ i ∈ range mics.length, ‖steering .trueLocation k mics t i‖ ^ 2 = 1 / mics.length := by
    have : ∀ i ∈ range mics.length, ‖steering .trueLocation k mics t i‖ ^ 2 =
        1 / distance t (mics.getD i 0) ^ 2 * (1 / (mics.length * inverseSquares mics t)) := by
      intro i hi
      rw [norm_steering]
      unfold magnitude
      dsimp only
      rw [div_pow, Real.sq_sqrt (mul_pos hN hSt).le]
      ring
    rw [sum_congr rfl this, ← sum_mul, ← inverseSquares_eq]
    have := hSt.ne'
    field_simp
  have h4 : ∑ i ∈ range mics.length, ‖field k mics s i‖ ^ 2 =
      distance s (center mics) ^ 2 * inverseSquares mics s := by
    rw [inverseSquares_eq, mul_sum]
    refine sum_congr rfl fun i _ => ?_
    rw [norm_field]
    ring
  rw [h3, h4] at h2
  calc _ ≤ (∑ i ∈ range mics.length, ‖steering .trueLocation k mics t i‖ *
        ‖field k mics s i‖) ^ 2 := pow_le_pow_left₀ (norm_nonneg _) h1 2
    _ ≤ _ := h2
    _ = _ := by ring

/-- The classic formulation shows the power if all microphones have the distance of the center
microphone; in general the mean of the inverse relative distances enters with its square. -/
theorem C75_classic (k : ℝ) (mics : List Point) (hm : mics ≠ []) (s : Point)
    (hs : Apart mics s) (P : ℝ) :
    das mics.length false (oneSource P (field k mics s)) (steering .classic k mics s) =
      P * ((∑ i ∈ range mics.length, distance s (center mics) / distance s (mics.getD i 0)) /
        mics.length) ^ 2 ∧
    ((∀ i < mics.length, distance s (mics.getD i 0) = distance s (center mics)) →
      das mics.length false (oneSource P (field k mics s)) (steering .classic k mics s) = P) := by
  have h1 : das mics.length false (oneSource P (field k mics s)) (steering .classic k mics s) =
      P * ((∑ i ∈ range mics.length, distance s (center mics) / distance s (mics.getD i 0)) /
        mics.length) ^ 2 := by
    unfold das
    simp only [Bool.false_eq_true, if_false]
    rw [response]
    unfold gain magnitude
    dsimp only
    rw [← mul_sum]
    ring
  refine ⟨h1, fun h => ?_⟩
  have hN : (mics.length : ℝ) ≠ 0 := by exact_mod_cast (List.length_pos_of_ne_nil hm).ne'
  have h0 := hs.1.ne'
  have h2 : ∀ i ∈ range mics.length, distance s (center mics) / distance s (mics.getD i 0) = 1 := by
    intro i hi
    rw [h i (mem_range.1 hi), div_self h0]
  rw [h1, sum_congr rfl h2, sum_const, card_range, nsmul_eq_mul, mul_one, div_self hN]
  ring

/-! ### Maps of any signal -/

/-- The map is never negative if the cross-spectral matrix is positive semidefinite, or if the
diagonal is removed. -/
theorem C75_nonneg (n : ℕ) (remove : Bool) (C : ℕ → ℕ → ℂ) (h : ℕ → ℂ)
    (hC : remove = true ∨ CSM.PosSemidef n C) : 0 ≤ das n remove C h := by
  unfold das
  cases remove with
  | true =>
    simp only [if_true]
    split_ifs with h1
    · exact le_rfl
    · exact not_lt.1 h1
  | false =>
    simp only [Bool.false_eq_true, if_false]
    obtain ⟨q, hq, he⟩ := (hC.resolve_left (by simp)) h
    unfold form
    rw [he, ofReal_re]
    exact hq

/-- Sources that are not coherent: the maps are added (without removal of the diagonal), so that no
source can hide another one. -/
theorem C75_incoherent_sources (n : ℕ) (h : ℕ → ℂ) (sources : List (ℝ × (ℕ → ℂ)))
    (hP : ∀ p ∈ sources, 0 ≤ p.1) :
    das n false (fun r c => (sources.map fun p => oneSource p.1 p.2 r c).sum) h =
      (sources.map fun p => das n false (oneSource p.1 p.2) h).sum ∧
    ∀ p ∈ sources, das n false (oneSource p.1 p.2) h ≤
      das n false (fun r c => (sources.map fun p => oneSource p.1 p.2 r c).sum) h := by
  have key : ∀ l : List (ℝ × (ℕ → ℂ)),
      das n false (fun r c => (l.map fun p => oneSource p.1 p.2 r c).sum) h =
      (l.map fun p => das n false (oneSource p.1 p.2) h).sum := by
    intro l
    unfold das
    simp only [Bool.false_eq_true, if_false]
    induction l with
    | nil => simp [form]
    | cons p l ih =>
      simp only [List.map_cons, List.sum_cons]
      rw [← ih]
      unfold form
      rw [← add_re, ← sum_add_distrib]
      congr 1
      refine sum_congr rfl fun r _ => ?_
      rw [← sum_add_distrib]
      exact sum_congr rfl fun c _ => by ring
  refine ⟨key _, fun p hp => ?_⟩
  rw [key]
  refine List.single_le_sum ?_ _ (List.mem_map.2 ⟨p, hp, rfl⟩)
  intro v hv
  obtain ⟨q, hq, rfl⟩ := List.mem_map.1 hv
  unfold das
  simp only [Bool.false_eq_true, if_false]
  rw [form_oneSource]
  have := hP q hq
  positivity

/-! ### The whole map -/

theorem baseWeight_sum (m : ℕ) : ∑ i ∈ range (2 * m + 3), Distances.baseWeight (2 * m + 3) i =
    2 * m + 2 := by
  rw [sum_range_succ, sum_range_succ']
  have h1 : Distances.baseWeight (2 * m + 3) (2 * m + 2) = 1 / 3 := by
    unfold Distances.baseWeight
    rw [if_neg (by omega), if_pos (by omega)]
  have h0 : Distances.baseWeight (2 * m + 3) 0 = 1 / 3 := by
    unfold Distances.baseWeight
    rw [if_neg (by omega), if_pos (by omega)]
  have h2 : ∀ i ∈ range (2 * m + 1), Distances.baseWeight (2 * m + 3) (i + 1) =
      if (i + 1) % 2 = 1 then (4 / 3 : ℝ) else 2 / 3 := by
    intro i hi
    have := mem_range.1 hi
    unfold Distances.baseWeight
    rw [if_neg (by omega), if_neg (by omega)]
  have h3 : ∀ m : ℕ, ∑ i ∈ range (2 * m + 1), (if (i + 1) % 2 = 1 then (4 / 3 : ℝ) else 2 / 3) =
      4 / 3 + 2 * m := by
    intro m
    induction m with
    | zero => simp
    | succ m ih =>
      rw [show 2 * (m + 1) + 1 = 2 * m + 1 + 1 + 1 by ring, sum_range_succ, sum_range_succ, ih,
        if_neg (by omega), if_pos (by omega)]
      push_cast
      ring
  rw [sum_congr rfl h2, h3, h1, h0]
  ring

/-- Constants are integrated exactly. -/
theorem simpson_const (n : ℕ) (hn : 2 ≤ n) (df P : ℝ) :
    Distances.simpson n df (fun _ => P) = P * ((n - 1) * df) := by
  have hw : ∑ i ∈ range n, Distances.weight n i = n - 1 := by
    rcases Nat.even_or_odd n with he | ho
    · obtain ⟨q, hq⟩ := he
      rcases Nat.lt_or_ge q 2 with h2 | h2
      · have : n = 2 := by omega
        subst this
        simp [Distances.weight]
        norm_num
      · obtain ⟨m, rfl⟩ := Nat.exists_eq_add_of_le h2
        have hn4 : n = 2 * m + 4 := by omega
        subst hn4
        have hwt : ∀ i ∈ range (2 * m + 4), Distances.weight (2 * m + 4) i =
            Distances.baseWeight (2 * m + 3) i + (if i + 1 = 2 * m + 4 then 5 / 12 else
              if i + 2 = 2 * m + 4 then 2 / 3 else if i + 3 = 2 * m + 4 then -1 / 12 else 0) := by
          intro i _
          unfold Distances.weight
          rw [if_neg (by omega), if_neg (by omega), show 2 * m + 4 - 1 = 2 * m + 3 by omega]
        rw [sum_congr rfl hwt, sum_add_distrib, sum_range_succ (fun i =>
          Distances.baseWeight (2 * m + 3) i), baseWeight_sum]
        have h1 : Distances.baseWeight (2 * m + 3) (2 * m + 3) = 0 := by
          unfold Distances.baseWeight
          rw [if_pos (by omega)]
        rw [h1, sum_range_succ, sum_range_succ, sum_range_succ, sum_eq_zero]
        · rw [if_neg (by omega), if_neg (by omega), if_pos (by omega), if_neg (by omega),
            if_pos (by omega), if_pos (by omega)]
          push_cast
          ring
        · intro i hi
          have := mem_range.1 hi
          rw [if_neg (by omega), if_neg (by omega), if_neg (by omega)]
    · obtain ⟨q, hq⟩ := ho
      obtain ⟨m, rfl⟩ := Nat.exists_eq_add_of_le (show 1 ≤ q by omega)
      have hn3 : n = 2 * m + 3 := by omega
      subst hn3
      have hwt : ∀ i ∈ range (2 * m + 3), Distances.weight (2 * m + 3) i =
          Distances.baseWeight (2 * m + 3) i := by
        intro i _
        unfold Distances.weight
        rw [if_pos (by omega)]
      rw [sum_congr rfl hwt, baseWeight_sum]
      push_cast
      ring
  unfold Distances.simpson
  rw [← sum_mul, hw]
  ring

/-- `get_beamformer_map` at the position of a source with the same power in all bins: the power times
the width between the first and the last bin, but without the width if the band has one bin. -/
theorem C75_map_partial (form : Formulation) (hf : form = .inverse ∨ form = .truePower)
    (mics : List Point) (hm : mics ≠ []) (c : ℝ) (f : List ℝ) (C : ℕ → ℕ → ℕ → ℂ) (fc : ℝ)
    (fraction : ℕ) (s : Point) (hs : Apart mics s) (P : ℝ)
    (hC : ∀ j, C j = oneSource P (field (2 * Real.pi * f.getD j 0 / c) mics s)) (id1 id2 : ℕ)
    (hb : bins f fc fraction = .ok (id1, id2)) (hid : id1 < id2) :
    ∃ v, dasMap form mics c f C fc fraction false s = .ok v ∧
      v = if id2 = id1 + 1 then P
        else P * (((id2 - 1 - id1 : ℕ) : ℝ) * (f.getD (id1 + 1) 0 - f.getD id1 0)) := by
  refine ⟨_, by unfold dasMap; rw [hb], ?_⟩
  have hj : ∀ j, das mics.length false (C (id1 + j))
      (steering form (f.getD (id1 + j) 0 * Real.pi * 2 / c) mics s) = P := by
    intro j
    rw [hC, show f.getD (id1 + j) 0 * Real.pi * 2 / c = 2 * Real.pi * f.getD (id1 + j) 0 / c by ring]
    exact C75_power form hf _ mics hm s hs P
  simp only [hj]
  unfold integrate
  by_cases h1 : id2 = id1 + 1
  · rw [if_pos h1, if_neg (by omega)]
  · rw [if_neg h1, if_pos (by omega), simpson_const _ (by omega)]
    congr 2
    rw [show id2 - 1 - id1 = id2 - id1 - 1 by omega, Nat.cast_sub (show 1 ≤ id2 - id1 by omega)]
    norm_num

/-- The classic formulation has its maximum at the source, too. -/
theorem C75_classic_location (k : ℝ) (mics : List Point) (s t : Point) (P : ℝ) (hP : 0 ≤ P) :
    das mics.length false (oneSource P (field k mics s)) (steering .classic k mics t) ≤
      das mics.length false (oneSource P (field k mics s)) (steering .classic k mics s) := by
  unfold das
  simp only [Bool.false_eq_true, if_false]
  rw [response, form_oneSource]
  refine mul_le_mul_of_nonneg_left ?_ hP
  refine pow_le_pow_left₀ (norm_nonneg _) ((norm_sum_le _ _).trans (le_of_eq ?_)) 2
  unfold gain
  refine sum_congr rfl fun i _ => ?_
  rw [norm_mul, RCLike.norm_conj]
  have h1 : ‖steering .classic k mics t i‖ = magnitude .classic mics s i := by
    unfold steering
    rw [norm_mul, norm_phase, mul_one, norm_real, Real.norm_eq_abs]
    unfold magnitude
    dsimp only
    exact abs_of_nonneg (by positivity)
  have h2 : ‖field k mics s i‖ = distance s (center mics) / distance s (mics.getD i 0) := by
    rw [field_eq, norm_mul, norm_phase, mul_one, norm_real, Real.norm_eq_abs]
    exact abs_of_nonneg (div_nonneg (distance_nonneg _ _) (distance_nonneg _ _))
  rw [h1, h2]

/-! ### Cross-spectral matrices of signals -/

theorem csqrt_ofReal (a : ℝ) (ha : 0 ≤ a) : CSM.csqrt (a : ℂ) = ((√a : ℝ) : ℂ) := by
  unfold CSM.csqrt
  rw [show (1 / 2 : ℂ) = ((1 / 2 : ℝ) : ℂ) by push_cast; rfl, ← ofReal_cpow ha, Real.sqrt_eq_rpow]

/-- The mean power of the values `S` in `m` frames. -/
noncomputable def meanPower (m : ℕ) (S : ℕ → ℂ) : ℝ := (∑ t ∈ range m, ‖S t‖ ^ 2) / m

/-- The entries of the matrix of signals whose frames are the ones of one source. -/
theorem welch_source (p : CSM.Params) (sc : Scaling.Scaling) (ha : p.average = .mean) (n L : ℕ)
    (x : ℕ → List ℝ) (C : ℕ → ℕ → ℕ → ℂ)
    (h : CSM.csmWelch p sc n L x = .ok C) (k m : ℕ) (S a : ℕ → ℂ)
    (hm : ∀ i < n, (CSM.frames p (x i)).length = m)
    (hb : ∀ i < n, ∀ t < m,
      CSM.frameBin p sc ((CSM.frames p (x i)).getD t []) k = S t * a i) :
    ∃ E : ℕ → ℕ → ℂ, C k = CSM.assemble E ∧
      ∀ i < n, ∀ j < n, E i j = CSM.welchScale p sc k (oneSource (meanPower m S) a j i) := by
  unfold CSM.csmWelch at h
  split at h
  · cases h
  cases h
  refine ⟨_, rfl, fun i hi j hj => ?_⟩
  have hprod : CSM.products p sc (x i) (if i ≠ j then some (x j) else none) k =
      (List.range m).map fun t => (starRingEnd ℂ) (S t * a i) * (S t * a j) := by
    by_cases hij : i = j
    · subst hij
      rw [if_neg (by simp)]
      simp only [CSM.products]
      rw [CSM.map_eq_range (fun f => ((‖CSM.frameBin p sc f k‖ ^ 2 : ℝ) : ℂ)), hm i hi]
      refine List.map_congr_left fun t ht => ?_
      rw [← Complex.normSq_eq_norm_sq, Complex.normSq_eq_conj_mul_self,
        hb i hi t (List.mem_range.1 ht)]
    · rw [if_pos hij]
      simp only [CSM.products]
      rw [CSM.zipWith_eq_range _ _ _ ((hm i hi).trans (hm j hj).symm), hm i hi]
      refine List.map_congr_left fun t ht => ?_
      rw [hb i hi t (List.mem_range.1 ht), hb j hj t (List.mem_range.1 ht)]
  unfold CSM.welch
  congr 1
  rw [ha, hprod]
  simp only [CSM.averaged, List.length_map, List.length_range]
  have hsum : ((List.range m).map fun t => (starRingEnd ℂ) (S t * a i) * (S t * a j)).sum =
      ∑ t ∈ range m, (starRingEnd ℂ) (S t * a i) * (S t * a j) := rfl
  rw [hsum]
  unfold oneSource meanPower
  push_cast
  rw [div_mul_eq_mul_div, sum_mul]
  congr 1
  refine sum_congr rfl fun t _ => ?_
  rw [map_mul, ← ofReal_pow, ← Complex.normSq_eq_norm_sq, ← mul_conj]
  ring

/-- With a power scaling, `get_csm` delivers the matrix of one source for the signals of one source:
the power is the mean over the frames, times the factor of the scaling. -/
theorem C75_signals_partial (p : CSM.Params) (sc : Scaling.Scaling) (hsc : sc.isAmplitude = false)
    (ha : p.average = .mean) (n L : ℕ) (x : ℕ → List ℝ)
    (C : ℕ → ℕ → ℕ → ℂ) (h : CSM.csmWelch p sc n L x = .ok C) (k m : ℕ) (S a : ℕ → ℂ)
    (hm : ∀ i < n, (CSM.frames p (x i)).length = m)
    (hb : ∀ i < n, ∀ t < m,
      CSM.frameBin p sc ((CSM.frames p (x i)).getD t []) k = S t * a i) :
    ∃ g : ℝ, 0 ≤ g ∧ (∀ v, CSM.welchScale p sc k v = v * g) ∧
      ∀ r < n, ∀ c < n, C k r c = oneSource (g * meanPower m S) a r c := by
  obtain ⟨E, hE, hv⟩ := welch_source p sc ha n L x C h k m S a hm hb
  obtain ⟨g, hg, hscale⟩ := CSM.welchScale_power p sc hsc k
  refine ⟨g, hg, hscale, fun r hr c hc => ?_⟩
  have h1 : CSM.assemble E r c =
      CSM.assemble (fun i j => oneSource (g * meanPower m S) a j i) r c := by
    have e : ∀ i < n, ∀ j < n, E i j = oneSource (g * meanPower m S) a j i := by
      intro i hi j hj
      rw [hv i hi j hj, hscale]
      unfold oneSource
      push_cast
      ring
    unfold CSM.assemble CSM.lower
    rw [e c hc r hr, e r hr c hc]
  rw [hE, h1, CSM.assemble_eq]
  intro i j
  unfold oneSource
  rw [map_mul, map_mul, conj_ofReal, conj_conj]
  ring

/-! ### The default scaling -/

/-- Two microphones. -/
def pair : List Point := [![0, 0, 0], ![1, 0, 0]]

theorem distance_axis (x y : ℝ) : distance ![x, 0, 0] ![y, 0, 0] = |x - y| := by
  rw [(C75_distance _ _).1]
  simp only [Matrix.cons_val_zero, Matrix.cons_val_one, Matrix.cons_val]
  rw [sub_self, zero_pow two_ne_zero, add_zero, add_zero, Real.sqrt_sq_eq_abs]

theorem pair_center : center pair = ![0, 0, 0] := by
  have hc : centroid pair = ![1 / 2, 0, 0] := by
    funext i
    fin_cases i <;> simp [centroid, pair]
  have h3 : centerIndex pair = .ok 0 := by
    unfold centerIndex
    rw [hc]
    simp only [pair, List.map_cons, List.map_nil, distance_axis]
    norm_num [Helpers.argmin, Helpers.argminFrom]
  unfold center
  rw [h3]
  rfl


/-- Distances of the point and phase of the pair at the wave number π/2. -/
theorem pair_phase (t : Point) (i : ℕ) :
    phase (Real.pi / 2) pair t i =
      exp (-(Real.pi / 2 * (distance t (pair.getD i 0) - distance t ![0, 0, 0])) * I) := by
  unfold phase
  rw [pair_center]
  congr 1
  push_cast
  ring

/-- The source at `(-1, 0, 0)`: the second microphone has the double distance. -/
theorem pair_source : distance ![-1, 0, 0] ![0, 0, 0] = 1 ∧
    distance ![-1, 0, 0] ![(1 : ℝ), 0, 0] = 2 := by
  rw [distance_axis, distance_axis]
  norm_num

/-- The other point. -/
theorem pair_other : distance ![0, 3 / 4, 0] ![0, 0, 0] = 3 / 4 ∧
    distance ![0, 3 / 4, 0] ![(1 : ℝ), 0, 0] = 5 / 4 := by
  rw [(C75_distance _ _).1, (C75_distance _ _).1]
  simp only [Matrix.cons_val_zero, Matrix.cons_val_one, Matrix.cons_val]
  constructor
  · rw [show ((0 : ℝ) - 0) ^ 2 + (3 / 4 - 0) ^ 2 + (0 - 0) ^ 2 = (3 / 4) ^ 2 by norm_num,
      Real.sqrt_sq (by norm_num)]
  · rw [show ((0 : ℝ) - 1) ^ 2 + (3 / 4 - 0) ^ 2 + (0 - 0) ^ 2 = (5 / 4) ^ 2 by norm_num,
      Real.sqrt_sq (by norm_num)]

theorem pair_field (i : ℕ) (hi : i < 2) :
    field (Real.pi / 2) pair ![-1, 0, 0] i = if i = 0 then 1 else -I / 2 := by
  rw [field_eq, pair_phase, pair_center]
  obtain ⟨h0, h1⟩ := pair_source
  interval_cases i
  · simp only [pair, List.getD_cons_zero, h0]
    simp
  · simp only [pair, List.getD_cons_succ, List.getD_cons_zero, h0, h1]
    have : -((Real.pi : ℂ) / 2 * (((2 : ℝ) : ℂ) - ((1 : ℝ) : ℂ))) * I = -(Real.pi / 2 * I) := by
      push_cast
      ring
    rw [this, exp_neg, exp_pi_div_two_mul_I, inv_I]
    push_cast
    simp
    ring

/-- Two frames of 8 samples without overlap, rectangular window, sampling rate 343 Hz (as the speed
of sound, so that bin 2 has the wave number π/2). -/
def pairParams : CSM.Params := ⟨8, List.replicate 8 1, 0, false, .mean, 343⟩

/-- The signals of a source that emits a cosine with a quarter of the sampling rate. -/
noncomputable def pairSignal (i : ℕ) : List ℝ :=
  (List.range 16).map fun t : ℕ => if i = 0 then (if t % 4 = 0 then 1 else if t % 4 = 2 then -1 else 0)
    else (if t % 4 = 1 then 1 / 2 else if t % 4 = 3 then -1 / 2 else 0)

theorem pair_frames (sc : Scaling.Scaling) (hsc : CSM.fftNorm sc 8 = 1) (i : ℕ) (hi : i < 2) :
    (CSM.frames pairParams (pairSignal i)).length = 2 ∧
    ∀ t < 2, CSM.frameBin pairParams sc ((CSM.frames pairParams (pairSignal i)).getD t []) 2 =
        4 * field (Real.pi / 2) pair ![-1, 0, 0] i := by
  have hst : pairParams.step = 8 := rfl
  obtain ⟨l, hl, hframes, _, hlt, hle⟩ := Framing.C21_keep (pairSignal i) 8 8 (by norm_num)
  have hlen : (pairSignal i).length = 16 := by simp [pairSignal]
  rw [hlen] at hlt hle
  have h3 : l.length = 2 := by
    have : ¬ 2 < l.length := fun h => by
      have := hlt 2 h
      omega
    omega
  have hfr : CSM.frames pairParams (pairSignal i) = l := by
    unfold CSM.frames
    rw [hst]
    show (match Framing.framed (pairSignal i) 8 8 true with | .ok l => l | .error _ => []) = l
    rw [hl]
  rw [hfr]
  refine ⟨h3, fun t ht => ?_⟩
  have hval : ∀ j < 8, (l.getD t []).getD j 0 = (pairSignal i).getD (t * 8 + j) 0 :=
    fun j hj => (hframes t (by omega)).2 j hj
  have hget : ∀ j < 8, (pairSignal i).getD (t * 8 + j) 0 = if i = 0 then
      (if j % 4 = 0 then 1 else if j % 4 = 2 then -1 else 0)
      else (if j % 4 = 1 then 1 / 2 else if j % 4 = 3 then -1 / 2 else 0) := by
    intro j hj
    unfold pairSignal
    rw [List.getD_eq_getElem _ _ (by simp; omega)]
    simp only [List.getElem_map, List.getElem_range]
    rw [show (t * 8 + j) % 4 = j % 4 by omega]
  have hprep : ∀ j ∈ range 8, ((CSM.prepared pairParams (l.getD t []) j : ℝ) : ℂ) *
      DFT.e 8 (-((2 : ℕ) * j)) = ((if i = 0 then
      (if j % 4 = 0 then 1 else if j % 4 = 2 then -1 else 0)
      else (if j % 4 = 1 then 1 / 2 else if j % 4 = 3 then -1 / 2 else 0) : ℝ) : ℂ) *
        (-I) ^ j := by
    intro j hj
    have hj' := mem_range.mp hj
    have hw : (List.replicate 8 (1 : ℝ)).getD j 0 = 1 := by
      rw [List.getD_eq_getElem _ _ (by simpa using hj'), List.getElem_replicate]
    have he : DFT.e 8 (-((2 : ℕ) * j)) = (-I) ^ j := by
      rw [← inv_I, ← exp_pi_div_two_mul_I, ← exp_neg, ← exp_nat_mul]
      unfold DFT.e
      congr 1
      push_cast
      ring
    rw [he, ← hget j hj', ← hval j hj']
    simp only [CSM.prepared, pairParams, Bool.false_eq_true, if_false]
    rw [hw, mul_one]
  unfold CSM.frameBin DFT.rfft DFT.dft
  rw [show pairParams.W = 8 from rfl, hsc, Finset.sum_congr rfl hprep, pair_field i hi]
  have i2 : (-I) ^ 2 = -1 := by rw [neg_sq, I_sq]
  have i3 : (-I) ^ 3 = I := by rw [pow_succ, i2]; ring
  have i4 : (-I) ^ 4 = 1 := by rw [show 4 = 2 + 2 from rfl, pow_add, i2]; ring
  have i5 : (-I) ^ 5 = -I := by rw [pow_succ, i4, one_mul]
  have i6 : (-I) ^ 6 = -1 := by rw [show 6 = 4 + 2 from rfl, pow_add, i4, one_mul, i2]
  have i7 : (-I) ^ 7 = I := by rw [show 7 = 4 + 3 from rfl, pow_add, i4, one_mul, i3]
  simp only [Finset.sum_range_succ, Finset.sum_range_zero, pow_zero, pow_one, i2, i3, i4, i5, i6, i7]
  interval_cases i
  · norm_num
  · norm_num
    ring

/-- With the default parameters of `set_spectrum_parameters` (Welch's method and the scaling
`FFTBackward`) the entries of the matrix are the square roots of the cross-spectra, which halves the
phases: the map of a source is then larger at another point, with or without the diagonal.  The
formulation is the classic one, whose maximum is at the source for the cross-spectra
(`C75_classic_location`). -/
theorem C75_default_scaling_wrong : ∃ C,
    CSM.csmWelch pairParams .fftBackward 2 16 pairSignal = .ok C ∧
    (∀ i < 2, ∀ t < 2, CSM.frameBin pairParams .fftBackward
      ((CSM.frames pairParams (pairSignal i)).getD t []) 2 =
        4 * field (Real.pi / 2) pair ![-1, 0, 0] i) ∧
    ∀ remove, das 2 remove (C 2) (steering .classic (Real.pi / 2) pair ![-1, 0, 0]) <
      das 2 remove (C 2) (steering .classic (Real.pi / 2) pair ![0, 3 / 4, 0]) := by
  obtain ⟨C, hC⟩ := CSM.C43_welch_accepts pairParams .fftBackward 3 le_rfl (by norm_num) rfl
    (by decide) 2 16 (by decide) pairSignal
  refine ⟨C, hC, fun i hi => (pair_frames .fftBackward rfl i hi).2, ?_⟩
  obtain ⟨E, hE, hv⟩ := welch_source pairParams .fftBackward rfl 2 16 pairSignal C hC 2 2
    (fun _ => 4) (field (Real.pi / 2) pair ![-1, 0, 0])
    (fun i hi => (pair_frames .fftBackward rfl i hi).1)
    (fun i hi => (pair_frames .fftBackward rfl i hi).2)
  have hP : meanPower 2 (fun _ => 4) = 16 := by
    unfold meanPower
    norm_num
  have hscale : ∀ c, CSM.welchScale pairParams .fftBackward 2 c = CSM.csqrt c := by
    intro c
    unfold CSM.welchScale
    simp [CSM.physical, Scaling.Scaling.isAmplitude]
  rw [hP] at hv
  have f0 := pair_field 0 (by norm_num)
  have f1 := pair_field 1 (by norm_num)
  rw [if_pos rfl] at f0
  rw [if_neg (by norm_num)] at f1
  have e00 : E 0 0 = 4 := by
    rw [hv 0 (by norm_num) 0 (by norm_num), hscale]
    unfold oneSource
    rw [f0, map_one, mul_one, mul_one, csqrt_ofReal _ (by norm_num),
      show (16 : ℝ) = 4 ^ 2 by norm_num, Real.sqrt_sq (by norm_num)]
    norm_num
  have e11 : E 1 1 = 2 := by
    rw [hv 1 (by norm_num) 1 (by norm_num), hscale]
    unfold oneSource
    rw [f1, mul_conj, show normSq (-I / 2) = 1 / 4 by norm_num [normSq_apply], ← ofReal_mul,
      csqrt_ofReal _ (by norm_num), show (16 : ℝ) * (1 / 4) = 2 ^ 2 by norm_num,
      Real.sqrt_sq (by norm_num)]
    norm_num
  have e01 : E 0 1 = 2 - 2 * I := by
    rw [hv 0 (by norm_num) 1 (by norm_num), hscale]
    unfold oneSource CSM.csqrt
    rw [f0, f1, map_one, mul_one,
      show ((16 : ℝ) : ℂ) * (-I / 2) = (2 - 2 * I) ^ 2 by
        push_cast
        linear_combination (-4 : ℂ) * I_sq,
      one_div]
    exact sq_cpow_two_inv (by simp)
  have k2 : (starRingEnd ℂ) 2 = 2 := map_ofNat _ 2
  have k4 : (starRingEnd ℂ) 4 = 4 := map_ofNat _ 4
  have c00 : C 2 0 0 = 4 := by
    rw [hE]
    unfold CSM.assemble CSM.lower
    simp only [lt_irrefl, if_false, if_true, e00, map_mul]
    norm_num [k2, k4]
  have c11 : C 2 1 1 = 2 := by
    rw [hE]
    unfold CSM.assemble CSM.lower
    simp only [lt_irrefl, if_false, if_true, e11, map_mul]
    norm_num [k2, k4]
  have c10 : C 2 1 0 = 2 - 2 * I := by
    rw [hE]
    unfold CSM.assemble CSM.lower
    simp [e01]
  have c01 : C 2 0 1 = 2 + 2 * I := by
    rw [hE]
    unfold CSM.assemble CSM.lower
    simp [e01, k2]
  obtain ⟨s0, s1⟩ := pair_source
  obtain ⟨t0, t1⟩ := pair_other
  have hs0 : steering .classic (Real.pi / 2) pair ![-1, 0, 0] 0 = 1 / 2 := by
    unfold steering
    rw [pair_phase]
    simp [magnitude, pair]
  have hs1 : steering .classic (Real.pi / 2) pair ![-1, 0, 0] 1 = -I / 2 := by
    unfold steering
    rw [pair_phase]
    simp only [magnitude, pair, List.getD_cons_succ, List.getD_cons_zero, s0, s1]
    have : -((Real.pi : ℂ) / 2 * (((2 : ℝ) : ℂ) - ((1 : ℝ) : ℂ))) * I = -(Real.pi / 2 * I) := by
      push_cast
      ring
    rw [this, exp_neg, exp_pi_div_two_mul_I, inv_I]
    simp
    ring
  have ht0 : steering .classic (Real.pi / 2) pair ![0, 3 / 4, 0] 0 = 1 / 2 := by
    unfold steering
    rw [pair_phase]
    simp [magnitude, pair]
  have ht1 : steering .classic (Real.pi / 2) pair ![0, 3 / 4, 0] 1 =
      ((√2 / 4 : ℝ) : ℂ) - ((√2 / 4 : ℝ) : ℂ) * I := by
    unfold steering
    rw [pair_phase]
    simp only [magnitude, pair, List.getD_cons_succ, List.getD_cons_zero, t0, t1]
    have : -((Real.pi : ℂ) / 2 * (((5 / 4 : ℝ) : ℂ) - ((3 / 4 : ℝ) : ℂ))) * I =
        ((-(Real.pi / 4) : ℝ) : ℂ) * I := by
      push_cast
      ring
    rw [this, exp_mul_I, ← ofReal_cos, ← ofReal_sin, Real.cos_neg, Real.sin_neg,
      Real.cos_pi_div_four, Real.sin_pi_div_four]
    simp
    ring
  have hs0' : (starRingEnd ℂ) (1 / 2) = 1 / 2 := by rw [map_div₀, map_one, k2]
  have hs1' : (starRingEnd ℂ) (-I / 2) = I / 2 := by rw [map_div₀, map_neg, conj_I, k2, neg_neg]
  have ht1' : (starRingEnd ℂ) (((√2 / 4 : ℝ) : ℂ) - ((√2 / 4 : ℝ) : ℂ) * I) =
      ((√2 / 4 : ℝ) : ℂ) + ((√2 / 4 : ℝ) : ℂ) * I := by
    rw [map_sub, map_mul, conj_ofReal, conj_I]
    ring
  have hform : ∀ D : ℕ → ℕ → ℂ, ∀ h : ℕ → ℂ, form 2 h D =
      ((starRingEnd ℂ) (h 0) * D 0 0 * h 0 + (starRingEnd ℂ) (h 0) * D 0 1 * h 1 +
        ((starRingEnd ℂ) (h 1) * D 1 0 * h 0 + (starRingEnd ℂ) (h 1) * D 1 1 * h 1)).re := by
    intro D h
    unfold form
    simp only [sum_range_succ, sum_range_zero, zero_add]
  have h2 : (√2 : ℝ) ^ 2 = 2 := Real.sq_sqrt (by norm_num)
  have h2' : (1.4 : ℝ) < √2 := by
    rw [Real.lt_sqrt (by norm_num)]
    norm_num
  intro remove
  cases remove with
  | false =>
    unfold das
    simp only [Bool.false_eq_true, if_false]
    rw [hform, hform, c00, c01, c10, c11, hs0, hs1, ht0, ht1, hs0', hs1', ht1']
    simp
    nlinarith
  | true =>
    unfold das
    simp only [if_true]
    have d : ∀ r c, withoutDiagonal 2 (C 2) r c = if r = c then 0 else 2 * C 2 r c := by
      intro r c
      unfold withoutDiagonal
      norm_num
      split_ifs <;> ring
    have vs : form 2 (steering .classic (Real.pi / 2) pair ![-1, 0, 0]) (withoutDiagonal 2 (C 2)) =
        2 := by
      rw [hform, d, d, d, d, c01, c10, hs0, hs1, hs0', hs1']
      simp
      norm_num
    have vt : form 2 (steering .classic (Real.pi / 2) pair ![0, 3 / 4, 0])
        (withoutDiagonal 2 (C 2)) = 2 * √2 := by
      rw [hform, d, d, d, d, c01, c10, ht0, ht1, hs0', ht1']
      simp
      ring
    rw [vs, vt, if_neg (by norm_num), if_neg (by linarith)]
    linarith

/-- With the FFT instead of Welch's method the default scaling is right. -/
theorem C75_fft (F n fs : ℕ) (X : ℕ → ℕ → ℂ) (S : ℕ → ℂ) (a : ℕ → ℕ → ℂ)
    (hX : ∀ i k, X i k = S k * a k i) :
    ∃ C, CSM.csmFft F n fs .fftBackward none X = .ok C ∧
      ∀ k r c, C k r c = oneSource (‖S k‖ ^ 2) (a k) r c := by
  refine ⟨_, by unfold CSM.csmFft; dsimp only; rw [if_pos rfl], fun k r c => ?_⟩
  rw [CSM.assemble_eq]
  · rw [hX, hX]
    unfold oneSource
    rw [map_mul, ← Complex.normSq_eq_norm_sq, ← mul_conj]
    ring
  · intro i j
    rw [map_mul, conj_conj]
    ring

/-! ### Where the maximum is elsewhere -/

/-- Three microphones on a line, around the origin. -/
def line : List Point := [![-1, 0, 0], ![0, 0, 0], ![1, 0, 0]]

theorem line_center : center line = ![0, 0, 0] := by
  have hc : centroid line = ![0, 0, 0] := by
    funext i
    fin_cases i <;> simp [centroid, line]
  have h3 : centerIndex line = .ok 1 := by
    unfold centerIndex
    rw [hc]
    simp only [line, List.map_cons, List.map_nil, distance_axis]
    norm_num [Helpers.argmin, Helpers.argminFrom]
  unfold center
  rw [h3]
  rfl

theorem line_mic (i : ℕ) (hi : i < 3) : line.getD i 0 = ![(i : ℝ) - 1, 0, 0] := by
  interval_cases i <;> simp [line]
  norm_num

theorem line_distance (x : ℝ) (hx : 1 < x) (i : ℕ) (hi : i < 3) :
    distance ![x, 0, 0] (line.getD i 0) = x + 1 - i := by
  rw [line_mic i hi, distance_axis, abs_of_pos]
  · ring
  · have : (i : ℝ) ≤ 2 := by exact_mod_cast (by omega : i ≤ 2)
    linarith

theorem line_center_distance (x : ℝ) (hx : 1 < x) :
    distance ![x, 0, 0] (center line) = x := by
  rw [line_center, distance_axis, sub_zero, abs_of_pos (by linarith)]

/-- On the axis all microphones are in phase if they are one wavelength apart. -/
theorem line_phase (x : ℝ) (hx : 1 < x) (i : ℕ) (hi : i < 3) :
    phase (2 * Real.pi) line ![x, 0, 0] i = 1 := by
  unfold phase
  rw [line_distance x hx i hi, line_center_distance x hx]
  rw [exp_eq_one_iff]
  refine ⟨(i : ℤ) - 1, ?_⟩
  push_cast
  ring

theorem line_apart (x : ℝ) (hx : 1 < x) : Apart line ![x, 0, 0] := by
  refine ⟨by rw [line_center_distance x hx]; linarith, fun i hi => ?_⟩
  have hi' : i < 3 := hi
  rw [line_distance x hx i hi']
  have : (i : ℝ) ≤ 2 := by exact_mod_cast (by omega : i ≤ 2)
  linarith

/-- The maps of the formulations inverse and true power can be larger than the power of the only
source at other points, i.e. their maximum need not be at the source. -/
theorem C75_maximum_elsewhere (f : Formulation) (hf : f = .inverse ∨ f = .truePower) (P : ℝ)
    (hP : 0 < P) :
    das line.length false (oneSource P (field (2 * Real.pi) line ![2, 0, 0]))
        (steering f (2 * Real.pi) line ![2, 0, 0]) <
      das line.length false (oneSource P (field (2 * Real.pi) line ![2, 0, 0]))
        (steering f (2 * Real.pi) line ![3, 0, 0]) := by
  rw [C75_power f hf _ line (by simp [line]) _ (line_apart 2 (by norm_num))]
  unfold das
  simp only [Bool.false_eq_true, if_false]
  rw [form_oneSource]
  have hsum : ∑ i ∈ range line.length, (starRingEnd ℂ) (steering f (2 * Real.pi) line ![3, 0, 0] i) *
      field (2 * Real.pi) line ![2, 0, 0] i =
      ((∑ i ∈ range 3, magnitude f line ![3, 0, 0] i * (2 / (3 - (i : ℝ))) : ℝ) : ℂ) := by
    rw [ofReal_sum]
    refine sum_congr rfl fun i hi => ?_
    have hi' : i < 3 := mem_range.1 hi
    rw [field_eq, line_distance 2 (by norm_num) i hi', line_center_distance 2 (by norm_num)]
    unfold steering
    rw [line_phase 2 (by norm_num) i hi', line_phase 3 (by norm_num) i hi', mul_one, mul_one,
      conj_ofReal, ← ofReal_mul]
    norm_num
  have hv : 1 < ∑ i ∈ range 3, magnitude f line ![3, 0, 0] i * (2 / (3 - (i : ℝ))) := by
    have d0 := line_distance 3 (by norm_num) 0 (by norm_num)
    have d1 := line_distance 3 (by norm_num) 1 (by norm_num)
    have d2 := line_distance 3 (by norm_num) 2 (by norm_num)
    have dc := line_center_distance 3 (by norm_num)
    have hl : line.length = 3 := rfl
    rcases hf with rfl | rfl
    · simp only [sum_range_succ, sum_range_zero, magnitude, d0, d1, d2, dc, hl]
      norm_num
    · simp only [sum_range_succ, sum_range_zero, magnitude, d0, d1, d2, dc, hl, inverseSquares_eq]
      norm_num
  rw [hsum, norm_real, Real.norm_eq_abs, sq_abs]
  have : 1 < (∑ i ∈ range 3, magnitude f line ![3, 0, 0] i * (2 / (3 - (i : ℝ)))) ^ 2 := by
    nlinarith
  nlinarith

/-! ### Concrete cases -/

/-- A source with three microphones: all hypotheses on the positions hold. -/
example (k P : ℝ) : das line.length false (oneSource P (field k line ![2, 0, 0]))
    (steering .truePower k line ![2, 0, 0]) = P :=
  C75_power .truePower (.inr rfl) k line (by simp [line]) _ (line_apart 2 (by norm_num)) P

example (k : ℝ) : das line.length false (oneSource 5 (field k line ![2, 0, 0]))
    (steering .trueLocation k line ![7, 0, 0]) ≤
    das line.length false (oneSource 5 (field k line ![2, 0, 0]))
      (steering .trueLocation k line ![2, 0, 0]) :=
  C75_location k line (by simp [line]) _ _ (line_apart 2 (by norm_num)) (line_apart 7 (by norm_num))
    5 (by norm_num)

/-- Signals of one source exist: the ones of the pair of microphones. -/
example : ∃ C, CSM.csmWelch pairParams .powSpectrum 2 16 pairSignal = .ok C ∧
    ∃ g : ℝ, 0 ≤ g ∧ ∀ r < 2, ∀ c < 2,
      C 2 r c = oneSource (g * meanPower 2 fun _ => 4) (field (Real.pi / 2) pair ![-1, 0, 0]) r c := by
  obtain ⟨C, hC⟩ := CSM.C43_welch_accepts pairParams .powSpectrum 3 le_rfl (by norm_num) rfl
    (by decide) 2 16 (by decide) pairSignal
  obtain ⟨g, hg, -, h⟩ := C75_signals_partial pairParams .powSpectrum rfl rfl 2 16 pairSignal C hC 2 2
    (fun _ => 4) (field (Real.pi / 2) pair ![-1, 0, 0])
    (fun i hi => (pair_frames .powSpectrum rfl i hi).1)
    (fun i hi => (pair_frames .powSpectrum rfl i hi).2)
  exact ⟨C, hC, g, hg, h⟩

/-- The whole map with a band of one bin. -/
example (P : ℝ) : ∃ v, dasMap .inverse line 343 [0, 10, 20]
    (fun j => oneSource P (field (2 * Real.pi * ([0, 10, 20] : List ℝ).getD j 0 / 343) line ![2, 0, 0]))
    10 0 false ![2, 0, 0] = .ok v ∧ v = P := by
  have hb : bins [0, 10, 20] 10 0 = .ok (1, 2) := by
    unfold bins octaveBand
    rw [if_pos rfl]
    have : Helpers.findNearest ([10, 10] : List ℝ) [0, 10, 20] = .ok [1, 1] := by
      norm_num [Helpers.findNearest, Helpers.argmin, Helpers.argminFrom]
      rfl
    rw [this]
    rfl
  obtain ⟨v, h, hv⟩ := C75_map_partial .inverse (.inl rfl) line (by simp [line]) 343 [0, 10, 20] _ 10 0
    ![2, 0, 0] (line_apart 2 (by norm_num)) P (fun j => rfl) 1 2 hb (by norm_num)
  exact ⟨v, h, by rw [hv, if_pos rfl]⟩

end Verif.Beamforming

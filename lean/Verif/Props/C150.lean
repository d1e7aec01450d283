import Verif.Model.KautzPoles
import Verif.Lemmas.FilterBank
import Verif.Model.Kautz
import Mathlib.Analysis.InnerProductSpace.Projection.Basic
import Mathlib.Analysis.InnerProductSpace.PiL2
import Mathlib.Topology.Algebra.Module.FiniteDimension
import Mathlib.RingTheory.PowerSeries.Basic
import Mathlib.Analysis.Complex.Norm
import Mathlib.Tactic.Linarith

/-!
# C150: the poles found for a Kautz filter
-/

namespace Verif.Props.C150

open Verif.KautzPoles Verif.Bank
open scoped PowerSeries

/-- The sum of the squared differences `A x - b`. -/
noncomputable def residual (A : Mat ℝ) (b x : List ℝ) : ℝ :=
  ∑ r ∈ Finset.range A.rows, ((∑ k ∈ Finset.range A.cols, A.val r k * x.getD k 0) - b.getD r 0) ^ 2

/-- What `scipy.linalg.lstsq` promises: as many numbers as columns; no other numbers have a
smaller residual, and those with the same residual are not shorter. -/
def Solves (solve : Solver) : Prop :=
  ∀ A b, (solve A b).length = A.cols ∧ ∀ x : List ℝ, residual A b (solve A b) ≤ residual A b x ∧
    (residual A b x = residual A b (solve A b) →
      ∑ k ∈ Finset.range A.cols, (solve A b).getD k 0 ^ 2 ≤ ∑ k ∈ Finset.range A.cols, x.getD k 0 ^ 2)

/-! ## Energy of the first coefficients of a power series -/

/-- Energy of the first `n` coefficients. -/
noncomputable def E (n : ℕ) (F : ℂ⟦X⟧) : ℝ := ∑ r ∈ Finset.range n, ‖PowerSeries.coeff r F‖ ^ 2

theorem E_nonneg (n : ℕ) (F : ℂ⟦X⟧) : 0 ≤ E n F := Finset.sum_nonneg fun _ _ => sq_nonneg _

theorem E_pos {n : ℕ} {F : ℂ⟦X⟧} (r : ℕ) (hr : r < n) (h : PowerSeries.coeff r F ≠ 0) : 0 < E n F :=
  lt_of_lt_of_le (pow_pos (norm_pos_iff.2 h) 2)
    (Finset.single_le_sum (f := fun r => ‖PowerSeries.coeff r F‖ ^ 2) (fun _ _ => sq_nonneg _)
      (Finset.mem_range.2 hr))

theorem E_eq_zero {n : ℕ} {F : ℂ⟦X⟧} (h : E n F ≤ 0) (r : ℕ) (hr : r < n) :
    PowerSeries.coeff r F = 0 := by
  by_contra hne
  exact absurd (E_pos r hr hne) (not_lt.2 h)

/-- Delaying by one sample loses energy at most. -/
theorem E_shift (n : ℕ) (F : ℂ⟦X⟧) : E n (PowerSeries.X * F) ≤ E n F := by
  unfold E
  cases n with
  | zero => simp
  | succ n =>
    rw [Finset.sum_range_succ', Finset.sum_range_succ]
    have h : ∀ r, PowerSeries.coeff (r + 1) (PowerSeries.X * F) = PowerSeries.coeff r F :=
      fun r => PowerSeries.coeff_succ_X_mul r F
    simp only [h]
    rw [PowerSeries.coeff_zero_X_mul, norm_zero]
    nlinarith [sq_nonneg ‖PowerSeries.coeff n F‖]

/-- Inner product of the first `n` coefficients of the delayed series with the series. -/
noncomputable def cross (n : ℕ) (F G : ℂ⟦X⟧) : ℂ :=
  ∑ r ∈ Finset.range n, PowerSeries.coeff r F * (starRingEnd ℂ) (PowerSeries.coeff r G)

theorem norm_sub_sq (a b μ : ℂ) :
    ‖a - μ * b‖ ^ 2 = ‖a‖ ^ 2 - 2 * ((starRingEnd ℂ) μ * (a * (starRingEnd ℂ) b)).re +
      ‖μ‖ ^ 2 * ‖b‖ ^ 2 := by
  simp only [← Complex.normSq_eq_norm_sq, Complex.normSq_apply, Complex.sub_re, Complex.sub_im,
    Complex.mul_re, Complex.mul_im, Complex.conj_re, Complex.conj_im]
  ring

theorem E_sub (n : ℕ) (F G : ℂ⟦X⟧) (μ : ℂ) :
    E n (F - PowerSeries.C μ * G) = E n F - 2 * ((starRingEnd ℂ) μ * cross n F G).re +
      ‖μ‖ ^ 2 * E n G := by
  unfold E cross
  rw [Finset.mul_sum, Complex.re_sum, Finset.mul_sum, Finset.mul_sum, ← Finset.sum_sub_distrib,
    ← Finset.sum_add_distrib]
  refine Finset.sum_congr rfl fun r _ => ?_
  rw [map_sub, PowerSeries.coeff_C_mul, norm_sub_sq]

/-- If no other multiple of `V` is nearer to the delayed `V`, the factor is below one. -/
theorem factor_lt_one (n : ℕ) (V : ℂ⟦X⟧) (l : ℂ) (hV : 0 < E n V)
    (hmin : ∀ μ, E n (PowerSeries.X * V - PowerSeries.C l * V) ≤
      E n (PowerSeries.X * V - PowerSeries.C μ * V)) : ‖l‖ < 1 := by
  by_contra hge
  have hge := not_lt.1 hge
  set a := E n V with ha
  set c := cross n (PowerSeries.X * V) V with hc
  have hE := fun μ => E_sub n (PowerSeries.X * V) V μ
  -- the best factor
  have h1 := hmin (c / a)
  rw [hE, hE, ← hc, ← ha] at h1
  have hbest : (((starRingEnd ℂ) (c / a)) * c).re = ‖c‖ ^ 2 / a := by
    rw [map_div₀, Complex.conj_ofReal, div_mul_eq_mul_div, mul_comm, Complex.mul_conj,
      ← Complex.ofReal_div, Complex.ofReal_re, Complex.normSq_eq_norm_sq]
  have hn : ‖c / (a : ℂ)‖ ^ 2 * a = ‖c‖ ^ 2 / a := by
    rw [norm_div, Complex.norm_real, Real.norm_of_nonneg hV.le]
    field_simp
  rw [hbest, hn] at h1
  have h2 := norm_sub_sq c (a : ℂ) l
  have hna : ‖(a : ℂ)‖ = a := by rw [Complex.norm_real, Real.norm_of_nonneg hV.le]
  rw [hna] at h2
  have h3 : ((starRingEnd ℂ) l * (c * (starRingEnd ℂ) (a : ℂ))).re = a * ((starRingEnd ℂ) l * c).re := by
    rw [Complex.conj_ofReal, ← mul_assoc, mul_comm _ (a : ℂ), Complex.re_ofReal_mul]
  rw [h3] at h2
  -- so the factor is the best one
  have h4 : ‖c - l * a‖ ^ 2 ≤ 0 := by
    have hq : ‖c‖ ^ 2 / a * a = ‖c‖ ^ 2 := by field_simp
    nlinarith
  have h5 : c = l * a := by
    have : ‖c - l * a‖ = 0 := by nlinarith [norm_nonneg (c - l * a), sq_nonneg ‖c - l * a‖]
    exact sub_eq_zero.1 (norm_eq_zero.1 this)
  -- and nothing remains
  have h6 : E n (PowerSeries.X * V - PowerSeries.C l * V) ≤ 0 := by
    rw [hE, ← hc, ← ha, h5]
    have : ((starRingEnd ℂ) l * (l * (a : ℂ))).re = ‖l‖ ^ 2 * a := by
      rw [← mul_assoc, mul_comm _ l, Complex.mul_conj, ← Complex.ofReal_mul, Complex.ofReal_re,
        Complex.normSq_eq_norm_sq]
    rw [this]
    have := E_shift n V
    nlinarith [mul_nonneg (sub_nonneg.2 hge) hV.le, norm_nonneg l,
      mul_nonneg (mul_nonneg (sub_nonneg.2 hge) (norm_nonneg l)) hV.le]
  have hl : l ≠ 0 := fun h => by rw [h, norm_zero] at hge; linarith
  have hz : ∀ r < n, PowerSeries.coeff r V = 0 := by
    intro r
    induction r with
    | zero =>
      intro hr
      have h := E_eq_zero h6 0 hr
      rw [map_sub, PowerSeries.coeff_zero_X_mul, PowerSeries.coeff_C_mul, zero_sub, neg_eq_zero] at h
      exact (mul_eq_zero.1 h).resolve_left hl
    | succ r ih =>
      intro hr
      have h := E_eq_zero h6 (r + 1) hr
      rw [map_sub, PowerSeries.coeff_succ_X_mul, PowerSeries.coeff_C_mul, ih (by omega), zero_sub,
        neg_eq_zero] at h
      exact (mul_eq_zero.1 h).resolve_left hl
  refine absurd hV (not_lt.2 (le_of_eq ?_))
  rw [ha]
  exact Finset.sum_eq_zero fun r hr => by rw [hz r (Finset.mem_range.1 hr)]; simp

/-! ## The least squares problem as a minimum over polynomials -/

/-- The filtered response as a power series. -/
noncomputable def series (h : List ℝ) : ℂ⟦X⟧ := PowerSeries.mk fun r => ((h.getD r 0 : ℝ) : ℂ)

/-- Entry of the matrix. -/
theorem matrixA_val (N : ℕ) (h : List ℝ) (r k : ℕ) :
    (matrixA N h).val r k = if r < k then 0 else h.getD (r - k) 0 := rfl

theorem vectorB_getD (N : ℕ) (h : List ℝ) (hN : N ≤ h.length) (r : ℕ) (hr : r < h.length) :
    (vectorB N h).getD r 0 = - (if r < N then 0 else h.getD (r - N) 0) := by
  unfold vectorB
  by_cases hrN : r < N
  · rw [if_pos hrN, List.getD_append _ _ _ _ (by simpa using hrN)]
    simp [hrN]
  · rw [if_neg hrN, List.getD_append_right _ _ _ _ (by simpa using hrN), List.length_replicate]
    have h1 : r - N < h.length - N := by omega
    rw [List.getD_eq_getElem _ _ (by simp; omega), List.getElem_map, List.getElem_take,
      List.getD_eq_getElem _ _ (by omega)]

theorem coeff_act (p : Polynomial ℂ) (N : ℕ) (hp : p.natDegree ≤ N) (h : List ℝ) (r : ℕ) :
    PowerSeries.coeff r ((p : ℂ⟦X⟧) * series h) =
      ∑ k ∈ Finset.range (N + 1), p.coeff k * ((if r < k then 0 else h.getD (r - k) 0 : ℝ) : ℂ) := by
  rw [PowerSeries.coeff_mul, Finset.Nat.sum_antidiagonal_eq_sum_range_succ_mk]
  simp only [Polynomial.coeff_coe, series, PowerSeries.coeff_mk]
  have h1 : ∑ k ∈ Finset.range (r + 1), p.coeff k * ((h.getD (r - k) 0 : ℝ) : ℂ) =
      ∑ k ∈ Finset.range (r + 1), p.coeff k * ((if r < k then 0 else h.getD (r - k) 0 : ℝ) : ℂ) :=
    Finset.sum_congr rfl fun k hk => by
      rw [if_neg (by have := Finset.mem_range.1 hk; omega)]
  rw [h1]
  have h2 : ∀ a b : ℕ, (∀ k, a ≤ k → p.coeff k *
      ((if r < k then 0 else h.getD (r - k) 0 : ℝ) : ℂ) = 0) →
      ∑ k ∈ Finset.range a, p.coeff k * ((if r < k then 0 else h.getD (r - k) 0 : ℝ) : ℂ) =
      ∑ k ∈ Finset.range (max a b), p.coeff k * ((if r < k then 0 else h.getD (r - k) 0 : ℝ) : ℂ) :=
    fun a b hz => Finset.sum_subset
      (fun k hk => Finset.mem_range.2 (lt_of_lt_of_le (Finset.mem_range.1 hk) (le_max_left a b)))
      fun k _ hk => hz k (by simpa using hk)
  rw [h2 (r + 1) (N + 1) fun k hk => by rw [if_pos (by omega)]; simp,
    h2 (N + 1) (r + 1) fun k hk => by
      rw [Polynomial.coeff_eq_zero_of_natDegree_lt (by omega), zero_mul], max_comm]

/-- The difference of row `r` is a coefficient of the product. -/
theorem row_eq (N : ℕ) (h : List ℝ) (hN : N ≤ h.length) (x : List ℝ) (r : ℕ) (hr : r < h.length) :
    (∑ k ∈ Finset.range (matrixA N h).cols, (matrixA N h).val r k * x.getD k 0) -
      (vectorB N h).getD r 0 =
    (∑ k ∈ Finset.range N, x.getD k 0 * (if r < k then 0 else h.getD (r - k) 0)) +
      (if r < N then 0 else h.getD (r - N) 0) := by
  rw [vectorB_getD N h hN r hr, sub_neg_eq_add]
  congr 1
  exact Finset.sum_congr rfl fun k _ => by rw [matrixA_val, mul_comm]

/-- Every monic polynomial has at least the residual of the real parts of its coefficients. -/
theorem residual_le (N : ℕ) (h : List ℝ) (hN : N ≤ h.length) (p : Polynomial ℂ) (hp : p.Monic)
    (hd : p.natDegree = N) :
    residual (matrixA N h) (vectorB N h) ((List.range N).map fun k => (p.coeff k).re) ≤
      E h.length ((p : ℂ⟦X⟧) * series h) := by
  unfold residual E
  refine Finset.sum_le_sum fun r hr => ?_
  have hr : r < h.length := Finset.mem_range.1 hr
  rw [row_eq N h hN _ r hr, coeff_act p N hd.le h r, Finset.sum_range_succ]
  have hlead : p.coeff N = 1 := by rw [← hd]; exact hp
  rw [hlead, one_mul]
  refine le_trans (le_of_eq ?_) (pow_le_pow_left₀ (abs_nonneg _) (Complex.abs_re_le_norm _) 2)
  rw [sq_abs, Complex.add_re, Complex.ofReal_re, Complex.re_sum]
  congr 2
  refine Finset.sum_congr rfl fun k hk => ?_
  rw [Complex.re_mul_ofReal, LFilter.getD_map_range, if_pos (Finset.mem_range.1 hk)]

/-- A polynomial with real coefficients has the residual of its coefficients. -/
theorem residual_eq (N : ℕ) (h : List ℝ) (hN : N ≤ h.length) (x : List ℝ) (p : Polynomial ℂ)
    (hp : p.Monic) (hd : p.natDegree = N) (hx : ∀ k < N, p.coeff k = ((x.getD k 0 : ℝ) : ℂ)) :
    E h.length ((p : ℂ⟦X⟧) * series h) = residual (matrixA N h) (vectorB N h) x := by
  unfold residual E
  refine Finset.sum_congr rfl fun r hr => ?_
  have hr : r < h.length := Finset.mem_range.1 hr
  rw [row_eq N h hN _ r hr, coeff_act p N hd.le h r, Finset.sum_range_succ]
  have hlead : p.coeff N = 1 := by rw [← hd]; exact hp
  rw [hlead, one_mul]
  rw [show (∑ k ∈ Finset.range N, p.coeff k * ((if r < k then 0 else h.getD (r - k) 0 : ℝ) : ℂ)) =
      ((∑ k ∈ Finset.range N, x.getD k 0 * (if r < k then 0 else h.getD (r - k) 0) : ℝ) : ℂ) from by
    rw [Complex.ofReal_sum]
    exact Finset.sum_congr rfl fun k hk => by rw [hx k (Finset.mem_range.1 hk), ← Complex.ofReal_mul],
    ← Complex.ofReal_add, Complex.norm_real, Real.norm_eq_abs, sq_abs]

/-! ## The polynomial of the coefficients -/

theorem polynomial_coeff (c : List ℝ) (k : ℕ) :
    (polynomial c).coeff k = if k < c.length then ((c.getD (c.length - 1 - k) 0 : ℝ) : ℂ) else 0 := by
  unfold polynomial
  rw [Polynomial.finsetSum_coeff]
  simp only [Polynomial.coeff_monomial]
  by_cases hk : k < c.length
  · rw [if_pos hk, Finset.sum_eq_single (c.length - 1 - k)]
    · rw [if_pos (by omega)]
    · intro b hb hne
      have := Finset.mem_range.1 hb
      rw [if_neg (by omega)]
    · intro h
      exact absurd (Finset.mem_range.2 (by omega)) h
  · rw [if_neg hk]
    refine Finset.sum_eq_zero fun b hb => ?_
    have := Finset.mem_range.1 hb
    rw [if_neg (by omega)]

theorem coeff_monic (x : List ℝ) (k : ℕ) (hk : k < x.length) :
    (polynomial (1 :: x.reverse)).coeff k = ((x.getD k 0 : ℝ) : ℂ) := by
  rw [polynomial_coeff, if_pos (by simp; omega)]
  congr 1
  have h1 : (1 :: x.reverse).length - 1 - k = (x.length - 1 - k) + 1 := by simp; omega
  rw [h1, List.getD_cons_succ, List.getD_eq_getElem _ _ (by simp; omega), List.getElem_reverse,
    List.getD_eq_getElem _ _ hk]
  congr 1
  omega

theorem natDegree_monic (x : List ℝ) : (polynomial (1 :: x.reverse)).natDegree = x.length := by
  refine Polynomial.natDegree_eq_of_le_of_coeff_ne_zero ?_ ?_
  · refine Polynomial.natDegree_le_iff_coeff_eq_zero.2 fun k hk => ?_
    rw [polynomial_coeff, if_neg (by simp; omega)]
  · rw [polynomial_coeff, if_pos (by simp)]
    simp

theorem monic_poly (x : List ℝ) : (polynomial (1 :: x.reverse)).Monic := by
  unfold Polynomial.Monic Polynomial.leadingCoeff
  rw [natDegree_monic, polynomial_coeff, if_pos (by simp)]
  simp

/-! ## One step -/

/-- Roots of the polynomial of a least squares solution lie inside the unit circle if the response
has a first sample that is not zero, early enough. -/
theorem roots_of_solution (N : ℕ) (h : List ℝ) (x : List ℝ) (hx : x.length = N)
    (hmin : ∀ y, residual (matrixA N h) (vectorB N h) x ≤ residual (matrixA N h) (vectorB N h) y)
    (j : ℕ) (hj : j + N ≤ h.length) (hne : h.getD j 0 ≠ 0) (hz : ∀ i < j, h.getD i 0 = 0)
    (z : ℂ) (hroot : (polynomial (1 :: x.reverse)).IsRoot z) : ‖z‖ < 1 := by
  set p := polynomial (1 :: x.reverse) with hp
  obtain ⟨q, hq⟩ := Polynomial.dvd_iff_isRoot.2 hroot
  have hmonic : p.Monic := monic_poly x
  have hqm : q.Monic := (Polynomial.monic_X_sub_C z).of_mul_monic_left (hq ▸ hmonic)
  have hdp : p.natDegree = N := by rw [hp, natDegree_monic, hx]
  have hmono : ∀ μ : ℂ, ((Polynomial.X - Polynomial.C μ) * q).Monic := fun μ =>
    (Polynomial.monic_X_sub_C μ).mul hqm
  have hdeg : ∀ μ : ℂ, ((Polynomial.X - Polynomial.C μ) * q).natDegree = 1 + q.natDegree := fun μ => by
    rw [(Polynomial.monic_X_sub_C μ).natDegree_mul hqm, Polynomial.natDegree_X_sub_C]
  have hdq : 1 + q.natDegree = N := by rw [← hdp, hq, hdeg]
  have hcoe : ∀ μ : ℂ, (((Polynomial.X - Polynomial.C μ) * q : Polynomial ℂ) : ℂ⟦X⟧) * series h =
      PowerSeries.X * ((q : ℂ⟦X⟧) * series h) - PowerSeries.C μ * ((q : ℂ⟦X⟧) * series h) := fun μ => by
    rw [Polynomial.coe_mul, Polynomial.coe_sub, Polynomial.coe_X, Polynomial.coe_C]
    ring
  refine factor_lt_one h.length ((q : ℂ⟦X⟧) * series h) z ?_ fun μ => ?_
  · refine E_pos (q.natTrailingDegree + j) ?_ ?_
    · have := Polynomial.natTrailingDegree_le_natDegree q
      omega
    · rw [PowerSeries.coeff_mul, Finset.sum_eq_single (q.natTrailingDegree, j)]
      · refine mul_ne_zero ?_ ?_
        · rw [Polynomial.coeff_coe]
          exact Polynomial.trailingCoeff_nonzero_iff_nonzero.2 hqm.ne_zero
        · unfold series
          rw [PowerSeries.coeff_mk]
          exact Complex.ofReal_ne_zero.2 hne
      · rintro ⟨a, b⟩ hab hn
        rw [Finset.mem_antidiagonal] at hab
        dsimp only at hab ⊢
        by_cases ha : a < q.natTrailingDegree
        · rw [Polynomial.coeff_coe, Polynomial.coeff_eq_zero_of_lt_natTrailingDegree ha, zero_mul]
        · have hb : b < j := by
            by_contra hb
            exact hn (by rw [Prod.mk.injEq]; omega)
          unfold series
          rw [PowerSeries.coeff_mk, hz b hb, Complex.ofReal_zero, mul_zero]
      · intro hn
        exact (hn (by rw [Finset.mem_antidiagonal])).elim
  · rw [← hcoe, ← hcoe, ← hq,
      residual_eq N h (by omega) x p hmonic hdp fun k hk => coeff_monic x k (by omega)]
    exact le_trans (hmin _) (residual_le N h (by omega) _ (hmono μ) (by rw [hdeg, hdq]))

theorem lfilter_length (b a x : List ℝ) : (lfilter b a x).length = x.length := by
  simp [lfilter]

/-- The roots of the polynomial of every step lie inside the unit circle. -/
theorem step_roots (solve : Solver) (hs : Solves solve) (N : ℕ) (hpos : 0 < N) (g poly : List ℝ)
    (hN : N ≤ g.length) (z : ℂ)
    (hroot : (polynomial (step solve N g poly)).IsRoot z) : ‖z‖ < 1 := by
  unfold step at hroot
  dsimp only at hroot
  set h := lfilter [1] poly g with hh
  have hl : h.length = g.length := lfilter_length _ _ _
  set A := matrixA N h
  set b := vectorB N h
  obtain ⟨hlen, hmin⟩ := hs A b
  have hlen : (solve A b).length = N := hlen
  by_cases hex : ∃ j, j + N ≤ h.length ∧ h.getD j 0 ≠ 0
  · classical
    obtain ⟨hj, hne⟩ := Nat.find_spec hex
    refine roots_of_solution N h (solve A b) hlen (fun y => (hmin y).1) (Nat.find hex) hj hne
      (fun i hi => ?_) z hroot
    by_contra hc
    exact Nat.find_min hex hi ⟨by omega, hc⟩
  · -- the vector is zero and so is the shortest solution
    have hb0 : ∀ r < h.length, b.getD r 0 = 0 := by
      intro r hr
      show (vectorB N h).getD r 0 = 0
      rw [vectorB_getD N h (by omega) r hr]
      by_cases hrN : r < N
      · rw [if_pos hrN, neg_zero]
      · rw [if_neg hrN, neg_eq_zero]
        by_contra hc
        exact hex ⟨r - N, by omega, hc⟩
    have hr0 : residual A b [] = 0 := by
      unfold residual
      refine Finset.sum_eq_zero fun r hr => ?_
      rw [hb0 r (Finset.mem_range.1 hr)]
      simp
    have hr1 : residual A b (solve A b) = 0 :=
      le_antisymm (hr0 ▸ (hmin []).1) (Finset.sum_nonneg fun _ _ => sq_nonneg _)
    have hn := (hmin []).2 (by rw [hr0, hr1])
    have hx : ∀ k < N, (solve A b).getD k 0 = 0 := by
      intro k hk
      have h1 : ∑ k ∈ Finset.range A.cols, (solve A b).getD k 0 ^ 2 ≤ 0 := by
        refine le_trans hn (le_of_eq ?_)
        simp
      have h2 := Finset.single_le_sum (f := fun k => (solve A b).getD k 0 ^ 2)
        (fun _ _ => sq_nonneg _) (Finset.mem_range.2 (show k < A.cols from hk))
      have h3 : (solve A b).getD k 0 ^ 2 ≤ 0 := le_trans h2 h1
      nlinarith [sq_nonneg ((solve A b).getD k 0), pow_eq_zero_iff (M₀ := ℝ) (a := (solve A b).getD k 0) two_ne_zero]
    have heq : polynomial (1 :: (solve A b).reverse) = Polynomial.X ^ N := by
      ext k
      rw [Polynomial.coeff_X_pow]
      by_cases hk : k < N
      · rw [coeff_monic _ k (by omega), hx k hk, if_neg (by omega), Complex.ofReal_zero]
      · by_cases hk' : k = N
        · rw [if_pos hk', hk', ← hlen, ← natDegree_monic]
          exact monic_poly _
        · rw [if_neg hk']
          exact Polynomial.coeff_eq_zero_of_natDegree_lt (by rw [natDegree_monic, hlen]; omega)
    rw [heq] at hroot
    have hz0 : z = 0 := by
      have : z ^ N = 0 := by simpa [Polynomial.IsRoot] using hroot
      exact pow_eq_zero_iff (by omega) |>.1 this
    rw [hz0, norm_zero]
    exact one_pos

/-! ## The whole search -/

theorem loop_length (solve : Solver) (N : ℕ) (g : List ℝ) (n : ℕ) (p : List ℝ) :
    (loop solve N g n p).length = n := by
  induction n generalizing p with
  | zero => rfl
  | succ n ih => rw [loop, List.length_cons, ih]

theorem loop_mem (solve : Solver) (N : ℕ) (g : List ℝ) (n : ℕ) (p c : List ℝ)
    (h : c ∈ loop solve N g n p) : ∃ q, c = step solve N g q := by
  induction n generalizing p with
  | zero => simp [loop] at h
  | succ n ih =>
    rw [loop] at h
    rcases List.mem_cons.1 h with h | h
    · exact ⟨p, h⟩
    · exact ih _ h

theorem best_spec (g : List ℝ) (p : List ℝ) (l : List (List ℝ)) :
    best g p l ∈ p :: l ∧ ∀ q ∈ p :: l, error g (best g p l) ≤ error g q := by
  induction l generalizing p with
  | nil => simp [best]
  | cons q l ih =>
    unfold best
    by_cases h : error g q < error g p
    · rw [if_pos h]
      obtain ⟨h1, h2⟩ := ih q
      refine ⟨List.mem_cons_of_mem _ h1, fun r hr => ?_⟩
      rcases List.mem_cons.1 hr with hr | hr
      · rw [hr]
        exact le_trans (h2 q (by simp)) h.le
      · exact h2 r hr
    · rw [if_neg h]
      obtain ⟨h1, h2⟩ := ih p
      refine ⟨?_, fun r hr => ?_⟩
      · rcases List.mem_cons.1 h1 with h1 | h1
        · rw [h1]
          simp
        · exact List.mem_cons_of_mem _ (List.mem_cons_of_mem _ h1)
      · rcases List.mem_cons.1 hr with hr | hr
        · rw [hr]
          exact h2 p (by simp)
        · rcases List.mem_cons.1 hr with hr | hr
          · rw [hr]
            exact le_trans (h2 p (by simp)) (not_lt.1 h)
          · exact h2 r (List.mem_cons_of_mem _ hr)

/-- The polynomials of the iterations, one after the other: the response filtered with the last
polynomial gives the least squares problem of the next one. -/
noncomputable def iterate (solve : Solver) (order : ℕ) (target : List ℝ) : ℕ → List ℝ
  | 0 => 1 :: List.replicate order 0
  | n + 1 => step solve order target.reverse (iterate solve order target n)

theorem loop_eq (solve : Solver) (N : ℕ) (target : List ℝ) (n m : ℕ) :
    loop solve N target.reverse n (iterate solve N target m) =
      (List.range n).map fun i => iterate solve N target (m + i + 1) := by
  induction n generalizing m with
  | zero => rfl
  | succ n ih =>
    rw [loop, show step solve N target.reverse (iterate solve N target m) =
      iterate solve N target (m + 1) from rfl, ih, List.range_succ_eq_map, List.map_cons, List.map_map]
    congr 1
    refine List.map_congr_left fun i _ => ?_
    show iterate solve N target _ = iterate solve N target _
    congr 1
    omega

/-- The search fails without iterations, without order and if the order exceeds the length of the
impulse response; otherwise it succeeds. -/
theorem C150_accepted (solve : Solver) (order iterations : ℕ) (target : List ℝ) :
    (∃ P, findPoles solve order iterations target = .ok P) ↔
      1 ≤ iterations ∧ 1 ≤ order ∧ order ≤ target.length := by
  unfold findPoles search
  by_cases h1 : iterations = 0
  · rw [if_pos h1]
    exact ⟨fun ⟨P, h⟩ => (by cases h), fun h => (by omega)⟩
  · rw [if_neg h1]
    by_cases h2 : order = 0
    · rw [if_pos h2]
      exact ⟨fun ⟨P, h⟩ => (by cases h), fun h => (by omega)⟩
    · rw [if_neg h2]
      by_cases h3 : target.length < order
      · rw [if_pos h3]
        exact ⟨fun ⟨P, h⟩ => (by cases h), fun h => (by omega)⟩
      · rw [if_neg h3]
        refine ⟨fun _ => ⟨by omega, by omega, by omega⟩, fun _ => ?_⟩
        obtain ⟨n, rfl⟩ := Nat.exists_eq_succ_of_ne_zero h1
        exact ⟨_, rfl⟩

/-- The polynomial that is taken is one of the iterations and none of them has a smaller error. -/
theorem C150_smallest_error (solve : Solver) (order iterations : ℕ) (target c : List ℝ)
    (h : search solve order iterations target = .ok c) :
    (∃ i < iterations, c = iterate solve order target (i + 1)) ∧
      ∀ i < iterations, error target.reverse c ≤
        error target.reverse (iterate solve order target (i + 1)) := by
  unfold search at h
  by_cases h1 : iterations = 0
  · rw [if_pos h1] at h
    cases h
  · rw [if_neg h1] at h
    by_cases h2 : order = 0
    · rw [if_pos h2] at h
      cases h
    · rw [if_neg h2] at h
      by_cases h3 : target.length < order
      · rw [if_pos h3] at h
        cases h
      · rw [if_neg h3] at h
        have hl := loop_eq solve order target iterations 0
        rw [show iterate solve order target 0 = 1 :: List.replicate order 0 from rfl] at hl
        cases hq : loop solve order target.reverse iterations (1 :: List.replicate order 0) with
        | nil => rw [hq] at h; cases h
        | cons p l =>
          rw [hq] at h hl
          dsimp only at h
          have h := Except.ok.inj h
          obtain ⟨hm, hle⟩ := best_spec target.reverse p l
          rw [h] at hm hle
          rw [hl] at hm hle
          simp only [Nat.zero_add] at hm hle
          constructor
          · obtain ⟨i, hi, he⟩ := List.mem_map.1 hm
            exact ⟨i, List.mem_range.1 hi, he.symm⟩
          · exact fun i hi => hle _ (List.mem_map.2 ⟨i, List.mem_range.2 hi, rfl⟩)

theorem iterate_head (solve : Solver) (order : ℕ) (target : List ℝ) (i : ℕ) :
    (iterate solve order target i).getD 0 0 = 1 := by
  cases i <;> rfl

theorem filtered_agree (b a x : List ℝ) (ha : a.getD 0 0 ≠ 0) :
    AgreeUpTo x.length (zseries a * zseries (lfilter b a x)) (zseries b * zseries x) := by
  have h := (Bank.lfilter_agree b a x ha).mul_left (zseries a)
  have hne : PowerSeries.constantCoeff (zseries a) ≠ 0 := by
    rw [← PowerSeries.coeff_zero_eq_constantCoeff_apply, zseries_coeff]
    exact ha
  have h2 : zseries a * (ratio b a * zseries x) = zseries b * zseries x := by
    unfold ratio
    rw [show zseries a * (zseries b * (zseries a)⁻¹ * zseries x) =
      (zseries a * (zseries a)⁻¹) * (zseries b * zseries x) from by ring,
      PowerSeries.mul_inv_cancel _ hne, one_mul]
  rwa [h2] at h

/-- What an iteration does: with `h` the reversed impulse response divided by the last polynomial
`c`, the new polynomial `d` makes the energy of `d h` as small as any monic polynomial of the same
order can. -/
theorem C150_step (solve : Solver) (hs : Solves solve) (order : ℕ) (target : List ℝ)
    (hle : order ≤ target.length) (i : ℕ) :
    ∃ h : List ℝ, h.length = target.length ∧
      AgreeUpTo target.length (zseries (iterate solve order target i) * zseries h)
        (zseries target.reverse) ∧
      (polynomial (iterate solve order target (i + 1))).Monic ∧
      (polynomial (iterate solve order target (i + 1))).natDegree = order ∧
      ∀ p : Polynomial ℂ, p.Monic → p.natDegree = order →
        E target.length ((polynomial (iterate solve order target (i + 1)) : ℂ⟦X⟧) * series h) ≤
          E target.length ((p : ℂ⟦X⟧) * series h) := by
  have hl : (lfilter [1] (iterate solve order target i) target.reverse).length = target.length := by
    rw [lfilter_length, List.length_reverse]
  refine ⟨lfilter [1] (iterate solve order target i) target.reverse, hl, ?_, ?_, ?_, fun p hp hd => ?_⟩
  · have h := filtered_agree [1] (iterate solve order target i) target.reverse
      (by rw [iterate_head]; exact one_ne_zero)
    have h1 : zseries ([1] : List ℝ) = 1 := by
      ext n
      rw [zseries_coeff, PowerSeries.coeff_one]
      cases n <;> simp
    rw [h1, one_mul, List.length_reverse] at h
    exact h
  · exact monic_poly _
  · show (polynomial (step solve order target.reverse _)).natDegree = order
    unfold step
    rw [natDegree_monic]
    exact (hs _ _).1
  · show E _ ((polynomial (step solve order target.reverse _) : ℂ⟦X⟧) * _) ≤ _
    unfold step
    dsimp only
    set h := lfilter [1] (iterate solve order target i) target.reverse
    obtain ⟨h1, h2⟩ := hs (matrixA order h) (vectorB order h)
    have h1 : (solve (matrixA order h) (vectorB order h)).length = order := h1
    rw [← hl, residual_eq order h (by omega) _ _ (monic_poly _) (by rw [natDegree_monic, h1])
      fun k hk => coeff_monic _ k (by omega)]
    exact le_trans (h2 _).1 (residual_le order h (by omega) p hp hd)

/-- The error of a polynomial is the energy of the reversed impulse response filtered with the
all-pass of the polynomial: its coefficients backwards over its coefficients. -/
theorem C150_error (g c : List ℝ) (hc : c.getD 0 0 = 1) :
    ∃ y : List ℝ, y.length = g.length ∧
      AgreeUpTo g.length (zseries c * zseries y) (zseries c.reverse * zseries g) ∧
      error g c = ∑ r ∈ Finset.range g.length, y.getD r 0 ^ 2 := by
  refine ⟨lfilter c.reverse c g, lfilter_length _ _ _,
    filtered_agree c.reverse c g (by rw [hc]; exact one_ne_zero), ?_⟩
  unfold error lfilter
  rw [List.map_map, Finset.sum_congr rfl fun r hr => by
    rw [LFilter.getD_map_range, if_pos (Finset.mem_range.1 hr)], ← List.sum_toFinset _ (List.nodup_range),
    List.toFinset_range]
  rfl

/-- More iterations never give a larger error. -/
theorem C150_more_iterations (solve : Solver) (order m n : ℕ) (hmn : m ≤ n) (target c d : List ℝ)
    (hc : search solve order m target = .ok c) (hd : search solve order n target = .ok d) :
    error target.reverse d ≤ error target.reverse c := by
  obtain ⟨⟨i, hi, he⟩, -⟩ := C150_smallest_error solve order m target c hc
  rw [he]
  exact (C150_smallest_error solve order n target d hd).2 i (by omega)

theorem find_ok (solve : Solver) (order iterations : ℕ) (target : List ℝ) (P : Multiset ℂ)
    (h : findPoles solve order iterations target = .ok P) :
    ∃ c, search solve order iterations target = .ok c ∧
      P = open Classical in (polynomial c).roots.filter fun z => 0 ≤ z.im := by
  unfold findPoles at h
  cases hs : search solve order iterations target with
  | error e => rw [hs] at h; cases h
  | ok c =>
    rw [hs] at h
    exact ⟨c, rfl, (Except.ok.inj h).symm⟩

/-- Every pole lies strictly inside the unit circle and has no negative imaginary part, as the
constructor of the filter demands, for every impulse response, order and number of iterations. -/
theorem C150_stable (solve : Solver) (hs : Solves solve) (order iterations : ℕ) (target : List ℝ)
    (P : Multiset ℂ) (h : findPoles solve order iterations target = .ok P) (z : ℂ) (hz : z ∈ P) :
    ‖z‖ < 1 ∧ 0 ≤ z.im := by
  classical
  obtain ⟨-, hpos, hle⟩ := (C150_accepted solve order iterations target).1 ⟨P, h⟩
  obtain ⟨c, hc, rfl⟩ := find_ok solve order iterations target P h
  rw [Multiset.mem_filter] at hz
  refine ⟨?_, hz.2⟩
  obtain ⟨⟨i, -, he⟩, -⟩ := C150_smallest_error solve order iterations target c hc
  rw [he] at hz
  exact step_roots solve hs order hpos target.reverse (iterate solve order target i)
    (by rw [List.length_reverse]; exact hle) z (Polynomial.isRoot_of_mem_roots hz.1)

theorem roots_conj (c : List ℝ) :
    (polynomial c).roots.map (starRingEnd ℂ) = (polynomial c).roots := by
  have hmap : (polynomial c).map (starRingEnd ℂ) = polynomial c := by
    ext k
    rw [Polynomial.coeff_map, polynomial_coeff]
    split_ifs
    · rw [Complex.conj_ofReal]
    · simp
  have hcard : Multiset.card (polynomial c).roots = (polynomial c).natDegree :=
    (Polynomial.splits_iff_card_roots.1 (IsAlgClosed.splits _))
  rw [Polynomial.roots_map_of_injective_of_card_eq_natDegree (starRingEnd ℂ).injective hcard, hmap]

/-- The poles together with the conjugates of those that are not real are all roots of the
polynomial, with multiplicity; their number is the order. -/
theorem C150_complete (solve : Solver) (hs : Solves solve) (order iterations : ℕ) (target : List ℝ)
    (P : Multiset ℂ) (h : findPoles solve order iterations target = .ok P) :
    ∃ c, search solve order iterations target = .ok c ∧
      (open Classical in
      (polynomial c).roots = P + (P.filter fun z => 0 < z.im).map (starRingEnd ℂ) ∧
      Multiset.card (P.filter fun z => z.im = 0) +
        2 * Multiset.card (P.filter fun z => ¬ z.im = 0) = order) := by
  classical
  obtain ⟨c, hc, hP⟩ := find_ok solve order iterations target P h
  have hroots : (polynomial c).roots = P + (P.filter fun z => 0 < z.im).map (starRingEnd ℂ) := by
    have h1 := (Multiset.filter_add_not (fun z : ℂ => 0 ≤ z.im) (polynomial c).roots).symm
    have hPP : (polynomial c).roots.filter (fun z => 0 ≤ z.im) = P := by
      rw [hP]
    have h2 : (polynomial c).roots.filter (fun z => ¬ 0 ≤ z.im) =
        (P.filter fun z => 0 < z.im).map (starRingEnd ℂ) := by
      conv_lhs => rw [← roots_conj c]
      rw [Multiset.filter_map, ← hPP, Multiset.filter_filter]
      congr 1
      refine Multiset.filter_congr fun z _ => ?_
      simp only [Function.comp, Complex.conj_im]
      constructor
      · intro h
        constructor <;> linarith
      · rintro ⟨h, -⟩
        linarith
    rw [h2, hPP] at h1
    exact h1
  refine ⟨c, hc, hroots, ?_⟩
  obtain ⟨⟨i, -, he⟩, -⟩ := C150_smallest_error solve order iterations target c hc
  have hcard : Multiset.card (polynomial c).roots = order := by
    rw [Polynomial.splits_iff_card_roots.1 (IsAlgClosed.splits (polynomial c)), he]
    show (polynomial (step solve order target.reverse _)).natDegree = order
    unfold step
    rw [natDegree_monic]
    exact (hs _ _).1
  rw [hroots, Multiset.card_add, Multiset.card_map] at hcard
  have h3 : (P.filter fun z => ¬ z.im = 0) = P.filter fun z => 0 < z.im := by
    refine Multiset.filter_congr fun z hz => ?_
    have : 0 ≤ z.im := by
      rw [hP, Multiset.mem_filter] at hz
      exact hz.2
    exact ⟨fun h => lt_of_le_of_ne this (Ne.symm h), fun h => h.ne'⟩
  have h4 := congrArg Multiset.card (Multiset.filter_add_not (fun z : ℂ => z.im = 0) P)
  rw [Multiset.card_add] at h4
  rw [h3] at h4 ⊢
  omega

/-- The sections of a filter with these poles have as many taps as the order. -/
theorem C150_taps (solve : Solver) (hs : Solves solve) (order iterations : ℕ) (target : List ℝ)
    (poles : List ℂ) (h : findPoles solve order iterations target = .ok (poles : Multiset ℂ)) :
    Kautz.total (Kautz.sections poles) = order := by
  classical
  obtain ⟨c, -, -, hcard⟩ := C150_complete solve hs order iterations target _ h
  rw [Multiset.filter_coe, Multiset.filter_coe, Multiset.coe_card, Multiset.coe_card] at hcard
  rw [← hcard]
  unfold Kautz.total Kautz.sections
  rw [List.map_append, List.sum_append, List.map_map, List.map_map]
  have h1 : ∀ l : List ℂ, (l.map (Kautz.Section.taps ∘ fun p : ℂ => Kautz.Section.real p.re)).sum =
      l.length := fun l => by
    induction l with
    | nil => rfl
    | cons a l ih => rw [List.map_cons, List.sum_cons, ih, List.length_cons]; exact Nat.add_comm _ _
  have h2 : ∀ l : List ℂ, (l.map (Kautz.Section.taps ∘ fun p : ℂ =>
      Kautz.Section.pair (-2 * p.re) (‖p‖ ^ 2))).sum = 2 * l.length := fun l => by
    induction l with
    | nil => rfl
    | cons a l ih => rw [List.map_cons, List.sum_cons, ih, List.length_cons]; show 2 + _ = _; ring
  rw [h1, h2]

/-! ## There is a solver -/

section Existence

variable (m n : ℕ)

/-- Multiplication with a matrix. -/
noncomputable def mulMap (A : ℕ → ℕ → ℝ) : EuclideanSpace ℝ (Fin n) →ₗ[ℝ] EuclideanSpace ℝ (Fin m) where
  toFun x := WithLp.toLp 2 fun r => ∑ k : Fin n, A r k * x k
  map_add' x y := by
    ext r
    simp [mul_add, Finset.sum_add_distrib]
  map_smul' a x := by
    ext r
    simp [Finset.mul_sum, mul_left_comm]

/-- Every least squares problem has a shortest solution. -/
theorem exists_shortest (A : ℕ → ℕ → ℝ) (b : EuclideanSpace ℝ (Fin m)) :
    ∃ x : EuclideanSpace ℝ (Fin n), ∀ y, ‖mulMap m n A x - b‖ ≤ ‖mulMap m n A y - b‖ ∧
      (‖mulMap m n A y - b‖ = ‖mulMap m n A x - b‖ → ‖x‖ ≤ ‖y‖) := by
  set L := mulMap m n A
  -- nearest point of the range
  obtain ⟨w, hw, hproj⟩ := (LinearMap.range L).exists_norm_eq_iInf_of_complete_subspace
    (LinearMap.range L).complete_of_finiteDimensional b
  have horth := ((LinearMap.range L).norm_eq_iInf_iff_real_inner_eq_zero hw).1 hproj
  obtain ⟨x0, hx0⟩ := hw
  -- nearest point of the kernel to the solution
  obtain ⟨k, hk, hkproj⟩ := (LinearMap.ker L).exists_norm_eq_iInf_of_complete_subspace
    (LinearMap.ker L).complete_of_finiteDimensional x0
  have hkorth := ((LinearMap.ker L).norm_eq_iInf_iff_real_inner_eq_zero hk).1 hkproj
  have hLx : L (x0 - k) = w := by
    rw [map_sub, LinearMap.mem_ker.1 hk, sub_zero, hx0]
  have hpyth : ∀ y, ‖L y - b‖ ^ 2 = ‖w - b‖ ^ 2 + ‖L y - w‖ ^ 2 := by
    intro y
    have h0 : inner ℝ (b - w) (L y - w) = 0 := horth _ (Submodule.sub_mem _ ⟨y, rfl⟩ ⟨x0, hx0⟩)
    have h1 : L y - b = (L y - w) - (b - w) := by abel
    rw [h1, norm_sub_sq_real, real_inner_comm, h0, norm_sub_rev w b]
    ring
  refine ⟨x0 - k, fun y => ⟨?_, fun heq => ?_⟩⟩
  · rw [hLx]
    have := hpyth y
    nlinarith [norm_nonneg (w - b), norm_nonneg (L y - b), sq_nonneg ‖L y - w‖]
  · rw [hLx] at heq
    have h1 := hpyth y
    rw [heq] at h1
    have h2 : L y = w := by
      have : ‖L y - w‖ = 0 := by nlinarith [norm_nonneg (L y - w)]
      exact sub_eq_zero.1 (norm_eq_zero.1 this)
    have h3 : y - (x0 - k) ∈ LinearMap.ker L := by
      rw [LinearMap.mem_ker, map_sub, h2, hLx, sub_self]
    have h4 : inner ℝ (x0 - k) (y - (x0 - k)) = 0 := hkorth _ h3
    have h5 : ‖y‖ ^ 2 = ‖x0 - k‖ ^ 2 + ‖y - (x0 - k)‖ ^ 2 := by
      have : y = (x0 - k) + (y - (x0 - k)) := by abel
      conv_lhs => rw [this]
      rw [norm_add_sq_real, h4]
      ring
    nlinarith [norm_nonneg (x0 - k), norm_nonneg y, sq_nonneg ‖y - (x0 - k)‖]

end Existence

/-- A list as a vector. -/
noncomputable def vec (n : ℕ) (x : List ℝ) : EuclideanSpace ℝ (Fin n) :=
  WithLp.toLp 2 fun k => x.getD k 0

theorem residual_norm (A : Mat ℝ) (b x : List ℝ) :
    residual A b x = ‖mulMap A.rows A.cols A.val (vec A.cols x) - vec A.rows b‖ ^ 2 := by
  rw [EuclideanSpace.norm_sq_eq, residual, ← Fin.sum_univ_eq_sum_range (fun r =>
    ((∑ k ∈ Finset.range A.cols, A.val r k * x.getD k 0) - b.getD r 0) ^ 2)]
  refine Finset.sum_congr rfl fun r _ => ?_
  rw [Real.norm_eq_abs, sq_abs, ← Fin.sum_univ_eq_sum_range (fun k => A.val r k * x.getD k 0)]
  rfl

theorem length_norm (n : ℕ) (x : List ℝ) :
    ∑ k ∈ Finset.range n, x.getD k 0 ^ 2 = ‖vec n x‖ ^ 2 := by
  rw [EuclideanSpace.norm_sq_eq, ← Fin.sum_univ_eq_sum_range (fun k => x.getD k 0 ^ 2)]
  refine Finset.sum_congr rfl fun r _ => ?_
  rw [Real.norm_eq_abs, sq_abs]
  rfl

/-- The hypothesis on the solver can be met. -/
theorem exists_solver : ∃ solve : Solver, Solves solve := by
  have h : ∀ (A : Mat ℝ) (b : List ℝ), ∃ x : List ℝ, x.length = A.cols ∧ ∀ y : List ℝ,
      residual A b x ≤ residual A b y ∧ (residual A b y = residual A b x →
        ∑ k ∈ Finset.range A.cols, x.getD k 0 ^ 2 ≤ ∑ k ∈ Finset.range A.cols, y.getD k 0 ^ 2) := by
    intro A b
    obtain ⟨v, hv⟩ := exists_shortest A.rows A.cols A.val (vec A.rows b)
    have hvec : vec A.cols (List.ofFn v) = v := by
      ext k
      show (List.ofFn v).getD k 0 = v k
      rw [List.getD_eq_getElem _ _ (by simp), List.getElem_ofFn]
    refine ⟨List.ofFn v, by simp, fun y => ?_⟩
    obtain ⟨h1, h2⟩ := hv (vec A.cols y)
    rw [residual_norm, residual_norm, length_norm, length_norm, hvec]
    refine ⟨pow_le_pow_left₀ (norm_nonneg _) h1 2, fun heq => ?_⟩
    have := h2 (by
      have h0 := norm_nonneg (mulMap A.rows A.cols A.val (vec A.cols y) - vec A.rows b)
      have h0' := norm_nonneg (mulMap A.rows A.cols A.val v - vec A.rows b)
      nlinarith)
    exact pow_le_pow_left₀ (norm_nonneg _) this 2
  choose solve hsolve using h
  exact ⟨solve, fun A b => hsolve A b⟩

example : ∃ (solve : Solver) (P : Multiset ℂ), Solves solve ∧
    findPoles solve 2 5 [1, 1 / 2, 1 / 4, 1 / 3] = .ok P ∧ ∀ z ∈ P, ‖z‖ < 1 := by
  obtain ⟨solve, hs⟩ := exists_solver
  obtain ⟨P, hP⟩ := (C150_accepted solve 2 5 [1, 1 / 2, 1 / 4, 1 / 3]).2 (by simp)
  exact ⟨solve, P, hs, hP, fun z hz => (C150_stable solve hs 2 5 _ P hP z hz).1⟩

end Verif.Props.C150

import Verif.Spec.TransferFunction
import Mathlib.Analysis.Complex.Polynomial.Basic
import Mathlib.Analysis.Normed.Ring.InfiniteSum
import Mathlib.Analysis.SpecificLimits.Normed
import Mathlib.Algebra.Polynomial.Splits
import Mathlib.RingTheory.PowerSeries.Basic

/-! Absolutely summable power series and their values in the closed unit disc. -/

namespace Verif.StableFilter

open PowerSeries

/-- The coefficients are absolutely summable. -/
def AbsSum (H : PowerSeries ℂ) : Prop := Summable fun n => ‖coeff n H‖

/-- Value at a point. -/
noncomputable def valueAt (H : PowerSeries ℂ) (w : ℂ) : ℂ := ∑' n, coeff n H * w ^ n

theorem AbsSum.at {H : PowerSeries ℂ} (h : AbsSum H) (w : ℂ) (hw : ‖w‖ ≤ 1) :
    Summable fun n => ‖coeff n H * w ^ n‖ := by
  refine Summable.of_nonneg_of_le (fun _ => norm_nonneg _) (fun n => ?_) h
  rw [norm_mul, norm_pow]
  exact mul_le_of_le_one_right (norm_nonneg _) (pow_le_one₀ (norm_nonneg _) hw)

theorem AbsSum.hasSum {H : PowerSeries ℂ} (h : AbsSum H) (w : ℂ) (hw : ‖w‖ ≤ 1) :
    HasSum (fun n => coeff n H * w ^ n) (valueAt H w) := (h.at w hw).of_norm.hasSum

theorem AbsSum.mul {H G : PowerSeries ℂ} (h : AbsSum H) (g : AbsSum G) : AbsSum (H * G) := by
  have := summable_norm_sum_mul_antidiagonal_of_summable_norm (R := ℂ)
    (f := fun n => coeff n H) (g := fun n => coeff n G) h g
  refine this.congr fun n => ?_
  rw [coeff_mul]

theorem valueAt_mul {H G : PowerSeries ℂ} (h : AbsSum H) (g : AbsSum G) (w : ℂ) (hw : ‖w‖ ≤ 1) :
    valueAt (H * G) w = valueAt H w * valueAt G w := by
  unfold valueAt
  rw [tsum_mul_tsum_eq_tsum_sum_antidiagonal_of_summable_norm (h.at w hw) (g.at w hw)]
  refine tsum_congr fun n => ?_
  rw [coeff_mul, Finset.sum_mul]
  refine Finset.sum_congr rfl fun kl hkl => ?_
  rw [← Finset.mem_antidiagonal.mp hkl, pow_add]
  ring

theorem absSum_poly (p : Polynomial ℂ) : AbsSum (p : PowerSeries ℂ) := by
  refine summable_of_ne_finset_zero (s := p.support) fun n hn => ?_
  rw [Polynomial.coeff_coe, Polynomial.notMem_support_iff.mp hn, norm_zero]

theorem valueAt_poly (p : Polynomial ℂ) (w : ℂ) : valueAt (p : PowerSeries ℂ) w = p.eval w := by
  unfold valueAt
  rw [Polynomial.eval_eq_sum, Polynomial.sum, tsum_eq_sum (s := p.support)]
  · simp only [Polynomial.coeff_coe]
  · intro n hn
    rw [Polynomial.coeff_coe, Polynomial.notMem_support_iff.mp hn, zero_mul]

theorem absSum_const (c : ℂ) : AbsSum (C c) := by
  have := absSum_poly (Polynomial.C c)
  rwa [Polynomial.coe_C] at this

theorem inv_linear (r : ℂ) (hr : r ≠ 0) :
    ((Polynomial.X - Polynomial.C r : Polynomial ℂ) : PowerSeries ℂ)⁻¹ =
      mk fun n => -(r⁻¹) ^ (n + 1) := by
  rw [PowerSeries.inv_eq_iff_mul_eq_one]
  · ext n
    rw [Polynomial.coe_sub, Polynomial.coe_X, Polynomial.coe_C, mul_sub, map_sub,
      mul_comm _ (C r), coeff_C_mul, coeff_mk]
    cases n with
    | zero =>
      rw [mul_comm, coeff_zero_X_mul]
      simp [hr]
    | succ n =>
      rw [coeff_succ_mul_X, coeff_mk, coeff_one, if_neg (by omega)]
      rw [pow_succ (r⁻¹) (n + 1)]
      have : r * r⁻¹ = 1 := mul_inv_cancel₀ hr
      linear_combination (r⁻¹) ^ (n + 1) * this
  · simpa using hr

theorem absSum_inv_linear (r : ℂ) (hr : 1 < ‖r‖) :
    AbsSum ((Polynomial.X - Polynomial.C r : Polynomial ℂ) : PowerSeries ℂ)⁻¹ := by
  have h0 : r ≠ 0 := by
    rintro rfl
    simp at hr
    linarith
  rw [inv_linear r h0]
  unfold AbsSum
  simp only [coeff_mk, norm_neg, norm_pow, norm_inv]
  have hlt : ‖r‖⁻¹ < 1 := inv_lt_one_of_one_lt₀ hr
  simp_rw [pow_succ]
  exact (summable_geometric_of_lt_one (by positivity) hlt).mul_right _

theorem absSum_inv_prod (s : Multiset ℂ) (h : ∀ r ∈ s, 1 < ‖r‖) :
    AbsSum (((s.map fun r => Polynomial.X - Polynomial.C r).prod : Polynomial ℂ) :
      PowerSeries ℂ)⁻¹ := by
  induction s using Multiset.induction_on with
  | empty =>
    rw [Multiset.map_zero, Multiset.prod_zero, Polynomial.coe_one,
      show (1 : PowerSeries ℂ)⁻¹ = 1 from by
        rw [PowerSeries.inv_eq_iff_mul_eq_one (by simp), one_mul]]
    have := absSum_const 1
    rwa [map_one] at this
  | cons r s ih =>
    rw [Multiset.map_cons, Multiset.prod_cons, Polynomial.coe_mul, PowerSeries.mul_inv_rev]
    exact (ih fun r hr => h r (Multiset.mem_cons_of_mem hr)).mul
      (absSum_inv_linear r (h r (Multiset.mem_cons_self r s)))

/-- The inverse of a polynomial without zeros in the closed unit disc. -/
theorem absSum_inv (p : Polynomial ℂ) (h : ∀ w : ℂ, ‖w‖ ≤ 1 → p.eval w ≠ 0) :
    AbsSum (p : PowerSeries ℂ)⁻¹ := by
  have hs := (IsAlgClosed.splits p).eq_prod_roots
  rw [hs, Polynomial.coe_mul, PowerSeries.mul_inv_rev]
  refine (absSum_inv_prod _ fun r hr => ?_).mul ?_
  · by_contra hle
    exact h r (not_lt.mp hle) (Polynomial.isRoot_of_mem_roots hr)
  · rw [Polynomial.coe_C]
    have : (C p.leadingCoeff : PowerSeries ℂ)⁻¹ = C p.leadingCoeff⁻¹ := by
      have h0 : p.leadingCoeff ≠ 0 := by
        rw [Ne, Polynomial.leadingCoeff_eq_zero]
        rintro rfl
        exact h 0 (by simp) (by simp)
      rw [PowerSeries.inv_eq_iff_mul_eq_one (by simpa using h0), ← map_mul, inv_mul_cancel₀ h0,
        map_one]
    rw [this]
    exact absSum_const _

/-- If `A H = B`, `A` has no zeros in the closed unit disc, then `H` is absolutely summable
and its value is the quotient. -/
theorem quotient (H : PowerSeries ℂ) (a b : Polynomial ℂ)
    (ha : ∀ w : ℂ, ‖w‖ ≤ 1 → a.eval w ≠ 0) (h : (a : PowerSeries ℂ) * H = (b : PowerSeries ℂ)) :
    AbsSum H ∧ ∀ w : ℂ, ‖w‖ ≤ 1 → valueAt H w = b.eval w / a.eval w := by
  have h0 : constantCoeff (a : PowerSeries ℂ) ≠ 0 := by
    have := ha 0 (by simp)
    rw [← coeff_zero_eq_constantCoeff_apply, Polynomial.coeff_coe, Polynomial.coeff_zero_eq_eval_zero]
    exact this
  have hH : H = (b : PowerSeries ℂ) * (a : PowerSeries ℂ)⁻¹ := by
    rw [← h, mul_comm (a : PowerSeries ℂ), mul_assoc, PowerSeries.mul_inv_cancel _ h0, mul_one]
  have hs : AbsSum H := by
    rw [hH]
    exact (absSum_poly b).mul (absSum_inv a ha)
  refine ⟨hs, fun w hw => ?_⟩
  rw [eq_div_iff (ha w hw), mul_comm, ← valueAt_poly a, ← valueAt_poly b,
    ← valueAt_mul (absSum_poly a) hs w hw, h]

end Verif.StableFilter

import Mathlib.Analysis.BoxIntegral.UnitPartition
import Mathlib.Analysis.Convex.Measure
import Mathlib.MeasureTheory.Measure.Lebesgue.VolumeOfBalls
import Mathlib.MeasureTheory.Measure.Lebesgue.EqHaar
import Mathlib.LinearAlgebra.Matrix.ToLin

/-!
# Points of a lattice in the eighth of an ellipsoid
-/

namespace Verif.Room

open MeasureTheory Filter Topology
open scoped Pointwise

/-- The eighth of an ellipsoid. -/
def oct (a : Fin 3 → ℝ) : Set (Fin 3 → ℝ) := {x | (∀ i, 0 ≤ x i) ∧ ∑ i, (a i * x i) ^ 2 ≤ 1}

theorem volume_diag (d : Fin 3 → ℝ) (hd : ∀ i, d i ≠ 0) (s : Set (Fin 3 → ℝ)) :
    volume ((fun (x : Fin 3 → ℝ) i => d i * x i) ⁻¹' s) = ENNReal.ofReal |(∏ i, d i)⁻¹| * volume s := by
  have hf : (fun (x : Fin 3 → ℝ) i => d i * x i) = Matrix.toLin' (Matrix.diagonal d) := by
    funext x i
    simp [Matrix.toLin'_apply, Matrix.mulVec_diagonal]
  have hdet : LinearMap.det (Matrix.toLin' (Matrix.diagonal d)) = ∏ i, d i := by
    rw [LinearMap.det_toLin', Matrix.det_diagonal]
  rw [hf, Measure.addHaar_preimage_linearMap _ (by rw [hdet]; exact Finset.prod_ne_zero_iff.mpr fun i _ => hd i),
    hdet]

/-- Half of a set that does not change when it is mirrored. -/
theorem volume_half (A : Set (Fin 3 → ℝ)) (i : Fin 3)
    (hs : ∀ x, Function.update x i (-x i) ∈ A ↔ x ∈ A) :
    volume A = 2 * volume (A ∩ {x | 0 ≤ x i}) := by
  have hm : MeasurableSet {x : Fin 3 → ℝ | 0 ≤ x i} :=
    measurableSet_le measurable_const (measurable_pi_apply i)
  have hz : volume {x : Fin 3 → ℝ | x i = 0} = 0 := by
    rw [volume_pi]; exact Measure.pi_hyperplane _ i 0
  have h0 : volume (A ∩ {x | 0 < x i}) = volume (A ∩ {x | 0 ≤ x i}) := by
    refine measure_congr ?_
    have : ∀ᵐ x : Fin 3 → ℝ, x i ≠ 0 := by rw [ae_iff]; simpa using hz
    filter_upwards [this] with x hx
    refine propext (and_congr_right fun _ => ?_)
    exact ⟨fun h => le_of_lt (show 0 < x i from h), fun h => lt_of_le_of_ne (show 0 ≤ x i from h) (Ne.symm hx)⟩
  have hr : volume (A ∩ {x | 0 ≤ x i}ᶜ) = volume (A ∩ {x | 0 < x i}) := by
    have := volume_diag (fun j => if j = i then -1 else 1) (fun j => by split_ifs <;> norm_num)
      (A ∩ {x | 0 < x i})
    have h1 : |(∏ j : Fin 3, if j = i then (-1 : ℝ) else 1)⁻¹| = 1 := by
      rw [Finset.prod_ite_eq' Finset.univ i (fun _ => (-1 : ℝ))]
      simp
    rw [h1, ENNReal.ofReal_one, one_mul] at this
    rw [← this]
    congr 1
    ext x
    have hu : (fun j => (if j = i then (-1 : ℝ) else 1) * x j) = Function.update x i (-x i) := by
      funext j
      by_cases h : j = i
      · subst h; simp
      · simp [h]
    rw [Set.mem_preimage, hu]
    simp [hs]
  rw [← measure_inter_add_sdiff A hm, Set.sdiff_eq, hr, h0, two_mul]

theorem volume_ball3 : volume {x : Fin 3 → ℝ | ∑ i, x i ^ 2 ≤ 1} = ENNReal.ofReal (Real.pi * 4 / 3) := by
  have h := EuclideanSpace.volume_closedBall_fin_three (0 : EuclideanSpace ℝ (Fin 3)) 1
  rw [ENNReal.ofReal_one, one_pow, one_mul] at h
  rw [← h, ← (PiLp.volume_preserving_toLp (Fin 3)).measure_preimage Metric.isClosed_closedBall.nullMeasurableSet]
  congr 1
  ext x
  simp only [Set.mem_ofPred_eq, Set.mem_preimage, Metric.mem_closedBall, dist_zero_right,
    EuclideanSpace.norm_eq, Real.sqrt_le_one, Real.norm_eq_abs, sq_abs]

theorem volume_oct (a : Fin 3 → ℝ) (ha : ∀ i, 0 < a i) :
    volume.real (oct a) = Real.pi / 6 / (a 0 * a 1 * a 2) := by
  have h1 : volume {x : Fin 3 → ℝ | ∑ i, x i ^ 2 ≤ 1} = 2 * (2 * (2 * volume (oct fun _ => 1))) := by
    rw [volume_half _ 0, volume_half ({x | ∑ i, x i ^ 2 ≤ 1} ∩ {x | 0 ≤ x 0}) 1,
      volume_half ({x | ∑ i, x i ^ 2 ≤ 1} ∩ {x | 0 ≤ x 0} ∩ {x | 0 ≤ x 1}) 2]
    · congr 3
      refine congrArg volume ?_
      ext x
      simp [oct, Fin.forall_fin_succ]
      tauto
    all_goals
      intro x
      simp [Fin.sum_univ_three, Function.update]
  have h2 : oct a = (fun (x : Fin 3 → ℝ) i => a i * x i) ⁻¹' (oct fun _ => 1) := by
    ext x
    simp only [oct, Set.mem_ofPred_eq, Set.mem_preimage, one_mul]
    refine and_congr_left fun _ => forall_congr' fun i => ?_
    rw [mul_nonneg_iff_of_pos_left (ha i)]
  have h3 : (volume.real (oct fun _ => 1)) = Real.pi / 6 := by
    have := congrArg ENNReal.toReal (volume_ball3.symm.trans h1)
    rw [ENNReal.toReal_ofReal (by positivity)] at this
    simp only [ENNReal.toReal_mul, ENNReal.toReal_ofNat] at this
    rw [Measure.real]; linarith
  rw [h2, Measure.real, volume_diag a (fun i => (ha i).ne'), ENNReal.toReal_mul, ENNReal.toReal_ofReal (abs_nonneg _),
    ← Measure.real, h3, Fin.prod_univ_three, abs_of_pos]
  · field_simp
  · have := ha 0; have := ha 1; have := ha 2
    positivity

theorem oct_convex (a : Fin 3 → ℝ) : Convex ℝ (oct a) := by
  intro x hx y hy s t hs ht hst
  refine ⟨fun i => ?_, ?_⟩
  · have := mul_nonneg hs (hx.1 i); have := mul_nonneg ht (hy.1 i)
    simp only [Pi.add_apply, Pi.smul_apply, smul_eq_mul]; linarith
  · have : ∑ i, (a i * (s • x + t • y) i) ^ 2 ≤ ∑ i, (s * (a i * x i) ^ 2 + t * (a i * y i) ^ 2) := by
      refine Finset.sum_le_sum fun i _ => ?_
      simp only [Pi.add_apply, Pi.smul_apply, smul_eq_mul]
      have ht' : t = 1 - s := by linarith
      subst ht'
      nlinarith [mul_nonneg (mul_nonneg hs ht) (sq_nonneg (a i * x i - a i * y i))]
    rw [Finset.sum_add_distrib, ← Finset.mul_sum, ← Finset.mul_sum] at this
    nlinarith [hx.2, hy.2]

theorem oct_closed (a : Fin 3 → ℝ) : IsClosed (oct a) := by
  have h1 : IsClosed {x : Fin 3 → ℝ | ∀ i, 0 ≤ x i} := by
    rw [Set.ofPred_forall]
    exact isClosed_iInter fun i => isClosed_le continuous_const (continuous_apply i)
  have h2 : IsClosed {x : Fin 3 → ℝ | ∑ i, (a i * x i) ^ 2 ≤ 1} :=
    isClosed_le (by fun_prop) continuous_const
  exact h1.inter h2

theorem oct_le (a : Fin 3 → ℝ) (ha : ∀ i, 0 < a i) {x : Fin 3 → ℝ} (hx : x ∈ oct a) (i : Fin 3) :
    x i ≤ 1 / a i := by
  have h : (a i * x i) ^ 2 ≤ 1 :=
    le_trans (Finset.single_le_sum (f := fun i => (a i * x i) ^ 2) (fun j _ => sq_nonneg _) (Finset.mem_univ i)) hx.2
  rw [le_div_iff₀ (ha i), mul_comm]
  nlinarith [mul_nonneg (ha i).le (hx.1 i)]

theorem oct_bounded (a : Fin 3 → ℝ) (ha : ∀ i, 0 < a i) : Bornology.IsBounded (oct a) := by
  refine (Metric.isBounded_Icc (0 : Fin 3 → ℝ) (fun i => 1 / a i)).subset fun x hx => ⟨fun i => hx.1 i, fun i => ?_⟩
  exact oct_le a ha hx i

theorem oct_star (a : Fin 3 → ℝ) ⦃x y : ℝ⦄ (hx : 0 < x) (hxy : x ≤ y) : x • oct a ⊆ y • oct a := by
  rintro _ ⟨w, hw, rfl⟩
  have hy : 0 < y := hx.trans_le hxy
  refine ⟨(x / y) • w, ?_, ?_⟩
  · have h0 : (0 : Fin 3 → ℝ) ∈ oct a := ⟨fun i => le_rfl, by simp⟩
    have h1 : 0 ≤ 1 - x / y := by rw [sub_nonneg, div_le_one hy]; exact hxy
    have h2 : 0 ≤ x / y := by positivity
    have := oct_convex a h0 hw h1 h2 (by ring)
    simpa using this
  · simp only [smul_smul]
    congr 1
    field_simp

/-- The orders in the ellipsoid. -/
def inside (a : Fin 3 → ℝ) (f : ℝ) : Set (ℕ × ℕ × ℕ) :=
  {n | (a 0 * n.1) ^ 2 + (a 1 * n.2.1) ^ 2 + (a 2 * n.2.2) ^ 2 ≤ f ^ 2}

theorem card_lattice (a : Fin 3 → ℝ) (f : ℝ) (hf : 0 < f) :
    Nat.card ↑(oct a ∩ f⁻¹ • (Submodule.span ℤ (Set.range (Pi.basisFun ℝ (Fin 3))) : Set (Fin 3 → ℝ))) =
      Nat.card ↑(inside a f) := by
  refine (Nat.card_congr (Equiv.ofBijective (fun n : ↑(inside a f) =>
    (⟨f⁻¹ • ![(n.1.1 : ℝ), (n.1.2.1 : ℝ), (n.1.2.2 : ℝ)], ?_⟩ : ↑(oct a ∩ f⁻¹ •
      (Submodule.span ℤ (Set.range (Pi.basisFun ℝ (Fin 3))) : Set (Fin 3 → ℝ))))) ⟨?_, ?_⟩)).symm
  · obtain ⟨⟨n1, n2, n3⟩, hn⟩ := n
    refine ⟨⟨fun i => ?_, ?_⟩, Set.smul_mem_smul_set ?_⟩
    · fin_cases i <;> simp <;> positivity
    · simp only [inside, Set.mem_ofPred_eq] at hn
      simp only [Fin.sum_univ_three, Pi.smul_apply, smul_eq_mul, Matrix.cons_val_zero, Matrix.cons_val_one,
        Matrix.cons_val]
      rw [show (a 0 * (f⁻¹ * (n1 : ℝ))) ^ 2 + (a 1 * (f⁻¹ * (n2 : ℝ))) ^ 2 + (a 2 * (f⁻¹ * (n3 : ℝ))) ^ 2 =
        ((a 0 * n1) ^ 2 + (a 1 * n2) ^ 2 + (a 2 * n3) ^ 2) / f ^ 2 by field_simp, div_le_one (by positivity)]
      exact hn
    · rw [SetLike.mem_coe, Module.Basis.mem_span_iff_repr_mem]
      intro i
      fin_cases i
      · exact ⟨n1, by simp⟩
      · exact ⟨n2, by simp⟩
      · exact ⟨n3, by simp⟩
  · rintro ⟨⟨m1, m2, m3⟩, hm⟩ ⟨⟨n1, n2, n3⟩, hn⟩ h
    have h' := smul_right_injective (Fin 3 → ℝ) (inv_ne_zero hf.ne') (Subtype.ext_iff.mp h)
    have h0 := congrFun h' 0
    have h1 := congrFun h' 1
    have h2 := congrFun h' 2
    simp at h0 h1 h2
    subst h0 h1 h2
    rfl
  · rintro ⟨x, hx, z, hz, rfl⟩
    have hz0 : ∀ i, 0 ≤ z i := fun i => by
      have := hx.1 i
      simp only [Pi.smul_apply, smul_eq_mul] at this
      exact (mul_nonneg_iff_of_pos_left (inv_pos.mpr hf)).mp this
    rw [SetLike.mem_coe, Module.Basis.mem_span_iff_repr_mem] at hz
    have hn : ∀ i, ∃ n : ℕ, (n : ℝ) = z i := fun i => by
      obtain ⟨k, hk⟩ := hz i
      simp at hk
      have h0 := hz0 i
      rw [← hk] at h0
      obtain ⟨n, rfl⟩ := Int.eq_ofNat_of_zero_le (Int.cast_nonneg_iff.mp h0)
      exact ⟨n, by rw [← hk]; simp⟩
    choose n hn using hn
    have hv : z = ![(n 0 : ℝ), (n 1 : ℝ), (n 2 : ℝ)] := by
      funext i
      fin_cases i <;> simp [hn]
    refine ⟨⟨(n 0, n 1, n 2), ?_⟩, Subtype.ext ?_⟩
    · have := hx.2
      simp only [Fin.sum_univ_three, Pi.smul_apply, smul_eq_mul, ← hn] at this
      rw [show (a 0 * (f⁻¹ * (n 0 : ℝ))) ^ 2 + (a 1 * (f⁻¹ * (n 1 : ℝ))) ^ 2 + (a 2 * (f⁻¹ * (n 2 : ℝ))) ^ 2 =
        ((a 0 * n 0) ^ 2 + (a 1 * n 1) ^ 2 + (a 2 * n 2) ^ 2) / f ^ 2 by field_simp, div_le_one (by positivity)] at this
      exact this
    · simp [hv]

theorem inside_tendsto (a : Fin 3 → ℝ) (ha : ∀ i, 0 < a i) :
    Tendsto (fun f : ℝ => (Nat.card ↑(inside a f) : ℝ) / f ^ 3) atTop (𝓝 (Real.pi / 6 / (a 0 * a 1 * a 2))) := by
  rw [← volume_oct a ha]
  have := tendsto_card_div_pow_atTop_volume' (oct a) (oct_bounded a ha) (oct_closed a).measurableSet
    ((oct_convex a).addHaar_frontier volume) (oct_star a)
  rw [Fintype.card_fin] at this
  refine this.congr' ?_
  filter_upwards [eventually_gt_atTop 0] with f hf
  rw [card_lattice a f hf]

end Verif.Room

import Verif.Model.Beamformers
import Verif.Props.C75
import Mathlib.Analysis.MeanInequalitiesPow

/-!
# C76: functional, minimum variance, orthogonal and CLEAN-SC beamformers

"For every cross-spectral matrix and every decomposition numpy may return: the map of the functional
beamformer lies between zero and the delay-and-sum map and agrees with it for gamma 1 and at the
source; the minimum variance beamformer shows the power of the source at its position; the
orthogonal beamformer places each eigenvalue at a grid point and its map never exceeds the
delay-and-sum map; CLEAN-SC collects the power of the source at its position."
-/

namespace Verif.Beamforming

open Complex Finset

/-! ### Vectors -/

/-- The inner product of the first `n` entries. -/
noncomputable def ip (n : ℕ) (x y : ℕ → ℂ) : ℂ := ∑ i ∈ range n, (starRingEnd ℂ) (x i) * y i

/-- The matrix times the vector. -/
noncomputable def app (n : ℕ) (C : ℕ → ℕ → ℂ) (x : ℕ → ℂ) (r : ℕ) : ℂ := ∑ c ∈ range n, C r c * x c

/-- The squared norm. -/
noncomputable def sq (n : ℕ) (x : ℕ → ℂ) : ℝ := ∑ i ∈ range n, ‖x i‖ ^ 2

theorem ip_self (n : ℕ) (x : ℕ → ℂ) : ip n x x = (sq n x : ℂ) := by
  unfold ip sq
  rw [ofReal_sum]
  refine sum_congr rfl fun i _ => ?_
  rw [← normSq_eq_norm_sq, ← mul_conj]
  ring

theorem ip_conj (n : ℕ) (x y : ℕ → ℂ) : (starRingEnd ℂ) (ip n x y) = ip n y x := by
  unfold ip
  rw [map_sum]
  refine sum_congr rfl fun i _ => ?_
  rw [map_mul, conj_conj]
  ring

theorem ip_smul_right (n : ℕ) (x y : ℕ → ℂ) (a : ℂ) : ip n x (fun i => a * y i) = a * ip n x y := by
  unfold ip
  rw [mul_sum]
  exact sum_congr rfl fun i _ => by ring

theorem ip_congr_right (n : ℕ) (x : ℕ → ℂ) {y z : ℕ → ℂ} (h : ∀ i < n, y i = z i) :
    ip n x y = ip n x z :=
  sum_congr rfl fun i hi => by rw [h i (mem_range.1 hi)]

theorem sq_nonneg' (n : ℕ) (x : ℕ → ℂ) : 0 ≤ sq n x := sum_nonneg fun _ _ => by positivity

theorem sq_eq_zero (n : ℕ) (x : ℕ → ℂ) (h : sq n x = 0) (i : ℕ) (hi : i < n) : x i = 0 := by
  have h1 := (sum_eq_zero_iff_of_nonneg (fun j _ => by positivity)).1 h i (mem_range.2 hi)
  exact norm_eq_zero.1 (pow_eq_zero_iff two_ne_zero |>.1 h1)

theorem form_eq (n : ℕ) (h : ℕ → ℂ) (C : ℕ → ℕ → ℂ) : form n h C = (ip n h (app n C h)).re := by
  unfold form ip app
  congr 1
  refine sum_congr rfl fun r _ => ?_
  rw [mul_sum]
  exact sum_congr rfl fun c _ => by ring

/-- A Hermitian matrix can be moved to the other side. -/
theorem ip_app (n : ℕ) (C : ℕ → ℕ → ℂ) (hC : CSM.Hermitian C) (x y : ℕ → ℂ) :
    ip n x (app n C y) = ip n (app n C x) y := by
  have h1 : ip n x (app n C y) =
      ∑ r ∈ range n, ∑ c ∈ range n, (starRingEnd ℂ) (x r) * C r c * y c := by
    unfold ip app
    refine sum_congr rfl fun r _ => ?_
    rw [mul_sum]
    exact sum_congr rfl fun c _ => by ring
  have h2 : ip n (app n C x) y =
      ∑ c ∈ range n, ∑ r ∈ range n, (starRingEnd ℂ) (x r) * C r c * y c := by
    unfold ip app
    refine sum_congr rfl fun c _ => ?_
    rw [map_sum, sum_mul]
    refine sum_congr rfl fun r _ => ?_
    rw [map_mul, ← hC c r]
    ring
  rw [h1, h2, sum_comm]

/-- The coordinates with respect to orthonormal columns. -/
theorem expand (n : ℕ) (v : ℕ → ℕ → ℂ) (hv : IsUnitary n v) (x : ℕ → ℂ) (r : ℕ) (hr : r < n) :
    x r = ∑ j ∈ range n, v r j * ip n (fun i => v i j) x := by
  unfold ip
  have h1 : ∀ j ∈ range n, v r j * ∑ i ∈ range n, (starRingEnd ℂ) (v i j) * x i =
      ∑ i ∈ range n, v r j * (starRingEnd ℂ) (v i j) * x i := by
    intro j _
    rw [mul_sum]
    exact sum_congr rfl fun i _ => by ring
  rw [sum_congr rfl h1, sum_comm]
  have h2 : ∀ i ∈ range n, ∑ j ∈ range n, v r j * (starRingEnd ℂ) (v i j) * x i =
      if r = i then x i else 0 := by
    intro i hi
    rw [← sum_mul, hv.2 r hr i (mem_range.1 hi)]
    split_ifs <;> simp
  rw [sum_congr rfl h2, sum_ite_eq, if_pos (mem_range.2 hr)]

theorem ip_sum (n : ℕ) (x : ℕ → ℂ) (v : ℕ → ℕ → ℂ) (c : ℕ → ℂ) :
    ip n x (fun r => ∑ j ∈ range n, v r j * c j) = ∑ j ∈ range n, ip n x (fun r => v r j) * c j := by
  unfold ip
  have h1 : ∀ r ∈ range n, (starRingEnd ℂ) (x r) * ∑ j ∈ range n, v r j * c j =
      ∑ j ∈ range n, (starRingEnd ℂ) (x r) * v r j * c j := by
    intro r _
    rw [mul_sum]
    exact sum_congr rfl fun j _ => by ring
  rw [sum_congr rfl h1, sum_comm]
  exact sum_congr rfl fun j _ => by rw [sum_mul]

/-- The quadratic form of a matrix that is diagonal with respect to orthonormal columns. -/
theorem ip_diagonal (n : ℕ) (v : ℕ → ℕ → ℂ) (x : ℕ → ℂ) (w : ℕ → ℝ) :
    ip n x (fun r => ∑ j ∈ range n, v r j * (w j * ip n (fun i => v i j) x)) =
      ((∑ j ∈ range n, w j * ‖ip n (fun i => v i j) x‖ ^ 2 : ℝ) : ℂ) := by
  rw [ip_sum, ofReal_sum]
  refine sum_congr rfl fun j _ => ?_
  rw [← ip_conj n (fun i => v i j) x, ofReal_mul, ← normSq_eq_norm_sq, ← mul_conj]
  ring

/-- Parseval: the squared coordinates add up to the squared norm. -/
theorem coordinates (n : ℕ) (v : ℕ → ℕ → ℂ) (hv : IsUnitary n v) (x : ℕ → ℂ) :
    ∑ j ∈ range n, ‖ip n (fun i => v i j) x‖ ^ 2 = sq n x := by
  have h := ip_diagonal n v x fun _ => 1
  have h1 : ip n x (fun r => ∑ j ∈ range n, v r j * (((1 : ℝ) : ℂ) * ip n (fun i => v i j) x)) =
      ip n x x :=
    ip_congr_right n x fun r hr => by
      rw [expand n v hv x r hr]
      exact sum_congr rfl fun j _ => by rw [ofReal_one, one_mul]
  rw [h1, ip_self] at h
  have h2 : sq n x = ∑ j ∈ range n, 1 * ‖ip n (fun i => v i j) x‖ ^ 2 := by exact_mod_cast h
  rw [h2]
  exact sum_congr rfl fun j _ => by rw [one_mul]

/-! ### Singular value decompositions of positive semidefinite matrices -/

theorem app_svd (n : ℕ) (C u : ℕ → ℕ → ℂ) (s : ℕ → ℝ) (v : ℕ → ℕ → ℂ) (h : IsSVD n C u s v)
    (x : ℕ → ℂ) (r : ℕ) (hr : r < n) :
    app n C x r = ∑ j ∈ range n, u r j * (s j * ip n (fun i => v i j) x) := by
  unfold app ip
  have h1 : ∀ c ∈ range n, C r c * x c =
      ∑ j ∈ range n, u r j * (s j * ((starRingEnd ℂ) (v c j) * x c)) := by
    intro c hc
    rw [h.eq r hr c (mem_range.1 hc), sum_mul]
    exact sum_congr rfl fun j _ => by ring
  rw [sum_congr rfl h1, sum_comm]
  refine sum_congr rfl fun j _ => ?_
  rw [mul_sum, mul_sum]

theorem svd_right (n : ℕ) (C u : ℕ → ℕ → ℂ) (s : ℕ → ℝ) (v : ℕ → ℕ → ℂ) (h : IsSVD n C u s v)
    (k r : ℕ) (hk : k < n) (hr : r < n) : app n C (fun i => v i k) r = s k * u r k := by
  rw [app_svd n C u s v h _ r hr]
  have h1 : ∀ j ∈ range n, u r j * (s j * ip n (fun i => v i j) fun i => v i k) =
      if k = j then s k * u r k else 0 := by
    intro j hj
    unfold ip
    rw [h.right.1 j (mem_range.1 hj) k hk]
    split_ifs with h1 h2 h2
    · subst h1
      ring
    · exact absurd h1.symm h2
    · exact absurd h2.symm h1
    · ring
  rw [sum_congr rfl h1, sum_ite_eq, if_pos (mem_range.2 hk)]

theorem svd_swap (n : ℕ) (C u : ℕ → ℕ → ℂ) (s : ℕ → ℝ) (v : ℕ → ℕ → ℂ) (h : IsSVD n C u s v)
    (hC : CSM.Hermitian C) : IsSVD n C v s u := by
  refine ⟨fun r hr c hc => ?_, h.nonneg, h.right, h.left⟩
  rw [hC c r, h.eq c hc r hr, map_sum]
  refine sum_congr rfl fun j _ => ?_
  rw [map_mul, map_mul, conj_conj, conj_ofReal]
  ring

/-- The singular vectors of positive singular values agree. -/
theorem svd_psd (n : ℕ) (C u : ℕ → ℕ → ℂ) (s : ℕ → ℝ) (v : ℕ → ℕ → ℂ) (h : IsSVD n C u s v)
    (hC : CSM.Hermitian C) (hp : CSM.PosSemidef n C) (k : ℕ) (hk : k < n) (hs : 0 < s k) (r : ℕ)
    (hr : r < n) : u r k = v r k := by
  have h1 := svd_right n C u s v h k
  have h2 := svd_right n C v s u (svd_swap n C u s v h hC) k
  set x : ℕ → ℂ := fun i => u i k - v i k with hx
  have h3 : ∀ r < n, app n C x r = -(s k : ℂ) * x r := by
    intro r hr
    have : app n C x r = app n C (fun i => u i k) r - app n C (fun i => v i k) r := by
      unfold app
      rw [← sum_sub_distrib]
      exact sum_congr rfl fun c _ => by rw [hx]; ring
    rw [this, h1 r hk hr, h2 r hk hr, hx]
    ring
  obtain ⟨q, hq, he⟩ := hp x
  have h4 : (q : ℂ) = ((-(s k) * sq n x : ℝ) : ℂ) := by
    rw [← he]
    have : ∑ r ∈ range n, ∑ c ∈ range n, (starRingEnd ℂ) (x r) * C r c * x c = ip n x (app n C x) := by
      unfold ip app
      refine sum_congr rfl fun r _ => ?_
      rw [mul_sum]
      exact sum_congr rfl fun c _ => by ring
    rw [this, ip_congr_right n x h3, ip_smul_right, ip_self]
    push_cast
    ring
  have h5 : q = -(s k) * sq n x := by exact_mod_cast h4
  have h6 : sq n x = 0 := by
    have := sq_nonneg' n x
    by_contra hne
    have : 0 < sq n x := lt_of_le_of_ne this (Ne.symm hne)
    nlinarith
  exact sub_eq_zero.1 (sq_eq_zero n x h6 r hr)

/-- The matrix of the functional beamformer is diagonal in the right singular vectors. -/
theorem functional_app (n : ℕ) (γ : ℝ) (hγ : 0 < γ) (C u : ℕ → ℕ → ℂ) (s : ℕ → ℝ) (v : ℕ → ℕ → ℂ)
    (h : IsSVD n C u s v) (hC : CSM.Hermitian C) (hp : CSM.PosSemidef n C) (x : ℕ → ℂ) (r : ℕ)
    (hr : r < n) : app n (functionalMatrix n γ u s v) x r =
      ∑ j ∈ range n, v r j * (((s j ^ (1 / γ) : ℝ) : ℂ) * ip n (fun i => v i j) x) := by
  have h1 : IsSVD n (functionalMatrix n γ u s v) u (fun j => s j ^ (1 / γ)) v :=
    ⟨fun r _ c _ => rfl, fun j hj => Real.rpow_nonneg (h.nonneg j hj) _, h.left, h.right⟩
  rw [app_svd n _ u _ v h1 x r hr]
  refine sum_congr rfl fun j hj => ?_
  have hj' := mem_range.1 hj
  rcases (h.nonneg j hj').eq_or_lt with h0 | h0
  · rw [← h0, Real.zero_rpow (by positivity)]
    simp
  · rw [svd_psd n C u s v h hC hp j hj' h0 r hr]

theorem functional_form (n : ℕ) (γ : ℝ) (hγ : 0 < γ) (C u : ℕ → ℕ → ℂ) (s : ℕ → ℝ) (v : ℕ → ℕ → ℂ)
    (h : IsSVD n C u s v) (hC : CSM.Hermitian C) (hp : CSM.PosSemidef n C) (x : ℕ → ℂ) :
    form n x (functionalMatrix n γ u s v) =
      ∑ j ∈ range n, s j ^ (1 / γ) * ‖ip n (fun i => v i j) x‖ ^ 2 := by
  rw [form_eq, ip_congr_right n x (functional_app n γ hγ C u s v h hC hp x),
    ip_diagonal n v x fun j => s j ^ (1 / γ), ofReal_re]

theorem normalization_eq (n : ℕ) (x : ℕ → ℂ) :
    (∑ i ∈ range n, (starRingEnd ℂ) (x i) * x i).re = sq n x := by
  have := ip_self n x
  unfold ip at this
  rw [this, ofReal_re]

/-! ### The functional beamformer -/

/-- With the exponent 1 it is the delay-and-sum beamformer, for every matrix and decomposition. -/
theorem C76_functional_one (n : ℕ) (C u : ℕ → ℕ → ℂ) (s : ℕ → ℝ) (v : ℕ → ℕ → ℂ)
    (h : IsSVD n C u s v) (x : ℕ → ℂ) (hx : ∃ i < n, x i ≠ 0) :
    functional n 1 (functionalMatrix n 1 u s v) x = das n false C x := by
  have h0 : sq n x ≠ 0 := by
    intro h0
    obtain ⟨i, hi, hne⟩ := hx
    exact hne (sq_eq_zero n x h0 i hi)
  unfold functional das
  simp only [Bool.false_eq_true, if_false]
  rw [normalization_eq, Real.rpow_one, div_mul_cancel₀ _ h0]
  unfold form
  congr 1
  refine sum_congr rfl fun r hr => sum_congr rfl fun c hc => ?_
  congr 2
  rw [h.eq r (mem_range.1 hr) c (mem_range.1 hc)]
  unfold functionalMatrix
  refine sum_congr rfl fun j _ => ?_
  rw [div_one, Real.rpow_one]

/-- The new matrix has the same eigenvectors as the cross-spectral matrix, with the roots of the
eigenvalues; this determines it, so that the map does not depend on the decomposition. -/
theorem C76_functional_eigenvectors (n : ℕ) (γ : ℝ) (hγ : 0 < γ) (C u : ℕ → ℕ → ℂ) (s : ℕ → ℝ)
    (v : ℕ → ℕ → ℂ) (h : IsSVD n C u s v) (hC : CSM.Hermitian C) (hp : CSM.PosSemidef n C)
    (x : ℕ → ℂ) (l : ℝ)
    (hx : ∀ r < n, ∑ c ∈ range n, C r c * x c = l * x r) (r : ℕ) (hr : r < n) :
    ∑ c ∈ range n, functionalMatrix n γ u s v r c * x c = ((l ^ (1 / γ) : ℝ) : ℂ) * x r := by
  have h1 := functional_app n γ hγ C u s v h hC hp x r hr
  unfold app at h1
  rw [h1, expand n v h.right x r hr, mul_sum]
  refine sum_congr rfl fun j hj => ?_
  have hj' := mem_range.1 hj
  -- the coordinate vanishes unless the singular value is the eigenvalue
  have h2 : (s j : ℂ) * ip n (fun i => v i j) x = l * ip n (fun i => v i j) x := by
    have e1 : ip n (fun i => v i j) (app n C x) = l * ip n (fun i => v i j) x := by
      rw [← ip_smul_right]
      exact ip_congr_right n _ hx
    have hv : ∀ r < n, app n C (fun i => v i j) r = s j * v r j := by
      intro r hr
      rw [svd_right n C u s v h j r hj' hr]
      rcases (h.nonneg j hj').eq_or_lt with h0 | h0
      · rw [← h0]
        simp
      · rw [svd_psd n C u s v h hC hp j hj' h0 r hr]
    rw [← e1, ip_app n C hC]
    unfold ip
    rw [mul_sum]
    refine sum_congr rfl fun i hi => ?_
    rw [hv i (mem_range.1 hi), map_mul, conj_ofReal]
    ring
  by_cases hc : ip n (fun i => v i j) x = 0
  · rw [hc]
    ring
  · have : s j = l := by exact_mod_cast mul_right_cancel₀ hc h2
    rw [this]
    ring

/-- Two decompositions of the same matrix give the same map. -/
theorem C76_functional_unique (n : ℕ) (γ : ℝ) (hγ : 0 < γ) (C u u' : ℕ → ℕ → ℂ) (s s' : ℕ → ℝ)
    (v v' : ℕ → ℕ → ℂ) (h : IsSVD n C u s v) (h' : IsSVD n C u' s' v') (hC : CSM.Hermitian C)
    (hp : CSM.PosSemidef n C) (x : ℕ → ℂ) :
    functional n γ (functionalMatrix n γ u s v) x =
      functional n γ (functionalMatrix n γ u' s' v') x := by
  have key : form n x (functionalMatrix n γ u s v) = form n x (functionalMatrix n γ u' s' v') := by
    rw [form_eq, form_eq]
    congr 1
    refine ip_congr_right n x fun r hr => ?_
    rw [functional_app n γ hγ C u' s' v' h' hC hp x r hr]
    -- write x in the other basis
    have e1 : app n (functionalMatrix n γ u s v) x r = ∑ j ∈ range n,
        app n (functionalMatrix n γ u s v) (fun i => v' i j) r * ip n (fun i => v' i j) x := by
      unfold app
      have : ∀ c ∈ range n, functionalMatrix n γ u s v r c * x c = ∑ j ∈ range n,
          functionalMatrix n γ u s v r c * v' c j * ip n (fun i => v' i j) x := by
        intro c hc
        conv_lhs => rw [expand n v' h'.right x c (mem_range.1 hc), mul_sum]
        exact sum_congr rfl fun j _ => by ring
      rw [sum_congr rfl this, sum_comm]
      exact sum_congr rfl fun j _ => by rw [sum_mul]
    rw [e1]
    refine sum_congr rfl fun j hj => ?_
    have hj' := mem_range.1 hj
    have hv : ∀ r < n, ∑ c ∈ range n, C r c * v' c j = s' j * v' r j := by
      intro r hr
      have := svd_right n C u' s' v' h' j r hj' hr
      unfold app at this
      rw [this]
      rcases (h'.nonneg j hj').eq_or_lt with h0 | h0
      · rw [← h0]
        simp
      · rw [svd_psd n C u' s' v' h' hC hp j hj' h0 r hr]
    have := C76_functional_eigenvectors n γ hγ C u s v h hC hp (fun i => v' i j) (s' j) hv r hr
    unfold app
    rw [this]
    ring
  unfold functional
  rw [key]

/-- The map is not negative and, for exponents from 1, not larger than the one of delay-and-sum. -/
theorem C76_functional_bounds (n : ℕ) (γ : ℝ) (hγ : 1 ≤ γ) (C u : ℕ → ℕ → ℂ) (s : ℕ → ℝ)
    (v : ℕ → ℕ → ℂ) (h : IsSVD n C u s v) (hC : CSM.Hermitian C) (hp : CSM.PosSemidef n C)
    (x : ℕ → ℂ) (hx : ∃ i < n, x i ≠ 0) :
    0 ≤ functional n γ (functionalMatrix n γ u s v) x ∧
    functional n γ (functionalMatrix n γ u s v) x ≤ das n false C x := by
  have hγ0 : 0 < γ := by linarith
  have hS : 0 < sq n x := by
    refine lt_of_le_of_ne (sq_nonneg' n x) fun h0 => ?_
    obtain ⟨i, hi, hne⟩ := hx
    exact hne (sq_eq_zero n x h0.symm i hi)
  rw [← C76_functional_one n C u s v h x hx]
  unfold functional
  rw [normalization_eq]
  dsimp only
  rw [Real.rpow_one, functional_form n γ hγ0 C u s v h hC hp,
    functional_form n 1 one_pos C u s v h hC hp, sum_div, sum_div]
  have hnn : ∀ j ∈ range n, 0 ≤ s j ^ (1 / γ) * ‖ip n (fun i => v i j) x‖ ^ 2 / sq n x := by
    intro j hj
    have := Real.rpow_nonneg (h.nonneg j (mem_range.1 hj)) (1 / γ)
    positivity
  refine ⟨mul_nonneg (Real.rpow_nonneg (sum_nonneg hnn) _) hS.le, ?_⟩
  refine mul_le_mul_of_nonneg_right ?_ hS.le
  have hw1 : ∑ j ∈ range n, ‖ip n (fun i => v i j) x‖ ^ 2 / sq n x = 1 := by
    rw [← sum_div, coordinates n v h.right, div_self hS.ne']
  have := Real.rpow_arith_mean_le_arith_mean_rpow (range n)
    (fun j => ‖ip n (fun i => v i j) x‖ ^ 2 / sq n x) (fun j => s j ^ (1 / γ))
    (fun j _ => by positivity) hw1
    (fun j hj => Real.rpow_nonneg (h.nonneg j (mem_range.1 hj)) _) hγ
  refine le_trans (le_of_eq ?_) (this.trans (le_of_eq ?_))
  · congr 1
    exact sum_congr rfl fun j _ => by ring
  · refine sum_congr rfl fun j hj => ?_
    rw [← Real.rpow_mul (h.nonneg j (mem_range.1 hj)), one_div_mul_cancel hγ0.ne', div_one]
    ring

/-! ### One source -/

theorem oneSource_hermitian (P : ℝ) (a : ℕ → ℂ) : CSM.Hermitian (oneSource P a) := by
  intro r c
  unfold oneSource
  rw [map_mul, map_mul, conj_conj, conj_ofReal]
  ring

theorem oneSource_app (n : ℕ) (P : ℝ) (a x : ℕ → ℂ) (r : ℕ) :
    app n (oneSource P a) x r = P * ip n a x * a r := by
  unfold app ip oneSource
  rw [mul_sum, sum_mul]
  exact sum_congr rfl fun c _ => by ring

theorem oneSource_psd (n : ℕ) (P : ℝ) (hP : 0 ≤ P) (a : ℕ → ℂ) : CSM.PosSemidef n (oneSource P a) := by
  intro x
  refine ⟨P * ‖ip n a x‖ ^ 2, by positivity, ?_⟩
  have : ∑ r ∈ range n, ∑ c ∈ range n, (starRingEnd ℂ) (x r) * oneSource P a r c * x c =
      ip n x (app n (oneSource P a) x) := by
    unfold ip app
    refine sum_congr rfl fun r _ => ?_
    rw [mul_sum]
    exact sum_congr rfl fun c _ => by ring
  rw [this, ip_congr_right n x fun r _ => oneSource_app n P a x r, ip_smul_right, ← ip_conj n a x,
    ofReal_mul, ← normSq_eq_norm_sq, ← mul_conj]
  ring

/-- The factor between the steering vector and the field. -/
noncomputable def factor (f : Formulation) (mics : List Point) (s : Point) : ℝ :=
  match f with
  | .trueLocation => 1 / (distance s (center mics) * √(mics.length * inverseSquares mics s))
  | _ => 1 / (distance s (center mics) ^ 2 * inverseSquares mics s)

theorem steering_eq (f : Formulation) (hf : f = .truePower ∨ f = .trueLocation) (k : ℝ)
    (mics : List Point) (s : Point) (h : Apart mics s) (i : ℕ) :
    steering f k mics s i = factor f mics s * field k mics s i := by
  rw [field_eq]
  unfold steering
  rw [← mul_assoc, ← ofReal_mul]
  congr 2
  have h0 := h.1.ne'
  rcases hf with rfl | rfl
  · unfold magnitude factor
    dsimp only
    field_simp
  · unfold magnitude factor
    dsimp only
    field_simp

theorem sq_field (k : ℝ) (mics : List Point) (s : Point) :
    sq mics.length (field k mics s) =
      ∑ i ∈ range mics.length, (distance s (center mics) / distance s (mics.getD i 0)) ^ 2 :=
  sum_congr rfl fun i _ => norm_field k mics s i

theorem sq_field_eq (k : ℝ) (mics : List Point) (s : Point) :
    sq mics.length (field k mics s) = distance s (center mics) ^ 2 * inverseSquares mics s := by
  rw [sq_field, inverseSquares_eq, mul_sum]
  exact sum_congr rfl fun i _ => by ring

theorem form_eigen (n : ℕ) (C : ℕ → ℕ → ℂ) (h : ℕ → ℂ) (l : ℝ)
    (hl : ∀ r < n, ∑ c ∈ range n, C r c * h c = l * h r) : form n h C = l * sq n h := by
  rw [form_eq]
  have : ip n h (app n C h) = l * ip n h h := by
    rw [← ip_smul_right]
    exact ip_congr_right n _ hl
  rw [this, ip_self, ← ofReal_mul, ofReal_re]

theorem sq_smul (n : ℕ) (x : ℕ → ℂ) (b : ℝ) : sq n (fun i => b * x i) = b ^ 2 * sq n x := by
  unfold sq
  rw [mul_sum]
  refine sum_congr rfl fun i _ => ?_
  rw [norm_mul, mul_pow, norm_real, Real.norm_eq_abs, sq_abs]

/-- At the position of a single source the map agrees with the one of delay-and-sum for every
exponent, in particular it shows the power with the formulation true power. -/
theorem C76_functional_source (f : Formulation) (hf : f = .truePower ∨ f = .trueLocation) (k : ℝ)
    (mics : List Point) (hm : mics ≠ []) (s : Point) (h : Apart mics s) (P : ℝ) (hP : 0 ≤ P) (γ : ℝ)
    (hγ : 0 < γ) (u : ℕ → ℕ → ℂ) (sv : ℕ → ℝ) (v : ℕ → ℕ → ℂ)
    (hsvd : IsSVD mics.length (oneSource P (field k mics s)) u sv v) :
    functional mics.length γ (functionalMatrix mics.length γ u sv v) (steering f k mics s) =
      das mics.length false (oneSource P (field k mics s)) (steering f k mics s) ∧
    (f = .truePower → functional mics.length γ (functionalMatrix mics.length γ u sv v)
      (steering f k mics s) = P) := by
  set a := field k mics s with ha
  set n := mics.length with hn
  have hst : steering f k mics s = fun i => ((factor f mics s : ℝ) : ℂ) * a i :=
    funext fun i => steering_eq f hf k mics s h i
  have hS := inverseSquares_pos mics hm s h
  have hsa : 0 < sq n a := by
    rw [ha, hn, sq_field_eq]
    have := h.1
    positivity
  have hN : (0 : ℝ) < mics.length := by exact_mod_cast List.length_pos_of_ne_nil hm
  have hb : 0 < factor f mics s := by
    have := h.1
    unfold factor
    split <;> positivity
  have hsh : 0 < sq n (steering f k mics s) := by
    rw [hst, sq_smul]
    positivity
  have heig : ∀ r < n, ∑ c ∈ range n, oneSource P a r c * steering f k mics s c =
      ((P * sq n a : ℝ) : ℂ) * steering f k mics s r := by
    intro r _
    have := oneSource_app n P a (steering f k mics s) r
    unfold app at this
    rw [this, hst, ip_smul_right, ip_self]
    push_cast
    ring
  have h1 := form_eigen n _ _ _ heig
  have h2 := form_eigen n _ _ _ (C76_functional_eigenvectors n γ hγ _ u sv v hsvd
    (oneSource_hermitian P a) (oneSource_psd n P hP a) _ _ heig)
  have h3 : functional n γ (functionalMatrix n γ u sv v) (steering f k mics s) =
      das n false (oneSource P a) (steering f k mics s) := by
    unfold functional das
    simp only [Bool.false_eq_true, if_false]
    rw [normalization_eq, h1, h2, mul_div_cancel_right₀ _ hsh.ne', ← Real.rpow_mul (by positivity),
      one_div_mul_cancel hγ.ne', Real.rpow_one]
  refine ⟨h3, fun hf' => ?_⟩
  rw [h3]
  exact C75_power f (.inr hf') k mics hm s h P

/-! ### Minimum variance -/

/-- The value is the smallest power at the output of all weights with the response 1 to the steering
vector, for every matrix that is Hermitian, positive semidefinite and has an inverse. -/
theorem C76_mvdr_minimum (n : ℕ) (C D : ℕ → ℕ → ℂ) (hC : CSM.Hermitian C)
    (hp : CSM.PosSemidef n C) (hD : IsInverse n C D) (h : ℕ → ℂ) (hh : ∃ i < n, h i ≠ 0) :
    (∀ w : ℕ → ℂ, ∑ i ∈ range n, (starRingEnd ℂ) (w i) * h i = 1 → mvdr n D h ≤ form n w C) ∧
    ∃ w : ℕ → ℂ, ∑ i ∈ range n, (starRingEnd ℂ) (w i) * h i = 1 ∧ form n w C = mvdr n D h := by
  set g := app n D h with hg
  -- the inverse solves the equation
  have hCg : ∀ r < n, app n C g r = h r := by
    intro r hr
    rw [hg]
    unfold app
    have h1 : ∀ c ∈ range n, C r c * ∑ j ∈ range n, D c j * h j =
        ∑ j ∈ range n, C r c * D c j * h j := by
      intro c _
      rw [mul_sum]
      exact sum_congr rfl fun j _ => by ring
    rw [sum_congr rfl h1, sum_comm]
    have h2 : ∀ j ∈ range n, ∑ c ∈ range n, C r c * D c j * h j = if r = j then h j else 0 := by
      intro j hj
      rw [← sum_mul, hD.1 r hr j (mem_range.1 hj)]
      split_ifs <;> simp
    rw [sum_congr rfl h2, sum_ite_eq, if_pos (mem_range.2 hr)]
  have hreal : ∀ x : ℕ → ℂ, ∃ q : ℝ, 0 ≤ q ∧ ip n x (app n C x) = q ∧ form n x C = q := by
    intro x
    obtain ⟨q, hq, he⟩ := hp x
    have : ip n x (app n C x) = q := by
      rw [← he]
      unfold ip app
      refine sum_congr rfl fun r _ => ?_
      rw [mul_sum]
      exact sum_congr rfl fun c _ => by ring
    exact ⟨q, hq, this, by rw [form_eq, this, ofReal_re]⟩
  obtain ⟨q, hq, hgq, -⟩ := hreal g
  have hgh : ip n g h = q := by
    rw [← hgq]
    exact ip_congr_right n g fun i hi => (hCg i hi).symm
  have hhg : ip n h g = q := by
    rw [← ip_conj, hgh, conj_ofReal]
  have hform : form n h D = q := by
    rw [form_eq, ← hg, hhg, ofReal_re]
  -- the difference to a multiple of the solution
  have hdiff : ∀ (w : ℕ → ℂ) (t : ℝ), ip n w h = 1 →
      form n (fun i => w i - t * g i) C = form n w C - 2 * t + t ^ 2 * q := by
    intro w t hw
    have e1 : ∀ r < n, app n C (fun i => w i - t * g i) r = app n C w r - t * h r := by
      intro r hr
      rw [← hCg r hr]
      unfold app
      rw [mul_sum, ← sum_sub_distrib]
      exact sum_congr rfl fun c _ => by ring
    have e2 : ip n (fun i => w i - t * g i) (app n C fun i => w i - t * g i) =
        ip n w (app n C w) - t * ip n w h - t * ip n g (app n C w) + t * t * ip n g h := by
      rw [ip_congr_right n _ e1]
      unfold ip
      rw [mul_sum, mul_sum, mul_sum, ← sum_sub_distrib, ← sum_sub_distrib, ← sum_add_distrib]
      refine sum_congr rfl fun i _ => ?_
      rw [map_sub, map_mul, conj_ofReal]
      ring
    have e3 : ip n g (app n C w) = 1 := by
      rw [ip_app n C hC]
      have : ip n (app n C g) w = ip n h w := by
        unfold ip
        exact sum_congr rfl fun i hi => by rw [hCg i (mem_range.1 hi)]
      rw [this, ← ip_conj, hw, map_one]
    rw [form_eq, e2, e3, hw, hgh, form_eq n w]
    simp only [sub_re, add_re, mul_re, ofReal_re, ofReal_im, one_re, one_im]
    norm_num
    ring
  have hnonneg : ∀ w, 0 ≤ form n w C := by
    intro w
    obtain ⟨q', hq', -, h2⟩ := hreal w
    rw [h2]
    exact hq'
  have hqpos : 0 < q := by
    refine lt_of_le_of_ne hq fun h0 => ?_
    -- a weight with the response 1
    have hs : 0 < sq n h := by
      refine lt_of_le_of_ne (sq_nonneg' n h) fun h0 => ?_
      obtain ⟨i, hi, hne⟩ := hh
      exact hne (sq_eq_zero n h h0.symm i hi)
    set w : ℕ → ℂ := fun i => ((1 / sq n h : ℝ) : ℂ) * h i with hw
    have hw1 : ip n w h = 1 := by
      rw [← ip_conj, hw, ip_smul_right, ip_self, ← ofReal_mul, one_div_mul_cancel hs.ne']
      simp
    have := hnonneg fun i => w i - ((form n w C + 1 : ℝ) : ℂ) * g i
    rw [hdiff w _ hw1, ← h0] at this
    have h1 := hnonneg w
    linarith
  have hv : mvdr n D h = 1 / q := by
    unfold mvdr
    rw [hform]
  refine ⟨fun w hw => ?_, fun i => ((1 / q : ℝ) : ℂ) * g i, ?_, ?_⟩
  · have := hnonneg fun i => w i - ((1 / q : ℝ) : ℂ) * g i
    rw [hdiff w _ hw] at this
    rw [hv]
    have e : (1 / q) ^ 2 * q = 1 / q := by
      field_simp
    rw [e] at this
    linarith
  · have : ip n (fun i => ((1 / q : ℝ) : ℂ) * g i) h = 1 := by
      rw [← ip_conj, ip_smul_right, hhg, ← ofReal_mul, one_div_mul_cancel hqpos.ne']
      simp
    exact this
  · rw [hv, form_eq]
    have e1 : app n C (fun i => ((1 / q : ℝ) : ℂ) * g i) = fun r => ((1 / q : ℝ) : ℂ) * app n C g r := by
      funext r
      unfold app
      rw [mul_sum]
      exact sum_congr rfl fun c _ => by ring
    rw [e1, ip_smul_right, ← ip_conj]
    have e3 : ip n (app n C g) (fun i => ((1 / q : ℝ) : ℂ) * g i) = ((1 / q * q : ℝ) : ℂ) := by
      rw [ip_smul_right]
      have : ip n (app n C g) g = q := by
        rw [← hhg]
        unfold ip
        exact sum_congr rfl fun i hi => by rw [hCg i (mem_range.1 hi)]
      rw [this, ← ofReal_mul]
    rw [e3, conj_ofReal, ← ofReal_mul, ofReal_re]
    field_simp

/-- One source and noise of the power `σ` at each microphone, without correlation. -/
noncomputable def noisySource (P σ : ℝ) (a : ℕ → ℂ) (r c : ℕ) : ℂ :=
  oneSource P a r c + if r = c then (σ : ℂ) else 0

theorem noisySource_app (n : ℕ) (P σ : ℝ) (a x : ℕ → ℂ) (r : ℕ) (hr : r < n) :
    app n (noisySource P σ a) x r = P * ip n a x * a r + σ * x r := by
  have h1 : app n (noisySource P σ a) x r = app n (oneSource P a) x r +
      ∑ c ∈ range n, (if r = c then (σ : ℂ) * x c else 0) := by
    unfold app noisySource
    rw [← sum_add_distrib]
    refine sum_congr rfl fun c _ => ?_
    split_ifs <;> ring
  rw [h1, oneSource_app, sum_ite_eq, if_pos (mem_range.2 hr)]

/-- At the position of a source (formulation true power), the value of the minimum variance
beamformer is the one of delay-and-sum, i.e. the power of the source and a part of the noise,
times the fourth power of the norm of the field. -/
theorem C76_mvdr_level (k : ℝ) (mics : List Point) (hm : mics ≠ []) (s : Point) (h : Apart mics s)
    (P σ : ℝ) (hP : 0 ≤ P) (hσ : 0 < σ) (D : ℕ → ℕ → ℂ)
    (hD : IsInverse mics.length (noisySource P σ (field k mics s)) D) (A : ℝ)
    (hA : A = ∑ i ∈ range mics.length, (distance s (center mics) / distance s (mics.getD i 0)) ^ 2) :
    das mics.length false (noisySource P σ (field k mics s)) (steering .truePower k mics s) =
      P + σ / A ∧
    mvdr mics.length D (steering .truePower k mics s) = A ^ 2 * (P + σ / A) := by
  set a := field k mics s with ha
  set n := mics.length with hn
  have hAs : sq n a = A := by rw [ha, hn, sq_field, hA]
  have hA0 : 0 < A := by
    rw [← hAs, ha, hn, sq_field_eq]
    have := inverseSquares_pos mics hm s h
    have := h.1
    positivity
  have hfac : factor .truePower mics s = 1 / A := by
    unfold factor
    dsimp only
    rw [← sq_field_eq k mics s, ← ha, ← hn, hAs]
  have hst : steering .truePower k mics s = fun i => ((1 / A : ℝ) : ℂ) * a i :=
    funext fun i => by rw [steering_eq _ (.inl rfl) k mics s h i, hfac]
  have hsq : sq n (steering .truePower k mics s) = 1 / A := by
    rw [hst, sq_smul, hAs]
    field_simp
  have heig : ∀ r < n, ∑ c ∈ range n, noisySource P σ a r c * steering .truePower k mics s c =
      ((P * A + σ : ℝ) : ℂ) * steering .truePower k mics s r := by
    intro r hr
    have := noisySource_app n P σ a (steering .truePower k mics s) r hr
    unfold app at this
    rw [this, hst, ip_smul_right, ip_self, hAs]
    push_cast
    ring
  have hinv : ∀ r < n, ∑ c ∈ range n, D r c * steering .truePower k mics s c =
      ((1 / (P * A + σ) : ℝ) : ℂ) * steering .truePower k mics s r := by
    intro r hr
    have hL : ((P * A + σ : ℝ) : ℂ) ≠ 0 := by
      have : 0 < P * A + σ := by positivity
      exact_mod_cast this.ne'
    have e1 : ∑ c ∈ range n, D r c * (((P * A + σ : ℝ) : ℂ) * steering .truePower k mics s c) =
        steering .truePower k mics s r := by
      have e2 : ∀ c ∈ range n, D r c * (((P * A + σ : ℝ) : ℂ) * steering .truePower k mics s c) =
          ∑ j ∈ range n, D r c * noisySource P σ a c j * steering .truePower k mics s j := by
        intro c hc
        rw [← heig c (mem_range.1 hc), mul_sum]
        exact sum_congr rfl fun j _ => by ring
      rw [sum_congr rfl e2, sum_comm]
      have e3 : ∀ j ∈ range n, ∑ c ∈ range n, D r c * noisySource P σ a c j *
          steering .truePower k mics s j = if r = j then steering .truePower k mics s j else 0 := by
        intro j hj
        rw [← sum_mul, hD.2 r hr j (mem_range.1 hj)]
        split_ifs <;> simp
      rw [sum_congr rfl e3, sum_ite_eq, if_pos (mem_range.2 hr)]
    have e4 : ∑ c ∈ range n, D r c * (((P * A + σ : ℝ) : ℂ) * steering .truePower k mics s c) =
        ((P * A + σ : ℝ) : ℂ) * ∑ c ∈ range n, D r c * steering .truePower k mics s c := by
      rw [mul_sum]
      exact sum_congr rfl fun c _ => by ring
    rw [e4] at e1
    rw [← e1, ← mul_assoc, ← ofReal_mul, one_div_mul_cancel (by exact_mod_cast hL), ofReal_one,
      one_mul]
  have hL : 0 < P * A + σ := by positivity
  constructor
  · unfold das
    simp only [Bool.false_eq_true, if_false]
    rw [form_eigen n _ _ _ heig, hsq]
    field_simp
  · unfold mvdr
    rw [form_eigen n _ _ _ hinv, hsq]
    field_simp

/-- With two or more microphones this is always larger than the power of the source and the whole
noise of one microphone: the beamformer does not show the power at the position of the source. -/
theorem C76_mvdr_not_distortionless (k : ℝ) (mics : List Point) (hm : 2 ≤ mics.length) (s : Point)
    (h : Apart mics s) (P σ : ℝ) (hP : 0 ≤ P) (hσ : 0 < σ) (D : ℕ → ℕ → ℂ)
    (hD : IsInverse mics.length (noisySource P σ (field k mics s)) D) :
    P + σ < mvdr mics.length D (steering .truePower k mics s) := by
  have hne : mics ≠ [] := by
    rintro rfl
    simp at hm
  rw [(C76_mvdr_level k mics hne s h P σ hP hσ D hD _ rfl).2]
  set A := ∑ i ∈ range mics.length, (distance s (center mics) / distance s (mics.getD i 0)) ^ 2
    with hA
  have hA1 : 1 < A := by
    obtain ⟨i, hi, -, hc, -⟩ := C75_center mics hne
    have hpos : ∀ j < mics.length, 0 < (distance s (center mics) / distance s (mics.getD j 0)) ^ 2 := by
      intro j hj
      have := h.1
      have := h.2 j hj
      positivity
    obtain ⟨j, hj, hij⟩ : ∃ j < mics.length, j ≠ i := by
      by_cases h0 : i = 0
      · exact ⟨1, by omega, by omega⟩
      · exact ⟨0, by omega, fun h => h0 h.symm⟩
    rw [hA, ← add_sum_erase _ _ (mem_range.2 hi), ← hc, div_self h.1.ne', one_pow]
    have : 0 < ∑ x ∈ (range mics.length).erase i,
        (distance s (center mics) / distance s (mics.getD x 0)) ^ 2 :=
      sum_pos (fun x hx => hpos x (mem_range.1 (mem_of_mem_erase hx)))
        ⟨j, mem_erase.2 ⟨hij, mem_range.2 hj⟩⟩
    linarith
  have e : A ^ 2 * (P + σ / A) = A ^ 2 * P + A * σ := by
    field_simp
  rw [e]
  have h1 : σ < A * σ := by nlinarith
  have h2 : 0 ≤ P * ((A - 1) * (A + 1)) := by
    have : 0 ≤ A - 1 := by linarith
    have : 0 ≤ A + 1 := by linarith
    positivity
  nlinarith

/-! ### Eigenvalues -/

theorem argmax_spec (l : List ℝ) (hl : l ≠ []) : ∃ g, argmax l = .ok g ∧ g < l.length ∧
    (∀ j < l.length, l.getD j 0 ≤ l.getD g 0) ∧ ∀ j < g, l.getD j 0 < l.getD g 0 := by
  obtain ⟨g, hg, h1, h2, h3⟩ := Helpers.argmin_spec (l.map fun a => -a) (by simpa)
  rw [List.length_map] at h1
  have hn : ∀ j < l.length, (l.map fun a => -a).getD j 0 = -l.getD j 0 := by
    intro j hj
    rw [List.getD_eq_getElem _ _ (by simpa using hj), List.getElem_map, List.getD_eq_getElem _ _ hj]
  refine ⟨g, hg, h1, fun j hj => ?_, fun j hj => ?_⟩
  · have := h2 j (by simpa using hj)
    rw [hn g h1, hn j hj] at this
    linarith
  · have := h3 j hj
    rw [hn g h1, hn j (by omega)] at this
    linarith

/-- The value of the grid point `g` for the eigenvector number `e`, starting with the largest
eigenvalue. -/
noncomputable def share (n : ℕ) (w : ℕ → ℝ) (v : ℕ → ℕ → ℂ) (h : List (ℕ → ℂ)) (e g : ℕ) : ℝ :=
  ‖∑ i ∈ range n, (starRingEnd ℂ) (h.getD g 0 i) * v i (n - 1 - e)‖ ^ 2 * w (n - 1 - e)

/-- `g` is the first grid point with the largest response to the eigenvector. -/
def Peak (n : ℕ) (v : ℕ → ℕ → ℂ) (h : List (ℕ → ℂ)) (e g : ℕ) : Prop :=
  g < h.length ∧
  (∀ j < h.length, ‖∑ i ∈ range n, (starRingEnd ℂ) (h.getD j 0 i) * v i (n - 1 - e)‖ ≤
    ‖∑ i ∈ range n, (starRingEnd ℂ) (h.getD g 0 i) * v i (n - 1 - e)‖) ∧
  ∀ j < g, ‖∑ i ∈ range n, (starRingEnd ℂ) (h.getD j 0 i) * v i (n - 1 - e)‖ <
    ‖∑ i ∈ range n, (starRingEnd ℂ) (h.getD g 0 i) * v i (n - 1 - e)‖

theorem eig_getD (n : ℕ) (u : ℕ → ℂ) (h : List (ℕ → ℂ)) (g : ℕ) (hg : g < h.length) :
    (h.map (eigValue n u)).getD g 0 =
      ‖∑ i ∈ range n, (starRingEnd ℂ) (h.getD g 0 i) * u i‖ ^ 2 := by
  rw [List.getD_eq_getElem _ _ (by simpa using hg), List.getElem_map, List.getD_eq_getElem _ _ hg]
  unfold eigValue
  rw [normSq_eq_norm_sq]

theorem peak_exists (n : ℕ) (v : ℕ → ℕ → ℂ) (h : List (ℕ → ℂ)) (hh : h ≠ []) (e : ℕ) :
    ∃ g, argmax (h.map (eigValue n fun i => v i (n - 1 - e))) = .ok g ∧ Peak n v h e g := by
  obtain ⟨g, hg, h1, h2, h3⟩ := argmax_spec (h.map (eigValue n fun i => v i (n - 1 - e))) (by simpa)
  rw [List.length_map] at h1 h2
  refine ⟨g, hg, h1, fun j hj => ?_, fun j hj => ?_⟩
  · have := h2 j hj
    rw [eig_getD n _ h g h1, eig_getD n _ h j hj] at this
    exact (pow_le_pow_iff_left₀ (norm_nonneg _) (norm_nonneg _) two_ne_zero).1 this
  · have := h3 j hj
    rw [eig_getD n _ h g h1, eig_getD n _ h j (by omega)] at this
    exact (pow_lt_pow_iff_left₀ (norm_nonneg _) (norm_nonneg _) two_ne_zero).1 this

/-- The map of the orthogonal beamformer: every eigenvalue is placed at the first grid point with
the largest response; a grid point shows the value of the last eigenvector whose peak it is, all
others are zero. -/
theorem C76_orthogonal_map (n K : ℕ) (w : ℕ → ℝ) (v : ℕ → ℕ → ℂ) (h : List (ℕ → ℂ)) (hh : h ≠ []) :
    ∃ map, orthogonal n K w v h = .ok map ∧ map.length = h.length ∧
      ∀ g < h.length, ((∀ e < K, ¬ Peak n v h e g) ∧ map.getD g 0 = 0) ∨
        ∃ e < K, Peak n v h e g ∧ (∀ e' < K, e < e' → ¬ Peak n v h e' g) ∧
          map.getD g 0 = share n w v h e g := by
  unfold orthogonal
  induction K with
  | zero =>
    refine ⟨List.replicate h.length 0, rfl, List.length_replicate, fun g hg => .inl ⟨?_, ?_⟩⟩
    · intro e he
      omega
    · rw [List.getD_eq_getElem _ _ (by simpa using hg), List.getElem_replicate]
  | succ K ih =>
    obtain ⟨map, hmap, hlen, hval⟩ := ih
    obtain ⟨g0, hg0, hpk⟩ := peak_exists n v h hh K
    have huniq : ∀ g, Peak n v h K g → g = g0 := by
      intro g hg
      rcases lt_trichotomy g g0 with h1 | h1 | h1
      · have := hpk.2.2 g h1
        have := hg.2.1 g0 hpk.1
        linarith
      · exact h1
      · have := hg.2.2 g0 h1
        have := hpk.2.1 g hg.1
        linarith
    rw [List.range_succ, List.foldlM_append, hmap]
    refine ⟨map.set g0 (((h.map (eigValue n fun i => v i (n - 1 - K))).getD g0 0) * w (n - 1 - K)),
      ?_, by rw [List.length_set, hlen], fun g hg => ?_⟩
    · simp only [List.foldlM_cons, List.foldlM_nil]
      show (match argmax (h.map (eigValue n fun i => v i (n - 1 - K))) with
          | .error err => Except.error err
          | .ok g => Except.ok (map.set g
            (((h.map (eigValue n fun i => v i (n - 1 - K))).getD g 0) * w (n - 1 - K)))) >>= pure = _
      rw [hg0]
      rfl
    · by_cases hgg : g = g0
      · subst hgg
        refine .inr ⟨K, by omega, hpk, fun e' h1 h2 => by omega, ?_⟩
        rw [List.getD_eq_getElem _ _ (by simpa [hlen] using hg), List.getElem_set_self,
          eig_getD n _ h g hg]
        rfl
      · have hsame : (map.set g0 (((h.map (eigValue n fun i => v i (n - 1 - K))).getD g0 0) *
            w (n - 1 - K))).getD g 0 = map.getD g 0 := by
          rw [List.getD_eq_getElem _ _ (by simpa [hlen] using hg),
            List.getElem_set_ne (fun h => hgg h.symm)]
          exact (List.getD_eq_getElem _ _ (by simpa [hlen] using hg)).symm
        rw [hsame]
        rcases hval g hg with ⟨h1, h2⟩ | ⟨e, he, h1, h2, h3⟩
        · refine .inl ⟨fun e he hp => ?_, h2⟩
          rcases Nat.lt_succ_iff_lt_or_eq.1 he with he | rfl
          · exact h1 e he hp
          · exact hgg (huniq g hp)
        · refine .inr ⟨e, by omega, h1, fun e' he' hlt hp => ?_, h3⟩
          rcases Nat.lt_succ_iff_lt_or_eq.1 he' with he' | rfl
          · exact h2 e' he' hlt hp
          · exact hgg (huniq g hp)

theorem eigh_app (n : ℕ) (C : ℕ → ℕ → ℂ) (w : ℕ → ℝ) (v : ℕ → ℕ → ℂ) (h : IsEigh n C w v)
    (x : ℕ → ℂ) (r : ℕ) (hr : r < n) :
    app n C x r = ∑ j ∈ range n, v r j * (w j * ip n (fun i => v i j) x) := by
  unfold app
  have h1 : ∀ c ∈ range n, C r c * x c =
      ∑ j ∈ range n, C r c * v c j * ip n (fun i => v i j) x := by
    intro c hc
    conv_lhs => rw [expand n v h.unitary x c (mem_range.1 hc), mul_sum]
    exact sum_congr rfl fun j _ => by ring
  rw [sum_congr rfl h1, sum_comm]
  refine sum_congr rfl fun j hj => ?_
  rw [← sum_mul, h.eq r hr j (mem_range.1 hj)]
  ring

theorem eigh_form (n : ℕ) (C : ℕ → ℕ → ℂ) (w : ℕ → ℝ) (v : ℕ → ℕ → ℂ) (h : IsEigh n C w v)
    (x : ℕ → ℂ) : form n x C = ∑ j ∈ range n, w j * ‖ip n (fun i => v i j) x‖ ^ 2 := by
  rw [form_eq, ip_congr_right n x (eigh_app n C w v h x), ip_diagonal n v x w, ofReal_re]

theorem eigh_norm (n : ℕ) (C : ℕ → ℕ → ℂ) (w : ℕ → ℝ) (v : ℕ → ℕ → ℂ) (h : IsEigh n C w v) (j : ℕ)
    (hj : j < n) : sq n (fun i => v i j) = 1 := by
  have h1 := ip_self n fun i => v i j
  unfold ip at h1
  rw [h.unitary.1 j hj j hj, if_pos rfl] at h1
  exact_mod_cast h1.symm

theorem eigh_nonneg (n : ℕ) (C : ℕ → ℕ → ℂ) (w : ℕ → ℝ) (v : ℕ → ℕ → ℂ) (h : IsEigh n C w v)
    (hp : CSM.PosSemidef n C) (j : ℕ) (hj : j < n) : 0 ≤ w j := by
  obtain ⟨q, hq, he⟩ := hp fun i => v i j
  have h1 : form n (fun i => v i j) C = w j * sq n (fun i => v i j) :=
    form_eigen n C _ _ fun r hr => h.eq r hr j hj
  unfold form at h1
  rw [he, ofReal_re, eigh_norm n C w v h j hj, mul_one] at h1
  rw [← h1]
  exact hq

/-- The map is not negative and not larger than the one of delay-and-sum. -/
theorem C76_orthogonal_bounds (n K : ℕ) (hK : K ≤ n) (C : ℕ → ℕ → ℂ) (w : ℕ → ℝ) (v : ℕ → ℕ → ℂ)
    (he : IsEigh n C w v) (hp : CSM.PosSemidef n C) (h : List (ℕ → ℂ)) (map : List ℝ)
    (hmap : orthogonal n K w v h = .ok map) (g : ℕ) (hg : g < h.length) :
    0 ≤ map.getD g 0 ∧ map.getD g 0 ≤ das n false C (h.getD g 0) := by
  have hh : h ≠ [] := by
    rintro rfl
    simp at hg
  obtain ⟨map', hm', -, hval⟩ := C76_orthogonal_map n K w v h hh
  rw [hmap] at hm'
  cases hm'
  have hform := eigh_form n C w v he (h.getD g 0)
  have hnn : ∀ j ∈ range n, 0 ≤ w j * ‖ip n (fun i => v i j) (h.getD g 0)‖ ^ 2 := fun j hj => by
    have := eigh_nonneg n C w v he hp j (mem_range.1 hj)
    positivity
  have hdas : das n false C (h.getD g 0) =
      ∑ j ∈ range n, w j * ‖ip n (fun i => v i j) (h.getD g 0)‖ ^ 2 := by
    unfold das
    simp only [Bool.false_eq_true, if_false]
    exact hform
  rw [hdas]
  rcases hval g hg with ⟨-, h0⟩ | ⟨e, heK, -, -, h1⟩
  · rw [h0]
    exact ⟨le_rfl, sum_nonneg hnn⟩
  · have hj : n - 1 - e < n := by omega
    have hs : share n w v h e g =
        w (n - 1 - e) * ‖ip n (fun i => v i (n - 1 - e)) (h.getD g 0)‖ ^ 2 := by
      unfold share
      rw [← ip_conj, RCLike.norm_conj, mul_comm]
      rfl
    rw [h1, hs]
    exact ⟨hnn _ (mem_range.2 hj), single_le_sum hnn (mem_range.2 hj)⟩

/-- The largest eigenvalue of the matrix of one source is the one of the source. -/
theorem eigh_source (n : ℕ) (hn : 0 < n) (P : ℝ) (hP : 0 < P) (a : ℕ → ℂ) (ha : 0 < sq n a)
    (w : ℕ → ℝ) (v : ℕ → ℕ → ℂ) (h : IsEigh n (oneSource P a) w v) (x : ℕ → ℂ) :
    ‖ip n x (fun i => v i (n - 1))‖ ^ 2 * w (n - 1) = P * ‖ip n x a‖ ^ 2 := by
  have hev : ∀ j < n, ∀ r < n, P * ip n a (fun i => v i j) * a r = w j * v r j := by
    intro j hj r hr
    rw [← oneSource_app, ← h.eq r hr j hj]
    rfl
  -- some eigenvalue is positive
  have hpos : 0 < w (n - 1) := by
    by_contra hneg
    have h1 : ∀ j < n, w j = 0 := by
      intro j hj
      have h2 := eigh_nonneg n _ w v h (oneSource_psd n P hP.le a) j hj
      have h3 := h.ascending j (n - 1) (by omega) (by omega)
      linarith [not_lt.1 hneg]
    have h2 := eigh_form n _ w v h a
    have h3 : form n a (oneSource P a) = P * ‖ip n a a‖ ^ 2 := form_oneSource n P a a
    rw [h3, ip_self, sum_eq_zero fun j hj => by rw [h1 j (mem_range.1 hj), zero_mul]] at h2
    have : 0 < ‖((sq n a : ℝ) : ℂ)‖ := by
      rw [norm_real, Real.norm_eq_abs]
      exact abs_pos.2 ha.ne'
    have : 0 < P * ‖((sq n a : ℝ) : ℂ)‖ ^ 2 := by positivity
    linarith
  have hlast := hev (n - 1) (by omega)
  set c := ip n a (fun i => v i (n - 1)) with hc
  -- the eigenvector is a multiple of the field
  have hw : (w (n - 1) : ℂ) ≠ 0 := by exact_mod_cast hpos.ne'
  have hv : ∀ r < n, v r (n - 1) = P * c / w (n - 1) * a r := by
    intro r hr
    rw [div_mul_eq_mul_div, hlast r hr, mul_div_assoc, mul_div_cancel₀ _ hw]
  have hip : ∀ y : ℕ → ℂ, ip n y (fun i => v i (n - 1)) = P * c / w (n - 1) * ip n y a := by
    intro y
    rw [← ip_smul_right]
    exact ip_congr_right n y hv
  have hca : c = P * c / w (n - 1) * sq n a := by
    conv_lhs => rw [hc, hip a, ip_self]
  have hnorm : (1 : ℂ) = P * c / w (n - 1) * (starRingEnd ℂ) c := by
    have h1 := hip fun i => v i (n - 1)
    rw [ip_self, eigh_norm n _ w v h (n - 1) (by omega), ← ip_conj n a] at h1
    simpa using h1
  have hc0 : c ≠ 0 := by
    intro h0
    rw [h0] at hnorm
    simp at hnorm
  have hw2 : (w (n - 1) : ℝ) = P * ‖c‖ ^ 2 := by
    have : (w (n - 1) : ℂ) = ((P * ‖c‖ ^ 2 : ℝ) : ℂ) := by
      rw [ofReal_mul, ← normSq_eq_norm_sq, ← mul_conj]
      have := congrArg (fun z => z * (w (n - 1) : ℂ)) hnorm
      simp only [one_mul] at this
      rw [this]
      field_simp
    exact_mod_cast this
  rw [hip x, norm_mul, mul_pow, norm_div, norm_mul, norm_real, norm_real, Real.norm_eq_abs,
    Real.norm_eq_abs, abs_of_pos hP, abs_of_pos hpos, div_pow, mul_pow]
  have : (0 : ℝ) < ‖c‖ := norm_pos_iff.2 hc0
  rw [hw2]
  field_simp

/-- One source and one eigenvalue: the map is zero except for the first maximum of the delay-and-sum
map, where both agree. -/
theorem C76_orthogonal_source (n : ℕ) (hn : 0 < n) (P : ℝ) (hP : 0 < P) (a : ℕ → ℂ)
    (ha : ∃ i < n, a i ≠ 0) (w : ℕ → ℝ) (v : ℕ → ℕ → ℂ) (he : IsEigh n (oneSource P a) w v)
    (h : List (ℕ → ℂ)) (hh : h ≠ []) :
    ∃ map, orthogonal n 1 w v h = .ok map ∧ map.length = h.length ∧ ∃ g < h.length,
      (∀ j < h.length, das n false (oneSource P a) (h.getD j 0) ≤
        das n false (oneSource P a) (h.getD g 0)) ∧
      (∀ j < g, das n false (oneSource P a) (h.getD j 0) <
        das n false (oneSource P a) (h.getD g 0)) ∧
      ∀ j < h.length, map.getD j 0 =
        if j = g then das n false (oneSource P a) (h.getD g 0) else 0 := by
  have hsa : 0 < sq n a := by
    refine lt_of_le_of_ne (sq_nonneg' n a) fun h0 => ?_
    obtain ⟨i, hi, hne⟩ := ha
    exact hne (sq_eq_zero n a h0.symm i hi)
  obtain ⟨map, hmap, hlen, hval⟩ := C76_orthogonal_map n 1 w v h hh
  obtain ⟨g, -, hpk⟩ := peak_exists n v h hh 0
  have hdas : ∀ j, das n false (oneSource P a) (h.getD j 0) =
      ‖∑ i ∈ range n, (starRingEnd ℂ) (h.getD j 0 i) * v i (n - 1 - 0)‖ ^ 2 * w (n - 1 - 0) := by
    intro j
    have := eigh_source n hn P hP a hsa w v he (h.getD j 0)
    unfold das
    simp only [Bool.false_eq_true, if_false]
    rw [form_oneSource]
    exact this.symm
  have hw : 0 ≤ w (n - 1 - 0) :=
    eigh_nonneg n _ w v he (oneSource_psd n P hP.le a) _ (by omega)
  have hw' : 0 < w (n - 1 - 0) := by
    refine lt_of_le_of_ne hw fun h0 => ?_
    have := eigh_source n hn P hP a hsa w v he a
    rw [show n - 1 - 0 = n - 1 from rfl] at h0
    rw [← h0, mul_zero, ip_self, norm_real, Real.norm_eq_abs, sq_abs] at this
    have h2 : 0 < P * sq n a ^ 2 := by positivity
    linarith
  have huniq : ∀ g', Peak n v h 0 g' → g' = g := by
    intro g' hg
    rcases lt_trichotomy g' g with h1 | h1 | h1
    · have := hpk.2.2 g' h1
      have := hg.2.1 g hpk.1
      linarith
    · exact h1
    · have := hg.2.2 g h1
      have := hpk.2.1 g' hg.1
      linarith
  refine ⟨map, hmap, hlen, g, hpk.1, fun j hj => ?_, fun j hj => ?_, fun j hj => ?_⟩
  · rw [hdas, hdas]
    exact mul_le_mul_of_nonneg_right (pow_le_pow_left₀ (norm_nonneg _) (hpk.2.1 j hj) 2) hw
  · rw [hdas, hdas]
    exact mul_lt_mul_of_pos_right (pow_lt_pow_left₀ (hpk.2.2 j hj) (norm_nonneg _) two_ne_zero) hw'
  · rcases hval j hj with ⟨h1, h2⟩ | ⟨e, he0, h1, -, h3⟩
    · rw [if_neg, h2]
      rintro rfl
      exact h1 0 one_pos hpk
    · have : e = 0 := by omega
      subst this
      have hjg := huniq j h1
      subst hjg
      rw [if_pos rfl, h3, hdas]
      rfl

/-- Two microphones with uncorrelated signals of the powers 4 and 1. -/
def twoPowers (r c : ℕ) : ℂ := if r = c then (if r = 0 then 4 else 1) else 0

/-- Its eigenvectors. -/
def twoVectors (r j : ℕ) : ℂ := if r + j = 1 then 1 else 0

theorem twoPowers_eigh : IsEigh 2 twoPowers (fun j => if j = 0 then 1 else 4) twoVectors := by
  refine ⟨?_, ?_, ?_, ?_⟩
  · intro r hr j hj
    interval_cases r <;> interval_cases j <;> simp [twoPowers, twoVectors]
  · intro i j hij hj
    interval_cases j
    · have : i = 0 := by omega
      subst this
      simp
    · interval_cases i <;> norm_num
  · intro i hi j hj
    interval_cases i <;> interval_cases j <;> simp [twoVectors]
  · intro i hi j hj
    interval_cases i <;> interval_cases j <;> simp [twoVectors]

/-- If two eigenvectors have their peak at the same point, the smaller eigenvalue overwrites the
larger one instead of being added: the classic formulation for every grid, with the eigenvalues 4
and 1, shows only the smaller one. -/
theorem C76_orthogonal_overwrites (k : ℝ) (t : Point) (grid : List Point) :
    ∃ map, orthogonal 2 2 (fun j => if j = 0 then 1 else 4) twoVectors
        ((t :: grid).map (steering .classic k pair)) = .ok map ∧
      map.getD 0 0 = 1 / 4 ∧ (∀ g < grid.length + 1, g ≠ 0 → map.getD g 0 = 0) ∧
      Peak 2 twoVectors ((t :: grid).map (steering .classic k pair)) 0 0 ∧
      share 2 (fun j => if j = 0 then 1 else 4) twoVectors
        ((t :: grid).map (steering .classic k pair)) 0 0 = 1 := by
  set h := (t :: grid).map (steering .classic k pair) with hh
  have hlen : h.length = grid.length + 1 := by simp [hh]
  have hsum : ∀ e < 2, ∀ g < h.length,
      ‖∑ i ∈ range 2, (starRingEnd ℂ) (h.getD g 0 i) * twoVectors i (2 - 1 - e)‖ = 1 / 2 := by
    intro e he g hg
    have hg' : h.getD g 0 = steering .classic k pair ((t :: grid).getD g 0) := by
      rw [List.getD_eq_getElem _ _ hg, List.getD_eq_getElem _ _ (by simpa [hh] using hg)]
      simp only [hh, List.getElem_map]
    have hnorm : ∀ i, ‖h.getD g 0 i‖ = 1 / 2 := by
      intro i
      rw [hg']
      unfold steering
      rw [norm_mul, norm_phase, mul_one, norm_real]
      simp [magnitude, pair]
    interval_cases e
    · rw [show ∑ i ∈ range 2, (starRingEnd ℂ) (h.getD g 0 i) * twoVectors i (2 - 1 - 0) =
        (starRingEnd ℂ) (h.getD g 0 0) by simp [twoVectors], RCLike.norm_conj, hnorm]
    · rw [show ∑ i ∈ range 2, (starRingEnd ℂ) (h.getD g 0 i) * twoVectors i (2 - 1 - 1) =
        (starRingEnd ℂ) (h.getD g 0 1) by simp [twoVectors], RCLike.norm_conj, hnorm]
  have hpeak : ∀ e < 2, ∀ g, Peak 2 twoVectors h e g ↔ g = 0 := by
    intro e he g
    constructor
    · intro hp
      by_contra h0
      have := hp.2.2 0 (by omega)
      rw [hsum e he 0 (by omega), hsum e he g hp.1] at this
      exact lt_irrefl _ this
    · rintro rfl
      refine ⟨by omega, fun j hj => ?_, fun j hj => by omega⟩
      rw [hsum e he j hj, hsum e he 0 (by omega)]
  obtain ⟨map, hmap, -, hval⟩ := C76_orthogonal_map 2 2 (fun j => if j = 0 then 1 else 4) twoVectors h
    (by simp [hh])
  refine ⟨map, hmap, ?_, fun g hg h0 => ?_, (hpeak 0 (by norm_num) 0).2 rfl, ?_⟩
  · rcases hval 0 (by omega) with ⟨h1, -⟩ | ⟨e, he, h1, h2, h3⟩
    · exact absurd ((hpeak 0 (by norm_num) 0).2 rfl) (h1 0 (by norm_num))
    · have : e = 1 := by
        by_contra hne
        exact h2 1 (by norm_num) (by omega) ((hpeak 1 (by norm_num) 0).2 rfl)
      subst this
      rw [h3]
      unfold share
      rw [hsum 1 (by norm_num) 0 (by omega)]
      norm_num
  · rcases hval g (by omega) with ⟨-, h2⟩ | ⟨e, he, h1, -, -⟩
    · exact h2
    · exact absurd ((hpeak e he g).1 h1) h0
  · unfold share
    rw [hsum 0 (by norm_num) 0 (by omega)]
    norm_num

/-! ### CLEAN-SC -/

/-- The matrix of one source, optionally without the diagonal. -/
noncomputable def sourceMatrix (remove : Bool) (P : ℝ) (a : ℕ → ℂ) (r c : ℕ) : ℂ :=
  if remove = true ∧ r = c then 0 else oneSource P a r c

/-- The part of the power that remains without the diagonal. -/
noncomputable def remaining (remove : Bool) (n : ℕ) : ℝ := if remove then 1 - 1 / n else 1

/-- The squares of the factors of the vector `h_` over its iterations. -/
noncomputable def cleanSquare (n : ℕ) : ℕ → ℝ
  | 0 => (1 / n) ^ 2
  | m + 1 => 1 + cleanSquare n m / n

theorem cleanSquare_nonneg (n m : ℕ) : 0 ≤ cleanSquare n m := by
  induction m with
  | zero =>
    unfold cleanSquare
    positivity
  | succ m ih =>
    unfold cleanSquare
    positivity

theorem cleanSquare_lower (n m : ℕ) : 1 + 1 / (n : ℝ) ≤ cleanSquare n (m + 2) := by
  have h1 : 1 ≤ cleanSquare n (m + 1) := by
    unfold cleanSquare
    have := cleanSquare_nonneg n m
    have : 0 ≤ cleanSquare n m / n := by positivity
    linarith
  rw [cleanSquare]
  have : 1 / (n : ℝ) ≤ cleanSquare n (m + 1) / n :=
    div_le_div_of_nonneg_right h1 (Nat.cast_nonneg n)
  linarith

theorem cleanSquare_upper (n : ℕ) (hn : 2 ≤ n) (m : ℕ) : cleanSquare n m < n / (n - 1) := by
  have hN : (2 : ℝ) ≤ n := by exact_mod_cast hn
  have h1 : (0 : ℝ) < n - 1 := by linarith
  induction m with
  | zero =>
    unfold cleanSquare
    have h2 : (1 / (n : ℝ)) ^ 2 ≤ 1 := by
      rw [sq_le_one_iff₀ (by positivity), div_le_one (by linarith)]
      linarith
    have : (1 : ℝ) < n / (n - 1) := by
      rw [lt_div_iff₀ h1]
      linarith
    linarith
  | succ m ih =>
    unfold cleanSquare
    have h3 : cleanSquare n m / n < (n / (n - 1)) / n := div_lt_div_of_pos_right ih (by linarith)
    have : (1 : ℝ) + n / (n - 1) / n = n / (n - 1) := by
      have : (n : ℝ) ≠ 0 := by linarith
      field_simp
      ring
    linarith

theorem clean_iterate (n : ℕ) (hn : 0 < n) (a d w : ℕ → ℂ) (ha : ∀ i < n, ‖a i‖ = 1)
    (hd : ∀ i < n, d i = a i) (hw : ∀ i < n, w i = ((1 / n : ℝ) : ℂ) * a i) (m : ℕ) :
    ∀ i < n, (cleanVector n d w)^[m] w i = ((√(cleanSquare n m) : ℝ) : ℂ) * a i := by
  have hN : (0 : ℝ) < n := by exact_mod_cast hn
  induction m with
  | zero =>
    intro i hi
    rw [Function.iterate_zero, id, hw i hi]
    unfold cleanSquare
    rw [Real.sqrt_sq (by positivity)]
  | succ m ih =>
    intro i hi
    rw [Function.iterate_succ', Function.comp_apply]
    set y := (cleanVector n d w)^[m] w with hy
    have hB := cleanSquare_nonneg n m
    unfold cleanVector
    have h1 : ∑ j ∈ range n, ‖y j‖ ^ 2 * ‖w j‖ ^ 2 = cleanSquare n m / n := by
      have : ∀ j ∈ range n, ‖y j‖ ^ 2 * ‖w j‖ ^ 2 = cleanSquare n m / n / n := by
        intro j hj
        have hj' := mem_range.1 hj
        rw [ih j hj', hw j hj', norm_mul, norm_mul, ha j hj', norm_real, norm_real, Real.norm_eq_abs,
          Real.norm_eq_abs, mul_one, mul_one, sq_abs, sq_abs, Real.sq_sqrt hB]
        field_simp
      rw [sum_congr rfl this, sum_const, card_range, nsmul_eq_mul]
      field_simp
    rw [h1]
    have h2 : d i + (starRingEnd ℂ) (y i) * y i * w i =
        ((1 + cleanSquare n m / n : ℝ) : ℂ) * a i := by
      rw [hd i hi, ih i hi, hw i hi, map_mul, conj_ofReal]
      have e1 : (starRingEnd ℂ) (a i) * a i = 1 := by
        rw [mul_comm, mul_conj, normSq_eq_norm_sq, ha i hi]
        norm_num
      have e2 : ((√(cleanSquare n m) : ℝ) : ℂ) * ((√(cleanSquare n m) : ℝ) : ℂ) =
          ((cleanSquare n m : ℝ) : ℂ) := by
        rw [← ofReal_mul, Real.mul_self_sqrt hB]
      calc a i + ((√(cleanSquare n m) : ℝ) : ℂ) * (starRingEnd ℂ) (a i) *
            (((√(cleanSquare n m) : ℝ) : ℂ) * a i) * (((1 / n : ℝ) : ℂ) * a i)
          = a i + (((√(cleanSquare n m) : ℝ) : ℂ) * ((√(cleanSquare n m) : ℝ) : ℂ)) *
            ((starRingEnd ℂ) (a i) * a i) * (((1 / n : ℝ) : ℂ) * a i) := by ring
        _ = _ := by
          rw [e1, e2]
          push_cast
          ring
    rw [h2, cleanSquare]
    set X := 1 + cleanSquare n m / n with hX
    have hX0 : 0 < X := by
      have : 0 ≤ cleanSquare n m / n := by positivity
      rw [hX]
      linarith
    have hs : ((√X : ℝ) : ℂ) ≠ 0 := by exact_mod_cast (Real.sqrt_pos.2 hX0).ne'
    rw [div_eq_iff hs]
    have : (X : ℂ) = ((√X : ℝ) : ℂ) * ((√X : ℝ) : ℂ) := by
      rw [← ofReal_mul, Real.mul_self_sqrt hX0.le]
    rw [this]
    ring

theorem remaining_pos (remove : Bool) (n : ℕ) (hn : 2 ≤ n) :
    0 < remaining remove n ∧ remaining remove n ≤ 1 := by
  have hN : (2 : ℝ) ≤ n := by exact_mod_cast hn
  unfold remaining
  have h1 : (1 : ℝ) / n ≤ 1 / 2 := one_div_le_one_div_of_le (by norm_num) hN
  have h2 : (0 : ℝ) ≤ 1 / n := by positivity
  split_ifs
  · constructor <;> linarith
  · norm_num

/-- The subtracted matrix for one source: it is the part of `cleanSquare n 20` of the whole. -/
theorem clean_G (n : ℕ) (hn : 2 ≤ n) (remove : Bool) (P Q : ℝ) (hP : 0 < P) (hQ : 0 < Q)
    (a w : ℕ → ℂ) (D : ℕ → ℕ → ℂ) (ha : ∀ i < n, ‖a i‖ = 1)
    (hw : ∀ i < n, w i = ((1 / n : ℝ) : ℂ) * a i)
    (hD : ∀ r < n, ∀ c < n, D r c = Q * sourceMatrix remove P a r c) (r c : ℕ) (hr : r < n)
    (hc : c < n) :
    cleanG n remove D w (Q * (remaining remove n * P)) r c =
      ((Q * (remaining remove n * cleanSquare n 20) : ℝ) : ℂ) * sourceMatrix remove P a r c := by
  have hN : (2 : ℝ) ≤ n := by exact_mod_cast hn
  have hN0 : (n : ℝ) ≠ 0 := by linarith
  obtain ⟨hk, -⟩ := remaining_pos remove n hn
  have hk' : ((Q * (remaining remove n * P) : ℝ) : ℂ) ≠ 0 := by
    have : 0 < Q * (remaining remove n * P) := by positivity
    exact_mod_cast this.ne'
  have hone : ∀ j < n, (starRingEnd ℂ) (a j) * a j = 1 := by
    intro j hj
    rw [mul_comm, mul_conj, normSq_eq_norm_sq, ha j hj]
    norm_num
  have hd : ∀ i < n, (∑ j ∈ range n, D i j * w j) / ((Q * (remaining remove n * P) : ℝ) : ℂ) =
      a i := by
    intro i hi
    rw [div_eq_iff hk']
    have h1 : ∀ j ∈ range n, D i j * w j = (Q * P / n : ℝ) * a i -
        if i = j then (if remove = true then ((Q * P / n : ℝ) : ℂ) * a i else 0) else 0 := by
      intro j hj
      have hj' := mem_range.1 hj
      rw [hD i hi j hj', hw j hj']
      unfold sourceMatrix oneSource
      have e : (Q : ℂ) * (P * (a i * (starRingEnd ℂ) (a j))) * (((1 / n : ℝ) : ℂ) * a j) =
          ((Q * P / n : ℝ) : ℂ) * a i * ((starRingEnd ℂ) (a j) * a j) := by
        push_cast
        ring
      by_cases hij : i = j
      · subst hij
        by_cases hrem : remove = true
        · rw [if_pos ⟨hrem, rfl⟩, if_pos rfl, if_pos hrem]
          ring
        · rw [if_neg (fun h => hrem h.1), if_pos rfl, if_neg hrem, e, hone i hi]
          ring
      · rw [if_neg (fun h => hij h.2), if_neg hij, e, hone j hj']
        ring
    rw [sum_congr rfl h1, sum_sub_distrib, sum_const, card_range, sum_ite_eq,
      if_pos (mem_range.2 hi), nsmul_eq_mul]
    have hNc : (n : ℂ) ≠ 0 := by exact_mod_cast (by omega : n ≠ 0)
    unfold remaining
    cases remove with
    | true =>
      simp only [if_true]
      push_cast
      field_simp
    | false =>
      simp only [Bool.false_eq_true, if_false]
      push_cast
      field_simp
      ring
  have hit := clean_iterate n (by omega) a
    (fun i => (∑ j ∈ range n, D i j * w j) / ((Q * (remaining remove n * P) : ℝ) : ℂ)) w ha hd hw 20
  unfold cleanG
  dsimp only
  rw [hit r hr, hit c hc]
  unfold sourceMatrix
  split_ifs
  · ring
  · have hB := cleanSquare_nonneg n 20
    unfold oneSource
    rw [map_mul, conj_ofReal]
    have e2 : ((√(cleanSquare n 20) : ℝ) : ℂ) * ((√(cleanSquare n 20) : ℝ) : ℂ) =
        ((cleanSquare n 20 : ℝ) : ℂ) := by
      rw [← ofReal_mul, Real.mul_self_sqrt hB]
    push_cast
    rw [← e2]
    ring

theorem norm1_scale (n : ℕ) (D E : ℕ → ℕ → ℂ) (Q : ℝ) (hQ : 0 ≤ Q)
    (h : ∀ r < n, ∀ c < n, D r c = Q * E r c) : norm1 n D = Q * norm1 n E := by
  unfold norm1
  have key : ∀ l : List ℕ, (∀ c ∈ l, c < n) →
      (l.map fun c => ∑ r ∈ range n, ‖D r c‖).foldr max 0 =
        Q * (l.map fun c => ∑ r ∈ range n, ‖E r c‖).foldr max 0 := by
    intro l
    induction l with
    | nil => intro _; simp
    | cons c l ih =>
      intro hl
      simp only [List.map_cons, List.foldr_cons]
      rw [ih fun c hc => hl c (List.mem_cons_of_mem _ hc), mul_max_of_nonneg _ _ hQ, mul_sum]
      congr 1
      refine sum_congr rfl fun r hr => ?_
      rw [h r (mem_range.1 hr) c (hl c (List.mem_cons_self ..)), norm_mul, norm_real,
        Real.norm_eq_abs, abs_of_nonneg hQ]
  exact key _ fun c hc => List.mem_range.1 hc

theorem norm1_pos (n : ℕ) (D : ℕ → ℕ → ℂ) (r c : ℕ) (hr : r < n) (hc : c < n) (h : D r c ≠ 0) :
    0 < norm1 n D := by
  unfold norm1
  have key : ∀ l : List ℕ, c ∈ l →
      ∑ r ∈ range n, ‖D r c‖ ≤ (l.map fun c => ∑ r ∈ range n, ‖D r c‖).foldr max 0 := by
    intro l
    induction l with
    | nil => intro h; simp at h
    | cons x l ih =>
      intro hl
      simp only [List.map_cons, List.foldr_cons]
      rcases List.mem_cons.1 hl with rfl | hl
      · exact le_max_left _ _
      · exact (ih hl).trans (le_max_right _ _)
  refine lt_of_lt_of_le ?_ (key _ (List.mem_range.2 hc))
  exact sum_pos' (fun _ _ => norm_nonneg _) ⟨r, mem_range.2 hr, norm_pos_iff.2 h⟩

theorem form_scale (n : ℕ) (v : ℕ → ℂ) (D E : ℕ → ℕ → ℂ) (Q : ℝ)
    (h : ∀ r < n, ∀ c < n, D r c = Q * E r c) : form n v D = Q * form n v E := by
  unfold form
  rw [← re_ofReal_mul, mul_sum]
  congr 1
  refine sum_congr rfl fun r hr => ?_
  rw [mul_sum]
  refine sum_congr rfl fun c hc => ?_
  rw [h r (mem_range.1 hr) c (mem_range.1 hc)]
  ring

/-- The first maximum of a list stays where it is if the list is scaled. -/
theorem argmax_unique (l : List ℝ) (g : ℕ) (hg : g < l.length)
    (h1 : ∀ j < l.length, l.getD j 0 ≤ l.getD g 0) (h2 : ∀ j < g, l.getD j 0 < l.getD g 0) :
    argmax l = .ok g := by
  obtain ⟨g', hg', h3, h4, h5⟩ := argmax_spec l (by rintro rfl; simp at hg)
  rw [hg']
  congr 1
  rcases lt_trichotomy g' g with h | h | h
  · have := h2 g' h
    have := h4 g hg
    linarith
  · exact h
  · have := h5 g h
    have := h1 g' h3
    linarith

theorem clean_loop (n : ℕ) (hn : 2 ≤ n) (remove : Bool) (P safety : ℝ) (hP : 0 < P)
    (hs : 0 < safety) (hs' : safety ≤ 1 / 2) (a : ℕ → ℂ) (ha : ∀ i < n, ‖a i‖ = 1)
    (h : List (ℕ → ℂ)) (g : ℕ) (hg : g < h.length)
    (hw : ∀ i < n, h.getD g 0 i = ((1 / n : ℝ) : ℂ) * a i)
    (h1 : ∀ j < h.length, form n (h.getD j 0) (sourceMatrix remove P a) ≤
      form n (h.getD g 0) (sourceMatrix remove P a))
    (h2 : ∀ j < g, form n (h.getD j 0) (sourceMatrix remove P a) <
      form n (h.getD g 0) (sourceMatrix remove P a))
    (hlevel : form n (h.getD g 0) (sourceMatrix remove P a) = remaining remove n * P)
    (q : ℝ) (hq : q = 1 - safety * (remaining remove n * cleanSquare n 20)) (K : ℕ) :
    ∀ (Q : ℝ), 0 < Q → ∀ st : CleanState,
      (st.map = h.map fun v => Q * form n v (sourceMatrix remove P a)) →
      (∀ r < n, ∀ c < n, st.D r c = Q * sourceMatrix remove P a r c) →
      norm1 n st.D < norm1 n st.last → st.second.length = h.length →
      cleanLoop n remove safety h K st = .ok (st.second.set g (st.second.getD g 0 +
        Q * (remaining remove n * P) * safety * ∑ m ∈ range K, q ^ m)) := by
  obtain ⟨hk, hk1⟩ := remaining_pos remove n hn
  have hN : (2 : ℝ) ≤ n := by exact_mod_cast hn
  have hB := cleanSquare_upper n hn 20
  have hB1 := cleanSquare_lower n 18
  have hB2 : (n : ℝ) / (n - 1) ≤ 2 := by
    rw [div_le_iff₀ (by linarith)]
    linarith
  have hB0 : 0 < cleanSquare n 20 := by
    have : 0 ≤ 1 / (n : ℝ) := by positivity
    have : (1 : ℝ) + 1 / n ≤ cleanSquare n 20 := hB1
    linarith
  have hq0 : 0 < q := by
    rw [hq]
    have e1 : remaining remove n * cleanSquare n 20 < 2 := by nlinarith
    have e0 : 0 < remaining remove n * cleanSquare n 20 := by positivity
    nlinarith
  have hq1 : q < 1 := by
    rw [hq]
    have : 0 < safety * (remaining remove n * cleanSquare n 20) := by positivity
    linarith
  have hmapget : ∀ Q : ℝ, ∀ j < h.length,
      (h.map fun v => Q * form n v (sourceMatrix remove P a)).getD j 0 =
        Q * form n (h.getD j 0) (sourceMatrix remove P a) := by
    intro Q j hj
    rw [List.getD_eq_getElem _ _ (by simpa using hj), List.getElem_map, List.getD_eq_getElem _ _ hj]
  have hnorm : 0 < norm1 n (sourceMatrix remove P a) := by
    refine norm1_pos n _ 0 1 (by omega) (by omega) ?_
    unfold sourceMatrix oneSource
    rw [if_neg (by simp)]
    have e0 : a 0 ≠ 0 := by
      rw [← norm_ne_zero_iff, ha 0 (by omega)]
      norm_num
    have e1 : a 1 ≠ 0 := by
      rw [← norm_ne_zero_iff, ha 1 (by omega)]
      norm_num
    refine mul_ne_zero (by exact_mod_cast hP.ne') (mul_ne_zero e0 ?_)
    rwa [Ne, map_eq_zero]
  induction K with
  | zero =>
    intro Q _ st _ _ _ hl
    unfold cleanLoop
    rw [sum_range_zero, mul_zero, add_zero]
    congr 1
    rw [List.getD_eq_getElem _ _ (by omega), List.set_getElem_self]
  | succ K ih =>
    intro Q hQ st hmap hD hlast hl
    have hmax : argmax st.map = .ok g := by
      rw [hmap]
      refine argmax_unique _ g (by simpa using hg) (fun j hj => ?_) (fun j hj => ?_)
      · rw [List.length_map] at hj
        rw [hmapget Q j hj, hmapget Q g hg]
        exact mul_le_mul_of_nonneg_left (h1 j hj) hQ.le
      · rw [hmapget Q j (by omega), hmapget Q g hg]
        exact mul_lt_mul_of_pos_left (h2 j hj) hQ
    have hval : st.map.getD g 0 = Q * (remaining remove n * P) := by
      rw [hmap, hmapget Q g hg, hlevel]
    have hG := clean_G n hn remove P Q hP hQ a (h.getD g 0) st.D ha hw hD
    unfold cleanLoop
    rw [hmax]
    dsimp only
    rw [hval, if_neg (not_le.2 hlast)]
    have hD' : ∀ r < n, ∀ c < n, st.D r c - safety * cleanG n remove st.D (h.getD g 0)
        (Q * (remaining remove n * P)) r c = ((Q * q : ℝ) : ℂ) * sourceMatrix remove P a r c := by
      intro r hr c hc
      rw [hG r c hr hc, hD r hr c hc, hq]
      push_cast
      ring
    rw [ih (Q * q) (by positivity)]
    · congr 1
      dsimp only
      have : (st.second.set g (st.second.getD g 0 + Q * (remaining remove n * P) * safety)).getD g 0 =
          st.second.getD g 0 + Q * (remaining remove n * P) * safety := by
        rw [List.getD_eq_getElem _ _ (by simpa [hl] using hg), List.getElem_set_self]
      rw [this, List.set_set, sum_range_succ', pow_zero]
      congr 1
      have e : ∑ k ∈ range K, q ^ (k + 1) = q * ∑ k ∈ range K, q ^ k := by
        rw [mul_sum]
        exact sum_congr rfl fun k _ => by ring
      rw [e]
      ring
    · dsimp only
      rw [hmap, List.zipWith_map_left, List.zipWith_self]
      refine List.map_congr_left fun v _ => ?_
      rw [form_scale n v _ (sourceMatrix remove P a)
        (Q * (remaining remove n * cleanSquare n 20)) (fun r hr c hc => hG r c hr hc), hq]
      ring
    · exact hD'
    · dsimp only
      rw [norm1_scale n _ _ (Q * q) (by positivity) hD', norm1_scale n st.D _ Q hQ.le hD]
      have := mul_pos hQ hnorm
      nlinarith
    · rw [List.length_set, hl]

/-- The level of the source in the initial map. -/
theorem clean_level (n : ℕ) (hn : 2 ≤ n) (remove : Bool) (P : ℝ) (a w : ℕ → ℂ)
    (ha : ∀ i < n, ‖a i‖ = 1) (hw : ∀ i < n, w i = ((1 / n : ℝ) : ℂ) * a i) :
    form n w (sourceMatrix remove P a) = remaining remove n * P := by
  have hN : (2 : ℝ) ≤ n := by exact_mod_cast hn
  have hNc : (n : ℂ) ≠ 0 := by exact_mod_cast (by omega : n ≠ 0)
  have hone : ∀ j < n, (starRingEnd ℂ) (a j) * a j = 1 := by
    intro j hj
    rw [mul_comm, mul_conj, normSq_eq_norm_sq, ha j hj]
    norm_num
  unfold form
  have h1 : ∀ r ∈ range n, ∑ c ∈ range n, (starRingEnd ℂ) (w r) * sourceMatrix remove P a r c * w c =
      (P * remaining remove n / n : ℝ) := by
    intro r hr
    have hr' := mem_range.1 hr
    have h2 : ∀ c ∈ range n, (starRingEnd ℂ) (w r) * sourceMatrix remove P a r c * w c =
        (P / n / n : ℝ) - if r = c then (if remove = true then ((P / n / n : ℝ) : ℂ) else 0) else 0 := by
      intro c hc
      have hc' := mem_range.1 hc
      have e : (starRingEnd ℂ) (((1 / n : ℝ) : ℂ) * a r) * (P * (a r * (starRingEnd ℂ) (a c))) *
          (((1 / n : ℝ) : ℂ) * a c) = ((P / n / n : ℝ) : ℂ) * ((starRingEnd ℂ) (a r) * a r) *
            ((starRingEnd ℂ) (a c) * a c) := by
        rw [map_mul, conj_ofReal]
        push_cast
        ring
      rw [hw r hr', hw c hc']
      unfold sourceMatrix oneSource
      by_cases hrc : r = c
      · subst hrc
        by_cases hrem : remove = true
        · rw [if_pos ⟨hrem, rfl⟩, if_pos rfl, if_pos hrem]
          ring
        · rw [if_neg (fun h => hrem h.1), if_pos rfl, if_neg hrem, e, hone r hr']
          ring
      · rw [if_neg (fun h => hrc h.2), if_neg hrc, e, hone r hr', hone c hc']
        ring
    rw [sum_congr rfl h2, sum_sub_distrib, sum_const, card_range, sum_ite_eq, if_pos hr, nsmul_eq_mul]
    unfold remaining
    cases remove with
    | true =>
      simp only [if_true]
      push_cast
      field_simp
    | false =>
      simp only [Bool.false_eq_true, if_false]
      push_cast
      field_simp
      ring
  rw [sum_congr rfl h1, sum_const, card_range, nsmul_eq_mul, ← ofReal_natCast, ← ofReal_mul, ofReal_re]
  have : (n : ℝ) ≠ 0 := by linarith
  field_simp

/-- All formulations agree if the microphones have the same distance from the source. -/
theorem steering_equidistant (f : Formulation) (k : ℝ) (mics : List Point) (hm : mics ≠ [])
    (s : Point) (h : Apart mics s)
    (he : ∀ i < mics.length, distance s (mics.getD i 0) = distance s (center mics)) (i : ℕ)
    (hi : i < mics.length) :
    ‖field k mics s i‖ = 1 ∧
      steering f k mics s i = ((1 / mics.length : ℝ) : ℂ) * field k mics s i := by
  have h0 := h.1
  have hN : (0 : ℝ) < mics.length := by exact_mod_cast List.length_pos_of_ne_nil hm
  have hf : field k mics s i = phase k mics s i := by
    rw [field_eq, he i hi, div_self h0.ne', ofReal_one, one_mul]
  refine ⟨by rw [hf, norm_phase], ?_⟩
  have hS : inverseSquares mics s = mics.length / distance s (center mics) ^ 2 := by
    rw [inverseSquares_eq, sum_congr rfl fun i hi => by rw [he i (mem_range.1 hi)], sum_const,
      card_range, nsmul_eq_mul, mul_one_div]
  rw [hf]
  unfold steering
  congr 2
  unfold magnitude
  cases f with
  | classic => rfl
  | inverse =>
    dsimp only
    rw [he i hi]
    field_simp
  | truePower =>
    dsimp only
    rw [he i hi, hS]
    field_simp
  | trueLocation =>
    dsimp only
    rw [he i hi, hS, mul_div_assoc', ← pow_two, ← div_pow, Real.sqrt_sq (by positivity)]
    field_simp

/-- One source with the same distance to all microphones whose position is the first maximum of the
initial map: with a loop gain up to 1/2, CLEAN-SC collects power at this point only, namely
`P / B * (1 - (1 - gain * B * κ) ^ K)` in `K` iterations, where the factor `B` is between `1 + 1 / n`
and `n / (n - 1)` for `n` microphones. -/
theorem C76_clean_source (f : Formulation) (k : ℝ) (mics : List Point) (hn : 2 ≤ mics.length)
    (s : Point) (h : Apart mics s)
    (he : ∀ i < mics.length, distance s (mics.getD i 0) = distance s (center mics))
    (P : ℝ) (hP : 0 < P) (remove : Bool) (safety : ℝ) (hs : 0 < safety) (hs' : safety ≤ 1 / 2)
    (iterations : Option ℕ) (hit : iterations ≠ some 0) (grid : List Point) (g : ℕ)
    (hg : g < grid.length) (hgs : grid.getD g 0 = s)
    (h1 : ∀ j < grid.length, form mics.length (steering f k mics (grid.getD j 0))
        (sourceMatrix remove P (field k mics s)) ≤
      form mics.length (steering f k mics s) (sourceMatrix remove P (field k mics s)))
    (h2 : ∀ j < g, form mics.length (steering f k mics (grid.getD j 0))
        (sourceMatrix remove P (field k mics s)) <
      form mics.length (steering f k mics s) (sourceMatrix remove P (field k mics s))) :
    ∃ B : ℝ, 1 + 1 / (mics.length : ℝ) ≤ B ∧ B < mics.length / (mics.length - 1) ∧
      cleanSC mics.length remove safety iterations (oneSource P (field k mics s))
          (grid.map (steering f k mics)) =
        .ok ((List.replicate grid.length 0).set g
          (P / B * (1 - (1 - safety * (remaining remove mics.length * B)) ^
            iterations.getD (mics.length * 2)))) := by
  have hne : mics ≠ [] := by
    rintro rfl
    simp at hn
  set n := mics.length with hn'
  obtain ⟨hk, hk1⟩ := remaining_pos remove n hn
  have ha : ∀ i < n, ‖field k mics s i‖ = 1 := fun i hi =>
    (steering_equidistant f k mics hne s h he i hi).1
  have hget : ∀ j < grid.length, (grid.map (steering f k mics)).getD j 0 =
      steering f k mics (grid.getD j 0) := by
    intro j hj
    rw [List.getD_eq_getElem _ _ (by simpa using hj), List.getElem_map, List.getD_eq_getElem _ _ hj]
  have hw : ∀ i < n, (grid.map (steering f k mics)).getD g 0 i =
      ((1 / n : ℝ) : ℂ) * field k mics s i := by
    intro i hi
    rw [hget g hg, hgs]
    exact (steering_equidistant f k mics hne s h he i hi).2
  have hB1 := cleanSquare_lower n 18
  have hB0 : 0 < cleanSquare n 20 := by
    have : 0 ≤ 1 / (n : ℝ) := by positivity
    have : (1 : ℝ) + 1 / n ≤ cleanSquare n 20 := hB1
    linarith
  refine ⟨cleanSquare n 20, hB1, cleanSquare_upper n hn 20, ?_⟩
  have hnorm : 0 < norm1 n (sourceMatrix remove P (field k mics s)) := by
    refine norm1_pos n _ 0 1 (by omega) (by omega) ?_
    unfold sourceMatrix oneSource
    rw [if_neg (by simp)]
    have e0 : field k mics s 0 ≠ 0 := by
      rw [← norm_ne_zero_iff, ha 0 (by omega)]
      norm_num
    have e1 : field k mics s 1 ≠ 0 := by
      rw [← norm_ne_zero_iff, ha 1 (by omega)]
      norm_num
    refine mul_ne_zero (by exact_mod_cast hP.ne') (mul_ne_zero e0 ?_)
    rwa [Ne, map_eq_zero]
  unfold cleanSC
  rw [if_neg hit, if_neg (by push Not; exact ⟨hs, by linarith⟩)]
  dsimp only
  have hloop := clean_loop n hn remove P safety hP hs hs' (field k mics s) ha
    (grid.map (steering f k mics)) g (by simpa using hg) hw
    (fun j hj => by
      rw [List.length_map] at hj
      rw [hget j hj, hget g hg, hgs]
      exact h1 j hj)
    (fun j hj => by
      rw [hget j (by omega), hget g hg, hgs]
      exact h2 j hj)
    (clean_level n hn remove P _ _ ha hw) _ rfl (iterations.getD (n * 2)) 1 one_pos
  rw [hloop]
  · rw [List.length_map]
    congr 2
    have e0 : (List.replicate grid.length (0 : ℝ)).getD g 0 = 0 := by
      rw [List.getD_eq_getElem _ _ (by simpa using hg), List.getElem_replicate]
    rw [e0, zero_add, one_mul]
    set q := 1 - safety * (remaining remove n * cleanSquare n 20) with hq
    have hq1 : q ≠ 1 := by
      have : 0 < safety * (remaining remove n * cleanSquare n 20) := by positivity
      rw [hq]
      intro hc
      linarith
    rw [geom_sum_eq hq1]
    have e1 : q - 1 = -(safety * (remaining remove n * cleanSquare n 20)) := by
      rw [hq]
      ring
    rw [e1]
    field_simp
    ring
  · simp only [one_mul]
    rfl
  · intro r _ c _
    rw [ofReal_one, one_mul]
    rfl
  · have e : norm1 n (fun r c => sourceMatrix remove P (field k mics s) r c * 2) =
        2 * norm1 n (sourceMatrix remove P (field k mics s)) :=
      norm1_scale n _ _ 2 (by norm_num) fun r _ c _ => by
        push_cast
        ring
    show norm1 n (sourceMatrix remove P (field k mics s)) <
      norm1 n (fun r c => sourceMatrix remove P (field k mics s) r c * 2)
    rw [e]
    linarith
  · simp

/-- So it never collects the power: after any number of iterations it is less than the part
`n / (n + 1)`, also with the diagonal. -/
theorem C76_clean_underestimates (f : Formulation) (k : ℝ) (mics : List Point)
    (hn : 2 ≤ mics.length) (s : Point) (h : Apart mics s)
    (he : ∀ i < mics.length, distance s (mics.getD i 0) = distance s (center mics))
    (P : ℝ) (hP : 0 < P) (remove : Bool) (safety : ℝ) (hs : 0 < safety) (hs' : safety ≤ 1 / 2)
    (iterations : Option ℕ) (hit : iterations ≠ some 0) :
    ∃ v, cleanSC mics.length remove safety iterations (oneSource P (field k mics s))
        [steering f k mics s] = .ok [v] ∧ v < P * (mics.length / (mics.length + 1)) := by
  obtain ⟨B, hB1, hB2, hres⟩ := C76_clean_source f k mics hn s h he P hP remove safety hs hs' iterations
    hit [s] 0 (by simp) rfl
    (fun j hj => by
      have : j = 0 := by
        simp at hj
        exact hj
      subst this
      exact le_rfl)
    (fun j hj => by omega)
  refine ⟨_, hres, ?_⟩
  have hN : (2 : ℝ) ≤ mics.length := by exact_mod_cast hn
  obtain ⟨hk, hk1⟩ := remaining_pos remove mics.length hn
  have hB0 : 0 < B := by
    have : 0 ≤ 1 / (mics.length : ℝ) := by positivity
    linarith
  have hB3 : (mics.length : ℝ) / (mics.length - 1) ≤ 2 := by
    rw [div_le_iff₀ (by linarith)]
    linarith
  have hq : 0 < 1 - safety * (remaining remove mics.length * B) := by
    have e1 : remaining remove mics.length * B < 2 := by nlinarith
    have e0 : 0 < remaining remove mics.length * B := by positivity
    nlinarith
  have hpow : 0 < (1 - safety * (remaining remove mics.length * B)) ^
      iterations.getD (mics.length * 2) := pow_pos hq _
  have h3 : P / B ≤ P * (mics.length / (mics.length + 1)) := by
    rw [div_le_iff₀ hB0, mul_assoc]
    refine le_mul_of_one_le_right hP.le ?_
    rw [div_mul_eq_mul_div, le_div_iff₀ (by linarith), one_mul]
    have : (mics.length : ℝ) * (1 + 1 / mics.length) = mics.length + 1 := by
      have : (mics.length : ℝ) ≠ 0 := by linarith
      field_simp
    nlinarith
  have h4 : 0 < P / B := by positivity
  nlinarith

/-! ### The hypotheses can be met -/

/-- A point with the same distance to both microphones. -/
theorem pair_equidistant : ∀ i < 2, distance ![1 / 2, 1, 0] (pair.getD i 0) =
    distance ![1 / 2, 1, 0] (center pair) := by
  intro i hi
  rw [pair_center, (C75_distance _ _).1, (C75_distance _ _).1]
  interval_cases i
  · simp [pair]
  · simp [pair]
    norm_num

theorem pair_apart : Apart pair ![1 / 2, 1, 0] := by
  have h0 : 0 < distance ![1 / 2, 1, 0] (center pair) := by
    rw [pair_center, (C75_distance _ _).1]
    refine Real.sqrt_pos.2 ?_
    simp only [Matrix.cons_val_zero, Matrix.cons_val_one, Matrix.cons_val]
    norm_num
  refine ⟨h0, fun i hi => ?_⟩
  rw [pair_equidistant i hi]
  exact h0

theorem pair_field_equidistant (k : ℝ) (i : ℕ) (hi : i < 2) : field k pair ![1 / 2, 1, 0] i = 1 := by
  rw [field_eq, pair_equidistant i hi, div_self pair_apart.1.ne']
  unfold phase
  rw [pair_equidistant i hi]
  simp

theorem half_add_half : ((√2 : ℝ) : ℂ)⁻¹ * ((√2 : ℝ) : ℂ)⁻¹ = 1 / 2 := by
  rw [← mul_inv, ← ofReal_mul, Real.mul_self_sqrt (by norm_num)]
  norm_num

/-- The eigenvectors for two microphones with the same signal. -/
noncomputable def rotation (r j : ℕ) : ℂ :=
  if r = 1 ∧ j = 0 then -((√2 : ℝ) : ℂ)⁻¹ else ((√2 : ℝ) : ℂ)⁻¹

/-- The singular vectors. -/
noncomputable def reflection (r j : ℕ) : ℂ :=
  if r = 1 ∧ j = 1 then -((√2 : ℝ) : ℂ)⁻¹ else ((√2 : ℝ) : ℂ)⁻¹

theorem rotation_unitary : IsUnitary 2 rotation := by
  constructor <;> intro i hi j hj <;> interval_cases i <;> interval_cases j <;>
    simp only [rotation, sum_range_succ, sum_range_zero] <;> norm_num [conj_ofReal] <;>
    rw [half_add_half] <;> norm_num

theorem reflection_unitary : IsUnitary 2 reflection := by
  constructor <;> intro i hi j hj <;> interval_cases i <;> interval_cases j <;>
    simp only [reflection, sum_range_succ, sum_range_zero] <;> norm_num [conj_ofReal] <;>
    rw [half_add_half] <;> norm_num

theorem pair_source_one (k P : ℝ) (r c : ℕ) (hr : r < 2) (hc : c < 2) :
    oneSource P (field k pair ![1 / 2, 1, 0]) r c = P := by
  unfold oneSource
  rw [pair_field_equidistant k r hr, pair_field_equidistant k c hc]
  simp

theorem pair_svd (k : ℝ) : IsSVD 2 (oneSource 3 (field k pair ![1 / 2, 1, 0])) reflection
    (fun j => if j = 0 then 6 else 0) reflection := by
  refine ⟨fun r hr c hc => ?_, fun j hj => ?_, reflection_unitary, reflection_unitary⟩
  · rw [pair_source_one k 3 r c hr hc]
    interval_cases r <;> interval_cases c <;>
      simp only [reflection, sum_range_succ, sum_range_zero] <;> norm_num [conj_ofReal] <;>
      rw [mul_comm, ← mul_assoc, half_add_half] <;> norm_num
  · split_ifs <;> norm_num

theorem pair_eigh (k : ℝ) : IsEigh 2 (oneSource 3 (field k pair ![1 / 2, 1, 0]))
    (fun j => if j = 0 then 0 else 6) rotation := by
  refine ⟨fun r hr j hj => ?_, fun i j hij hj => ?_, rotation_unitary⟩
  · rw [sum_range_succ, sum_range_succ, sum_range_zero, pair_source_one k 3 r 0 hr (by norm_num),
      pair_source_one k 3 r 1 hr (by norm_num)]
    interval_cases r <;> interval_cases j <;> simp only [rotation] <;> norm_num <;> ring
  · interval_cases j
    · have : i = 0 := by omega
      subst this
      simp
    · interval_cases i <;> norm_num

theorem pair_inverse (k : ℝ) : IsInverse 2 (noisySource 1 1 (field k pair ![1 / 2, 1, 0]))
    (fun r c => if r = c then 2 / 3 else -1 / 3) := by
  have h : ∀ r < 2, ∀ c < 2, noisySource 1 1 (field k pair ![1 / 2, 1, 0]) r c =
      if r = c then 2 else 1 := by
    intro r hr c hc
    unfold noisySource
    rw [pair_source_one k 1 r c hr hc]
    split_ifs <;> norm_num
  constructor
  · intro r hr c hc
    rw [sum_range_succ, sum_range_succ, sum_range_zero, h r hr 0 (by norm_num), h r hr 1 (by norm_num)]
    interval_cases r <;> interval_cases c <;> norm_num
  · intro r hr c hc
    rw [sum_range_succ, sum_range_succ, sum_range_zero, h 0 (by norm_num) c hc, h 1 (by norm_num) c hc]
    interval_cases r <;> interval_cases c <;> norm_num

example (k : ℝ) : functional 2 7 (functionalMatrix 2 7 reflection (fun j => if j = 0 then 6 else 0)
    reflection) (steering .truePower k pair ![1 / 2, 1, 0]) = 3 :=
  (C76_functional_source .truePower (.inl rfl) k pair (by simp [pair]) _ pair_apart 3 (by norm_num) 7
    (by norm_num) _ _ _ (pair_svd k)).2 rfl

/-- Two microphones, a source of power 1 and noise of power 1: the beamformer shows more than 2. -/
example (k : ℝ) : (1 : ℝ) + 1 < mvdr 2 (fun r c => if r = c then 2 / 3 else -1 / 3)
    (steering .truePower k pair ![1 / 2, 1, 0]) :=
  C76_mvdr_not_distortionless k pair (by simp [pair]) _ pair_apart 1 1 (by norm_num) (by norm_num) _
    (pair_inverse k)

example (k : ℝ) (h : List (ℕ → ℂ)) (hh : h ≠ []) :
    ∃ map, orthogonal 2 1 (fun j => if j = 0 then 0 else 6) rotation h = .ok map ∧
      map.length = h.length := by
  obtain ⟨map, h1, h2, -⟩ := C76_orthogonal_source 2 (by norm_num) 3 (by norm_num) _
    ⟨0, by norm_num, by rw [pair_field_equidistant k 0 (by norm_num)]; exact one_ne_zero⟩ _ _
    (pair_eigh k) h hh
  exact ⟨map, h1, h2⟩

/-- With the default arguments and two microphones CLEAN-SC shows less than two thirds. -/
example (f : Formulation) (k : ℝ) : ∃ v, cleanSC 2 false (1 / 2) none
    (oneSource 3 (field k pair ![1 / 2, 1, 0])) [steering f k pair ![1 / 2, 1, 0]] = .ok [v] ∧ v < 2 := by
  obtain ⟨v, h1, h2⟩ := C76_clean_underestimates f k pair (by simp [pair]) _ pair_apart pair_equidistant
    3 (by norm_num) false (1 / 2) (by norm_num) (by norm_num) none (by simp)
  refine ⟨v, h1, h2.trans_le ?_⟩
  simp [pair]
  norm_num

end Verif.Beamforming

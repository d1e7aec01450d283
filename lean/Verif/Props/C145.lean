import Verif.Model.Arma
import Verif.Lemmas.DFT
import Verif.Lemmas.IDFT
import Verif.Lemmas.AR
import Verif.Props.C26
import Verif.Props.C27
import Verif.Props.C53
import Verif.Lemmas.LFilter
import Mathlib.Analysis.InnerProductSpace.PiL2
import Mathlib.Analysis.InnerProductSpace.Projection.Basic
import Mathlib.Analysis.InnerProductSpace.Projection.FiniteDimensional
import Mathlib.LinearAlgebra.Matrix.ToLin

/-!
# C145: approximation of impulse responses by ARMA filters
-/

namespace Verif.Arma

open Finset

/-- What is expected of `lstsq` without a cutoff: a solution of minimal squared error. -/
def LeastSquares (lstsq : Solver) : Prop :=
  ∀ rows cols M t, (lstsq rows cols M t none).length = cols ∧ ∀ b : ℕ → ℝ,
    ∑ i ∈ range rows, (∑ j ∈ range cols, M i j * (lstsq rows cols M t none).getD j 0 - t i) ^ 2 ≤
      ∑ i ∈ range rows, (∑ j ∈ range cols, M i j * b j - t i) ^ 2

/-- Such a solver exists. -/
theorem exists_leastSquares : ∃ lstsq, LeastSquares lstsq := by
  have key : ∀ (rows cols : ℕ) (M : ℕ → ℕ → ℝ) (t : ℕ → ℝ), ∃ l : List ℝ, l.length = cols ∧ ∀ b : ℕ → ℝ,
      ∑ i ∈ range rows, (∑ j ∈ range cols, M i j * l.getD j 0 - t i) ^ 2 ≤
        ∑ i ∈ range rows, (∑ j ∈ range cols, M i j * b j - t i) ^ 2 := by
    intro rows cols M t
    let T : (Fin cols → ℝ) →ₗ[ℝ] EuclideanSpace ℝ (Fin rows) :=
      (WithLp.linearEquiv 2 ℝ (Fin rows → ℝ)).symm.toLinearMap ∘ₗ
        Matrix.mulVecLin (Matrix.of fun (i : Fin rows) (j : Fin cols) => M i j)
    let y : EuclideanSpace ℝ (Fin rows) := WithLp.toLp 2 fun i => t i
    obtain ⟨v, hv⟩ : ∃ v, T v = (LinearMap.range T).starProjection y :=
      LinearMap.mem_range.1 (Submodule.starProjection_apply_mem (LinearMap.range T) y)
    have hmin : ∀ u, ‖y - T v‖ ≤ ‖y - T u‖ := by
      intro u
      rw [hv, Submodule.starProjection_minimal]
      exact ciInf_le ⟨0, by rintro _ ⟨z, rfl⟩; exact norm_nonneg _⟩ (⟨T u, u, rfl⟩ : LinearMap.range T)
    have hnorm : ∀ u : ℕ → ℝ, ‖y - T fun j => u j‖ ^ 2 = ∑ i ∈ range rows, (∑ j ∈ range cols, M i j * u j - t i) ^ 2 := by
      intro u
      rw [EuclideanSpace.norm_sq_eq, Finset.sum_range]
      refine Finset.sum_congr rfl fun i _ => ?_
      rw [Finset.sum_range]
      simp [T, y, Matrix.mulVec, dotProduct]
      ring
    refine ⟨List.ofFn v, by simp, fun b => ?_⟩
    have hl : (fun j : Fin cols => (List.ofFn v).getD j 0) = v := by
      funext j
      simp [List.getD_eq_getElem?_getD]
    rw [← hnorm b, ← hnorm fun j => (List.ofFn v).getD j 0, hl]
    have := hmin fun j => b j
    gcongr
  choose f hf using key
  exact ⟨fun rows cols M t _ => f rows cols M t, fun rows cols M t => hf rows cols M t⟩

/-- The transfer function of a filter at the angular frequency `w`. -/
noncomputable def transfer (b a : List ℝ) (w : ℝ) : ℂ :=
  (∑ j ∈ range b.length, (b.getD j 0 : ℂ) * Complex.exp (-(w * j : ℝ) * Complex.I)) /
    ∑ j ∈ range a.length, (a.getD j 0 : ℂ) * Complex.exp (-(w * j : ℝ) * Complex.I)

/-- The distance of a filter from an impulse response: spectrum of the impulse response at the bins against the transfer
function at the frequencies `w`. -/
noncomputable def distance (w : ℕ → ℝ) (x b a : List ℝ) : ℝ :=
  ∑ k ∈ range (x.length / 2 + 1),
    ‖transfer b a (w k) - ∑ n ∈ range x.length, (x.getD n 0 : ℂ) * Complex.exp (-(2 * Real.pi * k / x.length * n : ℝ) * Complex.I)‖ ^ 2

theorem response_unit (n : ℕ) (w : ℝ) :
    response (List.replicate n 0 ++ [1]) w = Complex.exp (-(w * n : ℝ) * Complex.I) := by
  unfold response
  rw [Finset.sum_eq_single n]
  · simp [List.getD_eq_getElem?_getD]
  · intro j hj hne
    have hj : j < n := by
      have := Finset.mem_range.1 hj
      simp at this
      omega
    rw [List.getD_append _ _ _ _ (by simpa using hj)]
    simp [List.getD_eq_getElem?_getD, hj]
  · intro h
    simp at h

theorem spec_eq (x : List ℝ) (k : ℕ) : DFT.rfft x.length (fun n => x.getD n 0) k =
    ∑ n ∈ range x.length, (x.getD n 0 : ℂ) * Complex.exp (-(2 * Real.pi * k / x.length * n : ℝ) * Complex.I) := by
  unfold DFT.rfft DFT.dft DFT.e
  refine Finset.sum_congr rfl fun n _ => ?_
  congr 2
  push_cast
  ring

theorem distance_eq (x a : List ℝ) (order : ℕ) (b : List ℝ) (hb : b.length = order + 1) :
    ∑ i ∈ range (x.length / 2 + 1 + (x.length / 2 + 1)),
      (∑ j ∈ range (order + 1), (if i < x.length / 2 + 1 then (entry a x.length i j).re
        else (entry a x.length (i - (x.length / 2 + 1)) j).im) * b.getD j 0 -
        (if i < x.length / 2 + 1 then (DFT.rfft x.length (fun n => x.getD n 0) i).re
          else (DFT.rfft x.length (fun n => x.getD n 0) (i - (x.length / 2 + 1))).im)) ^ 2 =
      distance (grid x.length) x b a := by
  rw [Finset.sum_range_add]
  unfold distance
  rw [← Finset.sum_add_distrib]
  refine Finset.sum_congr rfl fun k hk => ?_
  have hk := Finset.mem_range.1 hk
  rw [← spec_eq]
  have ht : transfer b a (grid x.length k) = ∑ j ∈ range (order + 1), entry a x.length k j * (b.getD j 0 : ℂ) := by
    unfold transfer
    rw [hb, Finset.sum_div]
    refine Finset.sum_congr rfl fun j _ => ?_
    unfold entry
    rw [response_unit]
    unfold response
    ring
  have hre : ∀ c : ℂ, ∀ r : ℝ, (c * (r : ℂ)).re = c.re * r ∧ (c * (r : ℂ)).im = c.im * r := by
    intro c r
    simp
  rw [ht, ← Complex.normSq_eq_norm_sq, Complex.normSq_apply, Complex.sub_re, Complex.sub_im, Complex.re_sum, Complex.im_sum]
  simp only [hre]
  rw [if_pos hk, if_neg (by omega), show x.length / 2 + 1 + k - (x.length / 2 + 1) = k by omega]
  simp only [if_pos hk, if_neg (show ¬ x.length / 2 + 1 + k < x.length / 2 + 1 by omega)]
  ring

theorem grid_even (N : ℕ) (h : N % 2 = 0) (k : ℕ) : grid N k = 2 * Real.pi * k / N := by
  unfold grid
  dsimp only
  rw [if_pos h]
  obtain ⟨m, rfl⟩ : ∃ m, N = 2 * m := ⟨N / 2, by omega⟩
  rw [show 2 * m / 2 + 1 - 1 = m by omega]
  rcases eq_or_ne m 0 with h0 | h0
  · simp [h0]
  · have : (m : ℝ) ≠ 0 := by exact_mod_cast h0
    push_cast
    field_simp

theorem grid_odd (N : ℕ) (h : N % 2 = 1) (k : ℕ) : grid N k = 2 * Real.pi * k / (N + 1) := by
  unfold grid
  dsimp only
  rw [if_neg (by omega)]
  obtain ⟨m, rfl⟩ : ∃ m, N = 2 * m + 1 := ⟨N / 2, by omega⟩
  rw [show (2 * m + 1) / 2 + 1 = m + 1 by omega]
  have : (m : ℝ) + 1 ≠ 0 := by positivity
  push_cast
  rw [show (2 * (m : ℝ) + 1 + 1) = 2 * (m + 1) by ring]
  field_simp

theorem ma_best (lstsq : Solver) (hl : LeastSquares lstsq) (x : List ℝ) (order : ℕ) (a : List ℝ) :
    ∃ b, maParameters lstsq x order a 0 = .ok b ∧ b.length = order + 1 ∧
      ∀ b' : List ℝ, b'.length = order + 1 → distance (grid x.length) x b a ≤ distance (grid x.length) x b' a := by
  unfold maParameters
  rw [if_neg (by norm_num)]
  dsimp only
  rw [if_pos rfl]
  refine ⟨_, rfl, (hl _ _ _ _).1, fun b' hb' => ?_⟩
  rw [← distance_eq x a order _ (hl _ _ _ _).1, ← distance_eq x a order b' hb']
  exact (hl _ _ _ _).2 fun j => b'.getD j 0

theorem setBa_one (b a : List ℝ) (ha : a.getD 0 0 = 1) :
    (FilterCoeffs.setBa b a).1 = b ∧ (FilterCoeffs.setBa b a).2.getD 0 0 = 1 ∧
      ∀ b' w, transfer b' (FilterCoeffs.setBa b a).2 w = transfer b' a w := by
  unfold FilterCoeffs.setBa
  by_cases h : (FilterCoeffs.trimBack a).length = 1
  · rw [if_pos h]
    obtain ⟨n, hn, -⟩ := FilterCoeffs.trimBack_spec a
    obtain ⟨c, hc⟩ := List.length_eq_one_iff.1 h
    rw [hc] at hn ⊢
    have hc1 : c = 1 := by
      rw [hn] at ha
      simpa using ha
    subst hc1
    refine ⟨by simp, by simp, fun b' w => ?_⟩
    unfold transfer
    congr 1
    rw [hn]
    simp only [List.map_cons, List.map_nil, List.length_cons, List.length_nil, List.length_append, List.length_replicate]
    rw [show 0 + 1 + n = n + 1 by omega, Finset.sum_range_succ' _ n]
    rw [Finset.sum_eq_zero (s := range n)]
    · simp
    · intro j hj
      have hj := Finset.mem_range.1 hj
      simp [List.getD_eq_getElem?_getD, hj]
  · rw [if_neg h]
    exact ⟨rfl, ha, fun _ _ => rfl⟩

/-- `a` is the autoregressive estimate of the method. -/
def Estimate (eps : ℝ) (x : List ℝ) (order : ℕ) (method : String) (a : List ℝ) : Prop :=
  (method.toLower = "yule-walker" ∧ ∃ E, AR.yuleWalker x order = .ok (a, E)) ∨
    (method.toLower = "burg" ∧ ∃ E, AR.burg eps x order false = .ok (a, E))

theorem estimate_one (eps : ℝ) (x : List ℝ) (order : ℕ) (ho : order < x.length) (method : String) (a : List ℝ)
    (h : Estimate eps x order method a) : a.getD 0 0 = 1 ∧ a.length = order + 1 := by
  rcases h with ⟨-, E, h⟩ | ⟨-, E, h⟩
  · obtain ⟨h1, h2, -⟩ := AR.C26_yule_walker _ _ _ h
    refine ⟨h2, ?_⟩
    rw [h1]
    simp
    omega
  · have hl : a.length = order + 1 := by
      have h' := h
      unfold AR.burg at h'
      dsimp only at h'
      rw [if_neg (by simp)] at h'
      split at h'
      · have := congrArg Prod.fst (Except.ok.inj h')
        dsimp only at this
        rw [← this]
        simp
      · cases h'
    have h' := h
    unfold AR.burg at h'
    dsimp only at h'
    rw [if_neg (by simp)] at h'
    split at h'
    · rename_i s hs
      exact ⟨(AR.C27_error_is_filter_output eps x order s a E hs h).1, hl⟩
    · cases h'

theorem arma_eq (lstsq : Solver) (eps : ℝ) (x : List ℝ) (orderA orderB : ℕ) (method : String) (cutoff : ℝ)
    (hA : 1 ≤ orderA) (hx : orderA < x.length) (a : List ℝ) (ha : Estimate eps x orderA method a) :
    arma lstsq eps 1 x orderA orderB method cutoff =
      (if 0 < orderB then maParameters lstsq x orderB a cutoff else .ok [1]).map fun b => FilterCoeffs.setBa b a := by
  unfold arma
  rw [if_neg (by simp), if_neg (by omega), if_neg (by omega), if_neg (by omega)]
  have hb : (0 < (orderB : ℤ)) = (0 < orderB) := by simp
  rcases ha with ⟨hm, E, h⟩ | ⟨hm, E, h⟩
  · rw [if_pos hm]
    simp only [Int.toNat_natCast, h, hb]
    by_cases h0 : 0 < orderB
    · simp only [if_pos h0, bind, Except.bind]
      cases maParameters lstsq x orderB a cutoff <;> rfl
    · simp only [if_neg h0]
      rfl
  · rw [if_neg (by rw [hm]; decide), if_pos hm]
    simp only [Int.toNat_natCast, h, hb]
    by_cases h0 : 0 < orderB
    · simp only [if_pos h0, bind, Except.bind]
      cases maParameters lstsq x orderB a cutoff <;> rfl
    · simp only [if_neg h0]
      rfl

/-- Inputs that are refused: several channels, a denominator of order 0 or not shorter than the impulse response, a negative
order, an unknown method; a cutoff outside of [0, 1), unless there is no numerator to estimate. -/
theorem C145_refused (lstsq : Solver) (eps : ℝ) (channels : ℕ) (x : List ℝ) (orderA orderB : ℤ) (method : String) (cutoff : ℝ) :
    (channels ≠ 1 ∨ orderA < 1 ∨ orderB < 0 ∨ (x.length : ℤ) ≤ orderA →
      arma lstsq eps channels x orderA orderB method cutoff = .error .assertionError) ∧
    (channels = 1 → 1 ≤ orderA → 0 ≤ orderB → orderA < x.length →
      method.toLower ≠ "yule-walker" → method.toLower ≠ "burg" →
      arma lstsq eps channels x orderA orderB method cutoff = .error .valueError) ∧
    (∀ a, channels = 1 → 1 ≤ orderA → 0 < orderB → orderA < x.length → Estimate eps x orderA.toNat method a →
      (cutoff < 0 ∨ 1 ≤ cutoff) → arma lstsq eps channels x orderA orderB method cutoff = .error .assertionError) := by
  refine ⟨fun h => ?_, fun hc h1 h2 h3 m1 m2 => ?_, fun a hc h1 h2 h3 ha hcut => ?_⟩
  · unfold arma
    split_ifs with g1 g2 g3 g4 <;> first | rfl | (exfalso; omega)
  · unfold arma
    rw [if_neg (by simpa using hc), if_neg (by omega), if_neg (by omega), if_neg (by omega), if_neg m1, if_neg m2]
    rfl
  · obtain ⟨p, rfl⟩ : ∃ p : ℕ, orderA = p := ⟨orderA.toNat, by omega⟩
    obtain ⟨q, rfl⟩ : ∃ q : ℕ, orderB = q := ⟨orderB.toNat, by omega⟩
    subst hc
    rw [arma_eq lstsq eps x p q method cutoff (by omega) (by omega) a (by simpa using ha), if_pos (by omega)]
    unfold maParameters
    rw [if_pos (by
      rintro ⟨c1, c2⟩
      rcases hcut with h | h <;> linarith)]
    rfl

/-- For impulse responses of even length: the returned filter has the denominator of the autoregressive estimate and, among all
numerators of the given order, one for which the transfer function is nearest to the spectrum of the impulse response. -/
theorem C145_best (lstsq : Solver) (hl : LeastSquares lstsq) (eps : ℝ) (x : List ℝ) (orderA orderB : ℕ) (method : String)
    (hA : 1 ≤ orderA) (hx : orderA < x.length) (a : List ℝ) (ha : Estimate eps x orderA method a) (hB : 0 < orderB)
    (he : x.length % 2 = 0) :
    ∃ b a', arma lstsq eps 1 x orderA orderB method 0 = .ok (b, a') ∧ a'.getD 0 0 = 1 ∧
      (∀ b' w, transfer b' a' w = transfer b' a w) ∧ b.length = orderB + 1 ∧
      ∀ b' : List ℝ, b'.length = orderB + 1 →
        distance (fun k => 2 * Real.pi * k / x.length) x b a' ≤ distance (fun k => 2 * Real.pi * k / x.length) x b' a' := by
  obtain ⟨b, hb, hbl, hbest⟩ := ma_best lstsq hl x orderB a
  obtain ⟨h1, -⟩ := estimate_one eps x orderA hx method a ha
  obtain ⟨s1, s2, s3⟩ := setBa_one b a h1
  refine ⟨b, (FilterCoeffs.setBa b a).2, ?_, s2, s3, hbl, fun b' hb' => ?_⟩
  · rw [arma_eq lstsq eps x orderA orderB method 0 hA hx a ha, if_pos hB, hb]
    exact congrArg Except.ok (Prod.ext s1 rfl)
  · have hg : (fun k : ℕ => 2 * Real.pi * (k : ℝ) / x.length) = grid x.length := by
      funext k
      rw [grid_even x.length he]
    rw [hg]
    have := hbest b' hb'
    unfold distance at this ⊢
    simp only [s3]
    exact this

/-- For impulse responses of odd length the transfer function is compared with the spectrum at other frequencies: the bins are at
multiples of the sampling rate divided by the length, the transfer function is taken at multiples of the sampling rate
divided by the length plus one. -/
theorem C145_odd_wrong (lstsq : Solver) (hl : LeastSquares lstsq) (eps : ℝ) (x : List ℝ) (orderA orderB : ℕ) (method : String)
    (hA : 1 ≤ orderA) (hx : orderA < x.length) (a : List ℝ) (ha : Estimate eps x orderA method a) (hB : 0 < orderB)
    (he : x.length % 2 = 1) :
    ∃ b a', arma lstsq eps 1 x orderA orderB method 0 = .ok (b, a') ∧ a'.getD 0 0 = 1 ∧
      (∀ b' w, transfer b' a' w = transfer b' a w) ∧ b.length = orderB + 1 ∧
      ∀ b' : List ℝ, b'.length = orderB + 1 →
        distance (fun k => 2 * Real.pi * k / (x.length + 1)) x b a' ≤
          distance (fun k => 2 * Real.pi * k / (x.length + 1)) x b' a' := by
  obtain ⟨b, hb, hbl, hbest⟩ := ma_best lstsq hl x orderB a
  obtain ⟨h1, -⟩ := estimate_one eps x orderA hx method a ha
  obtain ⟨s1, s2, s3⟩ := setBa_one b a h1
  refine ⟨b, (FilterCoeffs.setBa b a).2, ?_, s2, s3, hbl, fun b' hb' => ?_⟩
  · rw [arma_eq lstsq eps x orderA orderB method 0 hA hx a ha, if_pos hB, hb]
    exact congrArg Except.ok (Prod.ext s1 rfl)
  · have hg : (fun k : ℕ => 2 * Real.pi * (k : ℝ) / (x.length + 1)) = grid x.length := by
      funext k
      rw [grid_odd x.length he]
    rw [hg]
    have := hbest b' hb'
    unfold distance at this ⊢
    simp only [s3]
    exact this

/-- Values at the bins are a discrete Fourier transform. -/
theorem sum_eq_dft (c : List ℝ) (N : ℕ) (hc : c.length ≤ N) (k : ℕ) :
    ∑ j ∈ range c.length, (c.getD j 0 : ℂ) * Complex.exp (-(2 * Real.pi * k / N * j : ℝ) * Complex.I) =
      DFT.dft N (fun n => (c.getD n 0 : ℂ)) k := by
  unfold DFT.dft DFT.e
  rw [← Finset.sum_subset (Finset.range_mono hc) (fun j _ hj => by
    dsimp only
    rw [List.getD_eq_default _ _ (by simpa using hj)]
    simp)]
  refine Finset.sum_congr rfl fun j _ => ?_
  congr 2
  push_cast
  ring

/-- Exactness: if the impulse response (of even length) is that of a filter with the estimated denominator and some numerator of
the given order, wrapped around at its end, then this numerator is found. -/
theorem C145_exact (lstsq : Solver) (hl : LeastSquares lstsq) (eps : ℝ) (x : List ℝ) (orderA orderB : ℕ) (method : String)
    (hA : 1 ≤ orderA) (hx : orderA < x.length) (a : List ℝ) (ha : Estimate eps x orderA method a) (hB : 0 < orderB)
    (he : x.length % 2 = 0) (hBx : orderB < x.length) (b : List ℝ) (hb : b.length = orderB + 1)
    (hfit : ∀ n < x.length, ∑ j ∈ range (orderA + 1), a.getD j 0 * x.getD ((n + x.length - j) % x.length) 0 = b.getD n 0)
    (hnz : ∀ k ≤ x.length / 2,
      ∑ j ∈ range a.length, (a.getD j 0 : ℂ) * Complex.exp (-(2 * Real.pi * k / x.length * j : ℝ) * Complex.I) ≠ 0) :
    ∃ a', arma lstsq eps 1 x orderA orderB method 0 = .ok (b, a') ∧ a'.getD 0 0 = 1 ∧
      ∀ b' w, transfer b' a' w = transfer b' a w := by
  obtain ⟨c, a', h, h1, h2, hcl, hbest⟩ := C145_best lstsq hl eps x orderA orderB method hA hx a ha hB he
  obtain ⟨-, hal⟩ := estimate_one eps x orderA hx method a ha
  have hN : x.length ≠ 0 := by omega
  have hconv : ∀ k < x.length, DFT.dft x.length (fun n => (b.getD n 0 : ℂ)) k =
      DFT.dft x.length (fun n => (x.getD n 0 : ℂ)) k * DFT.dft x.length (fun n => (a.getD n 0 : ℂ)) k := by
    intro k hk
    rw [← Transforms.dft_ifft x.length
      (fun k => DFT.dft x.length (fun n => (x.getD n 0 : ℂ)) k * DFT.dft x.length (fun n => (a.getD n 0 : ℂ)) k) k hk]
    unfold DFT.dft
    refine Finset.sum_congr rfl fun n hn => ?_
    congr 1
    have hn := Finset.mem_range.1 hn
    have := DFT.idft_mul x.length hN (fun n => (x.getD n 0 : ℂ)) (fun n => (a.getD n 0 : ℂ)) n
    unfold Transforms.ifft
    refine Eq.trans ?_ this.symm
    dsimp only
    rw [← hfit n hn, Complex.ofReal_sum]
    have hle : orderA + 1 ≤ x.length := hx
    rw [← Finset.sum_subset (Finset.range_mono hle) (fun j _ hj => by
      rw [List.getD_eq_default a _ (by rw [hal]; simpa using hj)]
      simp)]
    refine Finset.sum_congr rfl fun j _ => ?_
    push_cast
    ring
  have hzero : distance (fun k => 2 * Real.pi * k / x.length) x b a' = 0 := by
    unfold distance
    refine Finset.sum_eq_zero fun k hk => ?_
    have hk' : k ≤ x.length / 2 := by
      have := Finset.mem_range.1 hk
      omega
    have hkl : k < x.length := by omega
    rw [h2]
    have hA' := hnz k hk'
    unfold transfer
    rw [sum_eq_dft b x.length (by omega), sum_eq_dft a x.length (by omega), sum_eq_dft x x.length le_rfl, hconv k hkl]
    rw [sum_eq_dft a x.length (by omega)] at hA'
    rw [mul_div_cancel_right₀ _ hA', sub_self]
    simp
  have hc0 : distance (fun k => 2 * Real.pi * k / x.length) x c a' = 0 :=
    le_antisymm (hzero ▸ hbest b hb) (Finset.sum_nonneg fun _ _ => by positivity)
  have hsame : ∀ k ≤ x.length / 2, DFT.rfft x.length (fun n => c.getD n 0) k = DFT.rfft x.length (fun n => b.getD n 0) k := by
    intro k hk
    have e1 := (Finset.sum_eq_zero_iff_of_nonneg (fun _ _ => by positivity)).1 hc0 k (Finset.mem_range.2 (by omega))
    have e2 := (Finset.sum_eq_zero_iff_of_nonneg (fun _ _ => by positivity)).1 hzero k (Finset.mem_range.2 (by omega))
    have e1 := norm_eq_zero.1 (pow_eq_zero_iff (two_ne_zero) |>.1 e1)
    have e2 := norm_eq_zero.1 (pow_eq_zero_iff (two_ne_zero) |>.1 e2)
    have e3 := (sub_eq_zero.1 e1).trans (sub_eq_zero.1 e2).symm
    rw [h2, h2] at e3
    unfold transfer at e3
    have hA' := hnz k hk
    have e4 := (div_left_inj' hA').1 e3
    rw [sum_eq_dft b x.length (by omega), sum_eq_dft c x.length (by omega)] at e4
    exact e4
  have hall : ∀ k < x.length, DFT.dft x.length (fun n => (c.getD n 0 : ℂ)) k = DFT.dft x.length (fun n => (b.getD n 0 : ℂ)) k := by
    intro k hk
    by_cases hk2 : k ≤ x.length / 2
    · exact hsame k hk2
    · have m1 := DFT.rfft_mirror x.length hN (fun n => c.getD n 0) (x.length - k) (by omega)
      have m2 := DFT.rfft_mirror x.length hN (fun n => b.getD n 0) (x.length - k) (by omega)
      rw [show x.length - (x.length - k) = k by omega] at m1 m2
      rw [hsame (x.length - k) (by omega)] at m1
      exact m1.trans m2.symm
  have hcb : c = b := by
    refine LFilter.ext_getD _ _ (by omega) fun j hj => ?_
    have hj : j < x.length := by omega
    have i1 := Transforms.ifft_dft x.length (fun n => (c.getD n 0 : ℂ)) j hj
    have i2 := Transforms.ifft_dft x.length (fun n => (b.getD n 0 : ℂ)) j hj
    rw [Transforms.ifft_congr x.length _ _ hall j, i2] at i1
    exact_mod_cast i1.symm
  rw [hcb] at h
  exact ⟨a', h, h1, h2⟩

theorem loop_scale (c : ℕ → ℝ) (r0 g : ℝ) (hg : 0 < g) (n : ℕ) :
    AR.loop (fun j => g * c j) (g * r0) n = (AR.loop c r0 n).map fun s => (s.1, g * s.2) := by
  induction n with
  | zero => rfl
  | succ n ih =>
    rw [AR.loop_succ, AR.loop_succ, ih]
    cases AR.loop c r0 n with
    | error e => rfl
    | ok s =>
      show AR.step (fun j => g * c j) (s.1, g * s.2) n = Except.map _ (AR.step c s n)
      have hr : AR.reflSum (fun j => g * c j) s.1 n = g * AR.reflSum c s.1 n := by
        unfold AR.reflSum
        rw [AR.foldl_sum, AR.foldl_sum, mul_add, Finset.mul_sum]
        congr 1
        exact Finset.sum_congr rfl fun i _ => by ring
      unfold AR.step
      dsimp only
      rw [hr]
      have hk : -(g * AR.reflSum c s.1 n) / (g * s.2) = -AR.reflSum c s.1 n / s.2 := by
        rw [← mul_neg, mul_div_mul_left _ _ hg.ne']
      rw [hk]
      have e1 : (g * s.2 = 0) = (s.2 = 0) := by simp [hg.ne']
      have e2 : ∀ u : ℝ, (g * s.2 * u ≤ 0) = (s.2 * u ≤ 0) := by
        intro u
        rw [mul_assoc]
        simp [mul_nonpos_iff, hg.le, not_le.2 hg]
      simp only [e1, e2]
      split_ifs
      · rfl
      · rfl
      · show Except.ok _ = Except.ok _
        rw [mul_assoc]

theorem yuleWalker_scale (x : List ℝ) (g : ℝ) (hg : g ≠ 0) (order : ℕ) :
    AR.yuleWalker (x.map fun v => g * v) order = (AR.yuleWalker x order).map fun s => (s.1, g ^ 2 * s.2) := by
  have hc : ∀ lag, AR.autocorr (x.map fun v => g * v) lag = g ^ 2 * AR.autocorr x lag := by
    intro lag
    unfold AR.autocorr
    rw [List.length_map, ← mul_div_assoc, Finset.mul_sum]
    congr 1
    refine Finset.sum_congr rfl fun n _ => ?_
    have : ∀ k, (x.map fun v => g * v).getD k 0 = g * x.getD k 0 := by
      intro k
      simp only [List.getD_eq_getElem?_getD, List.getElem?_map]
      cases x[k]? <;> simp
    rw [this, this]
    ring
  unfold AR.yuleWalker
  rw [List.length_map, show AR.autocorr (x.map fun v => g * v) = fun lag => g ^ 2 * AR.autocorr x lag from funext hc]
  cases min (order + 1) x.length with
  | zero => rfl
  | succ m =>
    rw [List.range_succ_eq_map, List.map_cons, List.map_cons, List.map_map, List.map_map]
    unfold AR.levinson
    simp only [List.length_map, List.length_range]
    have h1 : AR.loop (fun j => (List.map ((fun lag => g ^ 2 * AR.autocorr x lag) ∘ Nat.succ) (List.range m)).getD j 0)
        (g ^ 2 * AR.autocorr x 0) m =
        AR.loop (fun j => g ^ 2 * (List.map (AR.autocorr x ∘ Nat.succ) (List.range m)).getD j 0) (g ^ 2 * AR.autocorr x 0) m :=
      AR.loop_congr _ _ _ _ fun j hj => by simp [List.getD_eq_getElem?_getD, hj]
    rw [h1, loop_scale _ _ _ (by positivity)]
    cases AR.loop (fun j => (List.map (AR.autocorr x ∘ Nat.succ) (List.range m)).getD j 0) (AR.autocorr x 0) m <;> rfl

/-- Without a numerator the level of the impulse response is lost: the filter starts with 1, and the same filter is returned for
the impulse response multiplied by any factor. -/
theorem C145_level_wrong (lstsq : Solver) (eps : ℝ) (x : List ℝ) (g : ℝ) (hg : g ≠ 0) (orderA : ℕ) (method : String)
    (hm : method.toLower = "yule-walker") (cutoff : ℝ) (hA : 1 ≤ orderA) (hx : orderA < x.length) (a : List ℝ) (E : ℝ)
    (ha : AR.yuleWalker x orderA = .ok (a, E)) :
    ∃ a', arma lstsq eps 1 x orderA 0 method cutoff = .ok ([1], a') ∧ a'.getD 0 0 = 1 ∧
      (∀ b' w, transfer b' a' w = transfer b' a w) ∧
      arma lstsq eps 1 (x.map fun v => g * v) orderA 0 method cutoff = .ok ([1], a') := by
  have h1 : Estimate eps x orderA method a := .inl ⟨hm, E, ha⟩
  have h2 : Estimate eps (x.map fun v => g * v) orderA method a := by
    refine .inl ⟨hm, g ^ 2 * E, ?_⟩
    rw [yuleWalker_scale x g hg, ha]
    rfl
  obtain ⟨s1, s2, s3⟩ := setBa_one [1] a (estimate_one eps x orderA hx method a h1).1
  refine ⟨(FilterCoeffs.setBa [1] a).2, ?_, s2, s3, ?_⟩
  · have := arma_eq lstsq eps x orderA 0 method cutoff hA hx a h1
    rw [if_neg (by omega)] at this
    rw [show ((0 : ℤ)) = ((0 : ℕ) : ℤ) from rfl, this]
    exact congrArg Except.ok (Prod.ext s1 rfl)
  · have := arma_eq lstsq eps (x.map fun v => g * v) orderA 0 method cutoff hA (by simpa using hx) a h2
    rw [if_neg (by omega)] at this
    rw [show ((0 : ℤ)) = ((0 : ℕ) : ℤ) from rfl, this]
    exact congrArg Except.ok (Prod.ext s1 rfl)

theorem yuleWalker_delay : AR.yuleWalker ([0, 1, 0] : List ℝ) 1 = .ok ([1, 0], 1 / 3) := by
  have h0 : AR.autocorr ([0, 1, 0] : List ℝ) 0 = 1 / 3 := by
    unfold AR.autocorr
    simp [Finset.sum_range_succ]
  have h1 : AR.autocorr ([0, 1, 0] : List ℝ) 1 = 0 := by
    unfold AR.autocorr
    simp [Finset.sum_range_succ]
  unfold AR.yuleWalker
  have : (List.range (min (1 + 1) ([0, 1, 0] : List ℝ).length)).map (AR.autocorr ([0, 1, 0] : List ℝ)) = [1 / 3, 0] := by
    show [AR.autocorr _ 0, AR.autocorr _ 1] = _
    rw [h0, h1]
  rw [this]
  unfold AR.levinson AR.loop
  simp [List.range_succ, AR.step, AR.reflSum, AR.newCoeffs, pure, Except.pure, bind, Except.bind]
  norm_num

/-- A pulse delayed by one sample, in an array of odd length: although the filter with the numerator `[0, 1]` is exactly this
impulse response, it is not what is returned. -/
theorem C145_delay_wrong (lstsq : Solver) (hl : LeastSquares lstsq) (eps : ℝ) (method : String)
    (hm : method.toLower = "yule-walker") :
    ∃ b a', arma lstsq eps 1 [0, 1, 0] 1 1 method 0 = .ok (b, a') ∧ (∀ b' w, transfer b' a' w = transfer b' [1, 0] w) ∧
      b ≠ [0, 1] := by
  obtain ⟨b, a', h, -, h2, -, hbest⟩ := C145_odd_wrong lstsq hl eps [0, 1, 0] 1 1 method le_rfl (by simp) [1, 0]
    (.inl ⟨hm, _, yuleWalker_delay⟩) one_pos (by simp)
  refine ⟨b, a', h, h2, ?_⟩
  rintro rfl
  have hd : ∀ p q : ℝ, distance (fun k => 2 * Real.pi * k / ((([0, 1, 0] : List ℝ).length : ℝ) + 1)) [0, 1, 0] [p, q] a' =
      (p + q - 1) ^ 2 + ((p + 1 / 2) ^ 2 + (√3 / 2 - q) ^ 2) := by
    intro p q
    unfold distance
    simp only [h2]
    unfold transfer
    have e1 : Complex.exp (-((2 * Real.pi * ((1 : ℕ) : ℝ) / ((([0, 1, 0] : List ℝ).length : ℝ) + 1) * ((1 : ℕ) : ℝ) : ℝ) : ℂ) *
        Complex.I) = -Complex.I := by
      rw [show -((2 * Real.pi * ((1 : ℕ) : ℝ) / ((([0, 1, 0] : List ℝ).length : ℝ) + 1) * ((1 : ℕ) : ℝ) : ℝ) : ℂ) * Complex.I =
        -(Real.pi / 2 * Complex.I) by
          simp
          ring, Complex.exp_neg, Complex.exp_pi_div_two_mul_I, Complex.inv_I]
    have e2 : Complex.exp (-((2 * Real.pi * ((1 : ℕ) : ℝ) / (([0, 1, 0] : List ℝ).length : ℝ) * ((1 : ℕ) : ℝ) : ℝ) : ℂ) *
        Complex.I) = ⟨-1 / 2, -(√3 / 2)⟩ := by
      have hc : 2 * Real.pi * ((1 : ℕ) : ℝ) / (([0, 1, 0] : List ℝ).length : ℝ) * ((1 : ℕ) : ℝ) = Real.pi - Real.pi / 3 := by
        simp
        ring
      rw [hc, ← Complex.ofReal_neg]
      apply Complex.ext
      · rw [Complex.exp_ofReal_mul_I_re, Real.cos_neg, Real.cos_pi_sub, Real.cos_pi_div_three]
        norm_num
      · rw [Complex.exp_ofReal_mul_I_im, Real.sin_neg, Real.sin_pi_sub, Real.sin_pi_div_three]
    have hden : ∀ w : ℝ, ∑ j ∈ range ([1, 0] : List ℝ).length, ((([1, 0] : List ℝ).getD j 0 : ℝ) : ℂ) *
        Complex.exp (-(w * j : ℝ) * Complex.I) = 1 := by
      intro w
      simp [Finset.sum_range_succ]
    simp only [hden, div_one]
    have hnum : ∀ w : ℝ, ∑ j ∈ range ([p, q] : List ℝ).length, ((([p, q] : List ℝ).getD j 0 : ℝ) : ℂ) *
        Complex.exp (-(w * j : ℝ) * Complex.I) = p + q * Complex.exp (-(w * ((1 : ℕ) : ℝ) : ℝ) * Complex.I) := by
      intro w
      simp [Finset.sum_range_succ]
    have hx : ∀ w : ℝ, ∑ j ∈ range ([0, 1, 0] : List ℝ).length, ((([0, 1, 0] : List ℝ).getD j 0 : ℝ) : ℂ) *
        Complex.exp (-(w * j : ℝ) * Complex.I) = Complex.exp (-(w * ((1 : ℕ) : ℝ) : ℝ) * Complex.I) := by
      intro w
      simp [Finset.sum_range_succ]
    simp only [hnum, hx]
    rw [show ([0, 1, 0] : List ℝ).length / 2 + 1 = 2 from rfl, Finset.sum_range_succ, Finset.sum_range_succ, Finset.sum_range_zero,
      zero_add, e1, e2]
    congr 1
    · rw [show (p : ℂ) + q * Complex.exp (-((2 * Real.pi * ((0 : ℕ) : ℝ) / ((([0, 1, 0] : List ℝ).length : ℝ) + 1) *
          ((1 : ℕ) : ℝ) : ℝ) : ℂ) * Complex.I) - Complex.exp (-((2 * Real.pi * ((0 : ℕ) : ℝ) / (([0, 1, 0] : List ℝ).length : ℝ) *
          ((1 : ℕ) : ℝ) : ℝ) : ℂ) * Complex.I) = ((p + q - 1 : ℝ) : ℂ) by simp]
      rw [Complex.norm_real, Real.norm_eq_abs, sq_abs]
    · rw [← Complex.normSq_eq_norm_sq, Complex.normSq_apply]
      simp
      ring
  have := hbest [-1 / 4, 1] rfl
  rw [hd, hd] at this
  linarith

/-- The hypotheses of `C145_exact` hold for a pulse delayed by one sample in an array of length 4. -/
example (eps : ℝ) : ∃ a, Estimate eps [0, 1, 0, 0] 1 "Yule-Walker" a ∧
    (∀ n < 4, ∑ j ∈ range 2, a.getD j 0 * ([0, 1, 0, 0] : List ℝ).getD ((n + 4 - j) % 4) 0 = ([0, 1] : List ℝ).getD n 0) ∧
    ∀ k ≤ 4 / 2, ∑ j ∈ range a.length, (a.getD j 0 : ℂ) * Complex.exp (-(2 * Real.pi * k / 4 * j : ℝ) * Complex.I) ≠ 0 := by
  have h : AR.yuleWalker ([0, 1, 0, 0] : List ℝ) 1 = .ok ([1, 0], 1 / 4) := by
    have h0 : AR.autocorr ([0, 1, 0, 0] : List ℝ) 0 = 1 / 4 := by
      unfold AR.autocorr
      simp [Finset.sum_range_succ]
    have h1 : AR.autocorr ([0, 1, 0, 0] : List ℝ) 1 = 0 := by
      unfold AR.autocorr
      simp [Finset.sum_range_succ]
    unfold AR.yuleWalker
    have : (List.range (min (1 + 1) ([0, 1, 0, 0] : List ℝ).length)).map (AR.autocorr ([0, 1, 0, 0] : List ℝ)) = [1 / 4, 0] := by
      show [AR.autocorr _ 0, AR.autocorr _ 1] = _
      rw [h0, h1]
    rw [this]
    unfold AR.levinson AR.loop
    simp [List.range_succ, AR.step, AR.reflSum, AR.newCoeffs, pure, Except.pure, bind, Except.bind]
    norm_num
  refine ⟨[1, 0], .inl ⟨by decide +kernel, _, h⟩, fun n hn => ?_, fun k _ => ?_⟩
  · interval_cases n <;> simp [Finset.sum_range_succ]
  · simp [Finset.sum_range_succ]

end Verif.Arma

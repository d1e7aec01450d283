import Verif.Model.Detrend
import Verif.Lemmas.SignalData
import Verif.Props.C66
import Mathlib.Algebra.Polynomial.Div
import Mathlib.LinearAlgebra.Lagrange
import Mathlib.Analysis.InnerProductSpace.Projection.Minimal
import Mathlib.Analysis.InnerProductSpace.PiL2

/-!
# C119: detrending and envelopes
-/

namespace Verif.Detrend

open SignalData Polynomial

/-! ### Specification -/

/-- What is left of the `N` samples `y` after the closest polynomial of degree `n` at most was
subtracted is `r`. -/
def IsDetrended (n N : ℕ) (y r : ℕ → ℝ) : Prop :=
  (∃ P : ℝ[X], P.natDegree ≤ n ∧ ∀ i < N, r i = y i - P.eval (i : ℝ)) ∧
  ∀ Q : ℝ[X], Q.natDegree ≤ n →
    ∑ i ∈ Finset.range N, r i ^ 2 ≤ ∑ i ∈ Finset.range N, (y i - Q.eval (i : ℝ)) ^ 2

/-- `fit` returns the coefficients of least squares, highest power first. -/
def Fits (fit : ℕ → List ℝ → List ℝ) : Prop :=
  ∀ n y, (fit n y).length = n + 1 ∧ ∀ d : List ℝ, d.length = n + 1 →
    ∑ i ∈ Finset.range y.length, (y.getD i 0 - polyval (fit n y) i) ^ 2 ≤
      ∑ i ∈ Finset.range y.length, (y.getD i 0 - polyval d i) ^ 2

/-- Signals hold at least two samples and not more channels than samples. -/
def Shaped (s : State ℝ) : Prop := 2 ≤ s.re.rows ∧ 1 ≤ s.re.cols ∧ s.re.cols ≤ s.re.rows

/-! ### Polynomials -/

theorem polyval_poly (c : List ℝ) : ∃ P : ℝ[X], (c ≠ [] → P.natDegree + 1 ≤ c.length) ∧
    (c = [] → P = 0) ∧ ∀ x, polyval c x = P.eval x := by
  induction c using List.reverseRecOn with
  | nil => exact ⟨0, by simp, by simp, by simp [polyval]⟩
  | append_singleton c a ih =>
    obtain ⟨P, h1, h2, h3⟩ := ih
    refine ⟨P * X + C a, fun _ => ?_, by simp, fun x => ?_⟩
    · by_cases hc : c = []
      · rw [h2 hc]
        simp
      · have : (P * X + C a).natDegree ≤ P.natDegree + 1 := by
          refine (natDegree_add_le _ _).trans ?_
          simp only [natDegree_C, Nat.zero_le, sup_of_le_left]
          exact (natDegree_mul_le).trans (by gcongr; exact natDegree_X_le)
        have := h1 hc
        rw [List.length_append, List.length_singleton]
        omega
    · have := h3 x
      unfold polyval at this ⊢
      rw [List.foldl_append, this]
      simp

theorem poly_polyval (n : ℕ) (Q : ℝ[X]) (h : Q.natDegree ≤ n) :
    ∃ c : List ℝ, c.length = n + 1 ∧ ∀ x, polyval c x = Q.eval x := by
  induction n generalizing Q with
  | zero =>
    refine ⟨[Q.coeff 0], rfl, fun x => ?_⟩
    rw [eq_C_of_natDegree_le_zero h]
    simp [polyval]
  | succ n ih =>
    obtain ⟨c, h1, h2⟩ := ih Q.divX (by rw [natDegree_divX_eq_natDegree_tsub_one]; omega)
    refine ⟨c ++ [Q.coeff 0], by simp [h1], fun x => ?_⟩
    have := h2 x
    unfold polyval at this ⊢
    rw [List.foldl_append, this]
    conv_rhs => rw [← divX_mul_X_add Q]
    simp

/-! ### Least squares -/

/-- The rest is orthogonal to all polynomials. -/
theorem orthogonal (n N : ℕ) (y r : ℕ → ℝ) (h : IsDetrended n N y r) (Q : ℝ[X])
    (hQ : Q.natDegree ≤ n) : ∑ i ∈ Finset.range N, r i * Q.eval (i : ℝ) = 0 := by
  obtain ⟨⟨P, hP, hr⟩, hmin⟩ := h
  set A := ∑ i ∈ Finset.range N, r i * Q.eval (i : ℝ) with hA
  set B := ∑ i ∈ Finset.range N, (Q.eval (i : ℝ)) ^ 2 with hB
  have key : ∀ t : ℝ, 0 ≤ t ^ 2 * B - 2 * t * A := by
    intro t
    have h1 := hmin (P + C t * Q) (by
      refine (natDegree_add_le _ _).trans (max_le hP ?_)
      exact (natDegree_C_mul_le _ _).trans hQ)
    have h2 : ∑ i ∈ Finset.range N, (y i - (P + C t * Q).eval (i : ℝ)) ^ 2 =
        ∑ i ∈ Finset.range N, r i ^ 2 + (t ^ 2 * B - 2 * t * A) := by
      rw [hA, hB, Finset.mul_sum, Finset.mul_sum, ← Finset.sum_sub_distrib,
        ← Finset.sum_add_distrib]
      refine Finset.sum_congr rfl fun i hi => ?_
      rw [hr i (Finset.mem_range.1 hi)]
      simp only [eval_add, eval_mul, eval_C]
      ring
    linarith
  have hB0 : 0 ≤ B := Finset.sum_nonneg fun i _ => sq_nonneg _
  have := key (A / (B + 1))
  have hp : 0 < B + 1 := by linarith
  have h3 : (A / (B + 1)) ^ 2 * B - 2 * (A / (B + 1)) * A = -(A ^ 2 * (B + 2)) / (B + 1) ^ 2 := by
    field_simp
    ring
  rw [h3] at this
  have h4 : 0 ≤ -(A ^ 2 * (B + 2)) := by
    by_contra hc
    have := div_neg_of_neg_of_pos (not_le.1 hc) (pow_pos hp 2)
    linarith
  have h5 : A ^ 2 * (B + 2) ≤ 0 := by linarith
  have h6 : A ^ 2 ≤ 0 := by
    by_contra hc
    have : 0 < A ^ 2 * (B + 2) := mul_pos (not_le.1 hc) (by linarith)
    linarith
  exact pow_eq_zero_iff (two_ne_zero) |>.1 (le_antisymm h6 (sq_nonneg _))

/-- Conversely, a rest that is orthogonal to all polynomials is the one of the closest polynomial. -/
theorem of_orthogonal (n N : ℕ) (y r : ℕ → ℝ)
    (h : ∃ P : ℝ[X], P.natDegree ≤ n ∧ ∀ i < N, r i = y i - P.eval (i : ℝ))
    (ho : ∀ Q : ℝ[X], Q.natDegree ≤ n → ∑ i ∈ Finset.range N, r i * Q.eval (i : ℝ) = 0) :
    IsDetrended n N y r := by
  refine ⟨h, fun Q hQ => ?_⟩
  obtain ⟨P, hP, hr⟩ := h
  have h1 := ho (P - Q) ((natDegree_sub_le _ _).trans (max_le hP hQ))
  have h2 : ∑ i ∈ Finset.range N, (y i - Q.eval (i : ℝ)) ^ 2 =
      ∑ i ∈ Finset.range N, r i ^ 2 + 2 * ∑ i ∈ Finset.range N, r i * (P - Q).eval (i : ℝ) +
        ∑ i ∈ Finset.range N, ((P - Q).eval (i : ℝ)) ^ 2 := by
    rw [Finset.mul_sum, ← Finset.sum_add_distrib, ← Finset.sum_add_distrib]
    refine Finset.sum_congr rfl fun i hi => ?_
    rw [hr i (Finset.mem_range.1 hi), eval_sub]
    ring
  rw [h2, h1]
  have : 0 ≤ ∑ i ∈ Finset.range N, ((P - Q).eval (i : ℝ)) ^ 2 :=
    Finset.sum_nonneg fun i _ => sq_nonneg _
  linarith

/-- The rest is determined by the samples. -/
theorem unique (n N : ℕ) (y r r' : ℕ → ℝ) (h : IsDetrended n N y r) (h' : IsDetrended n N y r')
    (i : ℕ) (hi : i < N) : r i = r' i := by
  obtain ⟨⟨P, hP, hr⟩, -⟩ := id h
  obtain ⟨⟨P', hP', hr'⟩, -⟩ := id h'
  have hd : (P' - P).natDegree ≤ n := (natDegree_sub_le _ _).trans (max_le hP' hP)
  have h1 := orthogonal n N y r h (P' - P) hd
  have h2 := orthogonal n N y r' h' (P' - P) hd
  have h3 : ∑ i ∈ Finset.range N, ((P' - P).eval (i : ℝ)) ^ 2 = 0 := by
    have : ∑ i ∈ Finset.range N, ((P' - P).eval (i : ℝ)) ^ 2 =
        ∑ i ∈ Finset.range N, r i * (P' - P).eval (i : ℝ) -
          ∑ i ∈ Finset.range N, r' i * (P' - P).eval (i : ℝ) := by
      rw [← Finset.sum_sub_distrib]
      refine Finset.sum_congr rfl fun i hi => ?_
      have hi' := Finset.mem_range.1 hi
      rw [hr i hi', hr' i hi', eval_sub]
      ring
    rw [this, h1, h2, sub_zero]
  have h4 := (Finset.sum_eq_zero_iff_of_nonneg fun i _ => sq_nonneg _).1 h3 i (Finset.mem_range.2 hi)
  have h5 := pow_eq_zero_iff (two_ne_zero) |>.1 h4
  rw [eval_sub] at h5
  rw [hr i hi, hr' i hi]
  linarith

/-- A closest polynomial exists. -/
theorem exists_detrended (n N : ℕ) (y : ℕ → ℝ) : ∃ r, IsDetrended n N y r := by
  let f : ℝ[X] →ₗ[ℝ] EuclideanSpace ℝ (Fin N) :=
      { toFun := fun P => WithLp.toLp 2 fun i : Fin N => P.eval (i : ℝ)
        map_add' := fun P Q => by ext i; simp
        map_smul' := fun a P => by ext i; simp }
  let K : Submodule ℝ (EuclideanSpace ℝ (Fin N)) := (degreeLT ℝ (n + 1)).map f
  have hc : IsComplete (K : Set (EuclideanSpace ℝ (Fin N))) := Submodule.complete_of_finiteDimensional K
  obtain ⟨v, hv, hmin⟩ := K.exists_norm_eq_iInf_of_complete_subspace hc
    (WithLp.toLp 2 fun i : Fin N => y i)
  have ho := (K.norm_eq_iInf_iff_real_inner_eq_zero hv).1 hmin
  obtain ⟨P, hP, rfl⟩ := hv
  refine ⟨fun i => y i - P.eval (i : ℝ), of_orthogonal n N y _ ⟨P, ?_, fun i _ => rfl⟩ fun Q hQ => ?_⟩
  · have := mem_degreeLT.1 hP
    exact natDegree_le_of_degree_le (by
      rw [Nat.cast_add_one] at this
      exact Order.lt_succ_iff.1 this)
  · have := ho _ ⟨Q, mem_degreeLT.2 (lt_of_le_of_lt (degree_le_of_natDegree_le hQ)
      (by exact_mod_cast Nat.lt_succ_self n)), rfl⟩
    rw [Finset.sum_range]
    simpa [f, PiLp.inner_apply, mul_comm] using this

/-- Coefficients of least squares exist for all samples. -/
theorem exists_fit : ∃ fit, Fits fit := by
  have : ∀ n (y : List ℝ), ∃ c : List ℝ, c.length = n + 1 ∧ ∀ d : List ℝ, d.length = n + 1 →
      ∑ i ∈ Finset.range y.length, (y.getD i 0 - polyval c i) ^ 2 ≤
        ∑ i ∈ Finset.range y.length, (y.getD i 0 - polyval d i) ^ 2 := by
    intro n y
    obtain ⟨r, ⟨P, hP, hr⟩, hmin⟩ := exists_detrended n y.length fun i => y.getD i 0
    obtain ⟨c, hc, hcv⟩ := poly_polyval n P hP
    refine ⟨c, hc, fun d hd => ?_⟩
    obtain ⟨Q, hQ, -, hdv⟩ := polyval_poly d
    have h1 := hmin Q (by
      have := hQ (by rintro rfl; simp at hd)
      omega)
    calc _ = ∑ i ∈ Finset.range y.length, r i ^ 2 := by
          refine Finset.sum_congr rfl fun i hi => ?_
          rw [hr i (Finset.mem_range.1 hi), hcv]
      _ ≤ _ := h1
      _ = _ := by
          refine Finset.sum_congr rfl fun i hi => ?_
          rw [hdv]
  choose fit h1 h2 using this
  exact ⟨fit, fun n y => ⟨h1 n y, h2 n y⟩⟩

/-- What the model subtracts is the closest polynomial. -/
theorem fit_detrended (fit : ℕ → List ℝ → List ℝ) (hf : Fits fit) (n : ℕ) (A : Mat ℝ) (c : ℕ) :
    IsDetrended n A.rows (fun r => A.val r c)
      (fun r => A.val r c - polyval (fit n (colOf A c)) r) := by
  obtain ⟨h1, h2⟩ := hf n (colOf A c)
  obtain ⟨P, hP, -, hPv⟩ := polyval_poly (fit n (colOf A c))
  have hcol : ∀ i < A.rows, (colOf A c).getD i 0 = A.val i c := by
    intro i hi
    rw [List.getD_eq_getElem _ _ (by rw [colOf_length]; exact hi)]
    simp [colOf]
  refine ⟨⟨P, ?_, fun i _ => by beta_reduce; rw [hPv]⟩, fun Q hQ => ?_⟩
  · have := hP (by intro h; rw [h] at h1; simp at h1)
    omega
  · obtain ⟨d, hd, hdv⟩ := poly_polyval n Q hQ
    have h3 := h2 d hd
    rw [colOf_length] at h3
    calc _ = ∑ i ∈ Finset.range A.rows,
            ((colOf A c).getD i 0 - polyval (fit n (colOf A c)) i) ^ 2 := by
          refine Finset.sum_congr rfl fun i hi => ?_
          rw [hcol i (Finset.mem_range.1 hi)]
      _ ≤ _ := h3
      _ = _ := by
          refine Finset.sum_congr rfl fun i hi => ?_
          rw [hcol i (Finset.mem_range.1 hi), hdv]

/-! ### The properties -/

/-- `detrend` never fails and keeps the shape.  In each channel it leaves, up to one common factor for
the whole signal, what remains after the closest polynomial was subtracted.  The factor is 1 unless
the amplitude is constrained and the rest leaves the range. -/
theorem C119_detrend_partial (fit : ℕ → List ℝ → List ℝ) (hf : Fits fit) (s : State ℝ)
    (hs : Shaped s) (n : ℕ) :
    ∃ (t : State ℝ) (r : ℕ → ℕ → ℝ), detrend fit s n = .ok t ∧ t.constrain = s.constrain ∧
      t.HasShape s.re.rows s.re.cols ∧ t.im = none ∧ 0 < t.scale ∧ t.scale ≤ 1 ∧
      (∀ c < s.re.cols, IsDetrended n s.re.rows (fun i => s.sample i c) (r c) ∧
        ∀ i < s.re.rows, t.sample i c = t.scale * r c i) ∧
      (s.constrain = false ∨ (∀ c < s.re.cols, ∀ i < s.re.rows, |r c i| ≤ 1) → t.scale = 1) ∧
      (s.constrain = true → ∀ c < s.re.cols, ∀ i < s.re.rows, |t.sample i c| ≤ 1) ∧
      (t.scale ≠ 1 → ∃ c < s.re.cols, ∃ i < s.re.rows, |t.sample i c| = 1) := by
  obtain ⟨h1, h2, h3⟩ := hs
  set w : Input ℝ := ⟨s.re.rows, s.re.cols,
    fun r c => s.re.val r c - polyval (fit n (colOf s.re c)) r, none⟩ with hw
  have he : detrend fit s n = copyWith s w := by
    unfold detrend detrendData
    rw [if_neg (by simp), if_neg (by omega)]
    rfl
  obtain ⟨t, ht, htc, htsh, htsc, hre, -, hiss⟩ := setData_scaled
    (⟨⟨0, 0, fun _ _ => 0⟩, none, s.constrain, 1⟩ : State ℝ) w h3 (by simp only [hw]; omega) h2
  obtain ⟨pre, -, patt⟩ := C14_peak_is_largest w
  have hpos : 0 < t.scale := by
    rw [htsc]
    split
    · rename_i hp
      exact one_div_pos.2 (lt_trans one_pos hp.2)
    · exact one_pos
  refine ⟨t, fun c r => w.re r c, he.trans ht, htc, htsh, ?_, hpos, ?_, fun c hc => ⟨?_, ?_⟩, ?_, ?_, ?_⟩
  · cases h : t.im with
    | none => rfl
    | some _ => rw [h] at hiss; simp [hw] at hiss
  · rw [htsc]
    split
    · rename_i hp
      rw [one_div]
      exact inv_le_one_of_one_le₀ hp.2.le
    · exact le_rfl
  · have := fit_detrended fit hf n s.re c
    obtain ⟨⟨P, hP, hr⟩, hm⟩ := this
    have hsm : ∀ i < s.re.rows, s.sample i c = s.re.val i c := by
      intro i hi
      simp [State.sample, hi, hc]
    refine ⟨⟨P, hP, fun i hi => ?_⟩, fun Q hQ => ?_⟩
    · beta_reduce; rw [hsm i hi]; exact hr i hi
    · refine (hm Q hQ).trans (le_of_eq (Finset.sum_congr rfl fun i hi => ?_))
      beta_reduce
      rw [hsm i (Finset.mem_range.1 hi)]
  · intro i hi
    exact hre i hi c hc
  · rintro (h | h)
    · rw [htsc, if_neg]
      rintro ⟨h', -⟩
      exact absurd (h.symm.trans h') (by simp)
    · rw [htsc, if_neg]
      rintro ⟨-, h'⟩
      exact absurd h' (not_lt.2 (peak_le_one w (fun r hr c hc => h c hc r hr) (by simp [hw])))
  · intro hcon c hc i hi
    rw [hre i hi c hc, abs_mul, abs_of_pos hpos]
    refine le_trans (mul_le_mul_of_nonneg_left (pre i hi c hc) hpos.le) ?_
    rw [htsc]
    split
    · rename_i hp
      rw [one_div, inv_mul_cancel₀ (by linarith [hp.2])]
    · rename_i hp
      have : ¬ 1 < peak w := fun h => hp ⟨hcon, h⟩
      linarith
  · intro hne
    by_cases hp : s.constrain = true ∧ 1 < peak w
    · rw [if_pos hp] at htsc
      rcases patt with h | ⟨i, hi, c, hc, h | ⟨f, hf', -⟩⟩
      · linarith [hp.2]
      · refine ⟨c, hc, i, hi, ?_⟩
        rw [hre i hi c hc, abs_mul, ← h, abs_of_pos hpos, htsc, one_div,
          inv_mul_cancel₀ (by linarith [hp.2])]
      · simp [hw] at hf'
    · rw [if_neg hp] at htsc
      exact absurd htsc hne

example : (∃ fit, Fits fit) ∧ Shaped ⟨⟨4, 2, fun r c => r * c⟩, none, true, 1⟩ :=
  ⟨exists_fit, by unfold Shaped; simp⟩

/-- What remains is determined by the samples: any two procedures that subtract the closest
polynomial agree. -/
theorem C119_unique (fit fit' : ℕ → List ℝ → List ℝ) (hf : Fits fit) (hf' : Fits fit') (s : State ℝ)
    (hs : Shaped s) (n : ℕ) (t t' : State ℝ) (h : detrend fit s n = .ok t)
    (h' : detrend fit' s n = .ok t') (hc : s.constrain = false) (i c : ℕ) (hi : i < s.re.rows)
    (hcc : c < s.re.cols) : t.sample i c = t'.sample i c := by
  obtain ⟨u, r, hu, -, -, -, -, -, hr, hsc, -, -⟩ := C119_detrend_partial fit hf s hs n
  obtain ⟨u', r', hu', -, -, -, -, -, hr', hsc', -, -⟩ := C119_detrend_partial fit' hf' s hs n
  rw [h] at hu
  rw [h'] at hu'
  obtain rfl := Except.ok.inj hu
  obtain rfl := Except.ok.inj hu'
  rw [(hr c hcc).2 i hi, (hr' c hcc).2 i hi, hsc (.inl hc), hsc' (.inl hc),
    unique n _ _ _ _ (hr c hcc).1 (hr' c hcc).1 i hi]

/-- The result has no moments up to the order of the polynomial: for order 0 no mean, for order 1 no
slope either.  This holds with and without constrained amplitude. -/
theorem C119_moments (fit : ℕ → List ℝ → List ℝ) (hf : Fits fit) (s : State ℝ)
    (hs : Shaped s) (n : ℕ) (t : State ℝ) (h : detrend fit s n = .ok t) (c : ℕ)
    (hc : c < s.re.cols) (k : ℕ) (hk : k ≤ n) :
    ∑ i ∈ Finset.range s.re.rows, t.sample i c * (i : ℝ) ^ k = 0 := by
  obtain ⟨u, r, hu, -, -, -, -, -, hr, hsc, -, -⟩ := C119_detrend_partial fit hf s hs n
  rw [h] at hu
  obtain rfl := Except.ok.inj hu
  have := orthogonal n _ _ _ (hr c hc).1 (X ^ k) (by rw [natDegree_X_pow]; exact hk)
  rw [← mul_zero t.scale, ← this, Finset.mul_sum]
  refine Finset.sum_congr rfl fun i hi => ?_
  rw [(hr c hc).2 i (Finset.mem_range.1 hi)]
  simp
  ring

/-- Polynomials are removed entirely. -/
theorem C119_polynomial (fit : ℕ → List ℝ → List ℝ) (hf : Fits fit) (s : State ℝ)
    (hs : Shaped s) (n : ℕ) (t : State ℝ) (h : detrend fit s n = .ok t) (c : ℕ)
    (hc : c < s.re.cols) (Q : ℝ[X]) (hQ : Q.natDegree ≤ n)
    (hy : ∀ i < s.re.rows, s.sample i c = Q.eval (i : ℝ)) (i : ℕ) (hi : i < s.re.rows) :
    t.sample i c = 0 := by
  obtain ⟨u, r, hu, -, -, -, -, -, hr, hsc, -, -⟩ := C119_detrend_partial fit hf s hs n
  rw [h] at hu
  obtain rfl := Except.ok.inj hu
  have h0 : IsDetrended n s.re.rows (fun i => s.sample i c) fun _ => 0 :=
    of_orthogonal n _ _ _ ⟨Q, hQ, fun i hi => by rw [hy i hi, sub_self]⟩ fun Q hQ => by simp
  rw [(hr c hc).2 i hi, unique n _ _ _ _ (hr c hc).1 h0 i hi, mul_zero]

/-- Signals with no more samples than the polynomial has coefficients are removed entirely. -/
theorem C119_short (fit : ℕ → List ℝ → List ℝ) (hf : Fits fit) (s : State ℝ)
    (hs : Shaped s) (n : ℕ) (hn : s.re.rows ≤ n + 1) (t : State ℝ) (h : detrend fit s n = .ok t)
    (i c : ℕ) (hc : c < s.re.cols) (hi : i < s.re.rows) : t.sample i c = 0 := by
  have hinj : Set.InjOn (fun i : ℕ => (i : ℝ)) (Finset.range s.re.rows : Finset ℕ) :=
    fun a _ b _ hab => Nat.cast_injective hab
  refine C119_polynomial fit hf s hs n t h c hc
    (Lagrange.interpolate (Finset.range s.re.rows) (fun i : ℕ => (i : ℝ)) fun i => s.sample i c)
    ?_ (fun i hi => ?_) i hi
  · have h1 := Lagrange.degree_interpolate_lt (r := fun i => s.sample i c) hinj
    rw [Finset.card_range] at h1
    refine natDegree_le_of_degree_le (Order.lt_succ_iff.1 (lt_of_lt_of_le h1 ?_))
    show ((s.re.rows : ℕ) : WithBot ℕ) ≤ ((n + 1 : ℕ) : WithBot ℕ)
    exact WithBot.coe_le_coe.2 hn
  · exact (Lagrange.eval_interpolate_at_node (r := fun i => s.sample i c) hinj
      (Finset.mem_range.2 hi)).symm

/-- Order 0 removes the mean. -/
theorem C119_mean (fit : ℕ → List ℝ → List ℝ) (hf : Fits fit) (s : State ℝ)
    (hs : Shaped s) (hcon : s.constrain = false) (t : State ℝ) (h : detrend fit s 0 = .ok t)
    (i c : ℕ) (hc : c < s.re.cols) (hi : i < s.re.rows) :
    t.sample i c = s.sample i c - (∑ j ∈ Finset.range s.re.rows, s.sample j c) / s.re.rows := by
  obtain ⟨u, r, hu, -, -, -, -, -, hr, hsc, -, -⟩ := C119_detrend_partial fit hf s hs 0
  rw [show ((0 : ℕ) : ℤ) = 0 from rfl, h] at hu
  obtain rfl := Except.ok.inj hu
  have hN : (s.re.rows : ℝ) ≠ 0 := by
    have := hs.1
    positivity
  have h0 : IsDetrended 0 s.re.rows (fun i => s.sample i c)
      fun i => s.sample i c - (∑ j ∈ Finset.range s.re.rows, s.sample j c) / s.re.rows := by
    refine of_orthogonal 0 _ _ _ ⟨C ((∑ j ∈ Finset.range s.re.rows, s.sample j c) / s.re.rows),
      by simp, fun i _ => by simp⟩ fun Q hQ => ?_
    rw [eq_C_of_natDegree_le_zero hQ]
    simp only [eval_C]
    rw [← Finset.sum_mul, Finset.sum_sub_distrib, Finset.sum_const, Finset.card_range, nsmul_eq_mul,
      mul_div_cancel₀ _ hN, sub_self, zero_mul]
  rw [(hr c hc).2 i hi, unique 0 _ _ _ _ (hr c hc).1 h0 i hi, hsc (.inl hcon), one_mul]

/-- Detrending twice is detrending once, with the same order or a lower one. -/
theorem C119_idempotent (fit : ℕ → List ℝ → List ℝ) (hf : Fits fit) (s : State ℝ)
    (hs : Shaped s) (m n : ℕ) (hmn : m ≤ n) (t u : State ℝ) (h : detrend fit s n = .ok t)
    (hu : detrend fit t m = .ok u) (i c : ℕ) (hc : c < s.re.cols) (hi : i < s.re.rows) :
    u.sample i c = t.sample i c := by
  obtain ⟨t', r, ht', htc, ⟨ht1, ht2⟩, -, hp, -, hr, -, hb, -⟩ := C119_detrend_partial fit hf s hs n
  rw [h] at ht'
  obtain rfl := Except.ok.inj ht'
  have hst : Shaped t := by
    unfold Shaped
    rw [ht1, ht2]
    exact hs
  obtain ⟨u', q, hu', -, -, -, -, -, hq, hsc, -, -⟩ := C119_detrend_partial fit hf t hst m
  rw [hu] at hu'
  obtain rfl := Except.ok.inj hu'
  rw [ht1, ht2] at hq hsc
  have h0 : ∀ c < s.re.cols, IsDetrended m s.re.rows (fun i => t.sample i c) fun i => t.sample i c := by
    intro c hc
    refine of_orthogonal m _ _ _ ⟨0, by simp, fun i _ => by simp⟩ fun Q hQ => ?_
    have := orthogonal n _ _ _ (hr c hc).1 Q (hQ.trans hmn)
    rw [← mul_zero t.scale, ← this, Finset.mul_sum]
    refine Finset.sum_congr rfl fun i hi => ?_
    rw [(hr c hc).2 i (Finset.mem_range.1 hi), mul_assoc]
  have h1 : ∀ c < s.re.cols, ∀ i < s.re.rows, q c i = t.sample i c :=
    fun c hc i hi => unique m _ _ _ _ (hq c hc).1 (h0 c hc) i hi
  have h2 : u.scale = 1 := by
    refine hsc ?_
    by_cases hcon : s.constrain = true
    · right
      intro c hc i hi
      rw [h1 c hc i hi]
      exact hb hcon c hc i hi
    · left
      rw [htc]
      simpa using hcon
  rw [(hq c hc).2 i hi, h2, one_mul, h1 c hc i hi]

/-- Detrending is linear. -/
theorem C119_linear (fit : ℕ → List ℝ → List ℝ) (hf : Fits fit) (x y z : State ℝ)
    (hx : Shaped x) (hy : Shaped y) (hz : Shaped z) (hcx : x.constrain = false)
    (hcy : y.constrain = false) (hcz : z.constrain = false)
    (hxy : y.re.rows = x.re.rows) (hxz : z.re.rows = x.re.rows) (a b : ℝ) (c d e : ℕ)
    (hc : c < x.re.cols) (hd : d < y.re.cols) (he : e < z.re.cols)
    (hsum : ∀ i < x.re.rows, z.sample i e = a * x.sample i c + b * y.sample i d) (n : ℕ)
    (tx ty tz : State ℝ) (h1 : detrend fit x n = .ok tx) (h2 : detrend fit y n = .ok ty)
    (h3 : detrend fit z n = .ok tz) (i : ℕ) (hi : i < x.re.rows) :
    tz.sample i e = a * tx.sample i c + b * ty.sample i d := by
  obtain ⟨tx', rx, ex, -, -, -, -, -, hrx, hscx, -, -⟩ := C119_detrend_partial fit hf x hx n
  obtain ⟨ty', ry, ey, -, -, -, -, -, hry, hscy, -, -⟩ := C119_detrend_partial fit hf y hy n
  obtain ⟨tz', rz, ez, -, -, -, -, -, hrz, hscz, -, -⟩ := C119_detrend_partial fit hf z hz n
  rw [h1] at ex
  rw [h2] at ey
  rw [h3] at ez
  obtain rfl := Except.ok.inj ex
  obtain rfl := Except.ok.inj ey
  obtain rfl := Except.ok.inj ez
  have kx := hrx c hc
  have ky := hry d hd
  have kz := hrz e he
  rw [hxy] at ky
  rw [hxz] at kz
  have h0 : IsDetrended n x.re.rows (fun i => z.sample i e) fun i => a * rx c i + b * ry d i := by
    obtain ⟨⟨P, hP, hPr⟩, -⟩ := id kx.1
    obtain ⟨⟨Q, hQ, hQr⟩, -⟩ := id ky.1
    refine of_orthogonal n _ _ _ ⟨C a * P + C b * Q, ?_, fun i hi => ?_⟩ fun R hR => ?_
    · exact (natDegree_add_le _ _).trans (max_le ((natDegree_C_mul_le _ _).trans hP)
        ((natDegree_C_mul_le _ _).trans hQ))
    · rw [hsum i hi, hPr i hi, hQr i hi]
      simp only [eval_add, eval_mul, eval_C]
      ring
    · have o1 := orthogonal n _ _ _ kx.1 R hR
      have o2 := orthogonal n _ _ _ ky.1 R hR
      have : ∑ i ∈ Finset.range x.re.rows, (a * rx c i + b * ry d i) * R.eval (i : ℝ) =
          a * ∑ i ∈ Finset.range x.re.rows, rx c i * R.eval (i : ℝ) +
          b * ∑ i ∈ Finset.range x.re.rows, ry d i * R.eval (i : ℝ) := by
        rw [Finset.mul_sum, Finset.mul_sum, ← Finset.sum_add_distrib]
        exact Finset.sum_congr rfl fun i _ => by ring
      rw [this, o1, o2, mul_zero, mul_zero, add_zero]
  rw [kz.2 i hi, kx.2 i hi, ky.2 i hi, hscx (.inl hcx), hscy (.inl hcy), hscz (.inl hcz), one_mul,
    one_mul, one_mul, unique n _ _ _ _ kz.1 h0 i hi]

/-- A higher order never leaves more energy; order 0 never more than the signal has. -/
theorem C119_energy (fit : ℕ → List ℝ → List ℝ) (hf : Fits fit) (s : State ℝ) (hs : Shaped s)
    (hcon : s.constrain = false) (m n : ℕ) (hmn : m ≤ n) (t u : State ℝ)
    (h : detrend fit s m = .ok t) (hu : detrend fit s n = .ok u) (c : ℕ) (hc : c < s.re.cols) :
    ∑ i ∈ Finset.range s.re.rows, u.sample i c ^ 2 ≤ ∑ i ∈ Finset.range s.re.rows, t.sample i c ^ 2 ∧
    ∑ i ∈ Finset.range s.re.rows, t.sample i c ^ 2 ≤
      ∑ i ∈ Finset.range s.re.rows, s.sample i c ^ 2 := by
  obtain ⟨t', r, ht', -, -, -, -, -, hr, hsc, -, -⟩ := C119_detrend_partial fit hf s hs m
  obtain ⟨u', q, hu', -, -, -, -, -, hq, hsc', -, -⟩ := C119_detrend_partial fit hf s hs n
  rw [h] at ht'
  rw [hu] at hu'
  obtain rfl := Except.ok.inj ht'
  obtain rfl := Except.ok.inj hu'
  have e1 : ∑ i ∈ Finset.range s.re.rows, t.sample i c ^ 2 =
      ∑ i ∈ Finset.range s.re.rows, r c i ^ 2 := by
    refine Finset.sum_congr rfl fun i hi => ?_
    rw [(hr c hc).2 i (Finset.mem_range.1 hi), hsc (.inl hcon), one_mul]
  have e2 : ∑ i ∈ Finset.range s.re.rows, u.sample i c ^ 2 =
      ∑ i ∈ Finset.range s.re.rows, q c i ^ 2 := by
    refine Finset.sum_congr rfl fun i hi => ?_
    rw [(hq c hc).2 i (Finset.mem_range.1 hi), hsc' (.inl hcon), one_mul]
  rw [e1, e2]
  constructor
  · obtain ⟨P, hP, hPr⟩ := (hr c hc).1.1
    refine ((hq c hc).1.2 P (hP.trans hmn)).trans (le_of_eq (Finset.sum_congr rfl fun i hi => ?_))
    rw [hPr i (Finset.mem_range.1 hi)]
  · have := (hr c hc).1.2 0 (by simp)
    simpa using this

/-- Negative orders are refused. -/
theorem C119_rejects (fit : ℕ → List ℝ → List ℝ) (s : State ℝ) (n : ℤ) (hn : n < 0) :
    detrend fit s n = .error .assertionError := by
  unfold detrend
  rw [if_pos (by omega)]

/-! ### Constrained amplitude -/

/-- Five samples in the range of a signal. -/
def notch (constrain : Bool) : State ℝ := ⟨⟨5, 1, fun r _ => if r = 2 then -1 else 1⟩, none, constrain, 1⟩

theorem notch_shaped (b : Bool) : Shaped (notch b) := by
  refine ⟨?_, ?_, ?_⟩ <;> simp [notch]

theorem notch_detrended : IsDetrended 1 5 (fun i => (notch true).sample i 0)
    fun i => if i = 2 then -1.6 else 0.4 := by
  have hv : ∀ i < 5, (notch true).sample i 0 = if i = 2 then -1 else 1 := by
    intro i hi
    simp [State.sample, notch, hi]
  refine of_orthogonal 1 5 _ _ ⟨C 0.6, by simp, fun i hi => ?_⟩ fun Q hQ => ?_
  · rw [hv i hi, eval_C]
    split_ifs <;> norm_num
  · rw [eq_X_add_C_of_natDegree_le_one hQ]
    simp [Finset.sum_range_succ]
    ring

/-- A signal within the range whose rest is not: the result is not the rest but scaled down. -/
theorem C119_scaled_wrong (fit : ℕ → List ℝ → List ℝ) (hf : Fits fit) :
    ∃ t, detrend fit (notch true) 1 = .ok t ∧
      (∀ i < 5, |(notch true).sample i 0| ≤ 1) ∧
      ¬ IsDetrended 1 5 (fun i => (notch true).sample i 0) (fun i => t.sample i 0) ∧
      t.sample 2 0 = -1 ∧ t.sample 0 0 = 0.25 := by
  obtain ⟨t, r, ht, -, -, -, hp, hp1, hr, -, hb, hatt⟩ := C119_detrend_partial fit hf _ (notch_shaped true) 1
  have h0 := hr 0 (by simp [notch])
  have h1 : ∀ i < 5, r 0 i = if i = 2 then -1.6 else 0.4 :=
    fun i hi => unique 1 5 _ _ _ h0.1 notch_detrended i hi
  have hsc : t.scale = 1 / 1.6 := by
    have h2 := hb rfl 0 (by simp [notch]) 2 (by simp [notch])
    rw [h0.2 2 (by simp [notch]), h1 2 (by norm_num), if_pos rfl, abs_mul, abs_of_pos hp] at h2
    norm_num at h2
    obtain ⟨c, hc, i, hi, h3⟩ := hatt (by
      intro h
      rw [h] at h2
      norm_num at h2)
    obtain rfl : c = 0 := by simpa [notch] using hc
    have hi' : i < 5 := hi
    rw [h0.2 i hi, h1 i hi', abs_mul, abs_of_pos hp] at h3
    split_ifs at h3
    · norm_num at h3 ⊢
      linarith
    · norm_num at h3
      linarith
  have e2 : t.sample 2 0 = -1 := by
    rw [h0.2 2 (by simp [notch]), h1 2 (by norm_num), hsc]
    norm_num
  refine ⟨t, ht, fun i hi => ?_, fun h => ?_, e2, ?_⟩
  · simp only [State.sample, notch, hi, Nat.zero_lt_one, and_self, if_true]
    split_ifs <;> norm_num
  · have := unique 1 5 _ _ _ h notch_detrended 2 (by norm_num)
    beta_reduce at this
    rw [e2] at this
    norm_num at this
  · rw [h0.2 0 (by simp [notch]), h1 0 (by norm_num), hsc]
    norm_num

/-! ### Envelopes -/

/-- The RMS envelope: the root of the mean of the squares of the last `w` samples of the signal without
its linear trend; samples before the beginning are zero. -/
theorem C119_rms (fit : ℕ → List ℝ → List ℝ) (s t : State ℝ) (h : detrend fit s 1 = .ok t)
    (w : ℕ) (hw : 0 < w) :
    ∃ E, envelopeRms fit s (some w) = .ok E ∧ E.rows = t.re.rows ∧ E.cols = t.re.cols ∧
      ∀ i < t.re.rows, ∀ c < t.re.cols, 0 ≤ E.val i c ∧
        E.val i c ^ 2 = (∑ j ∈ Finset.Ico (i + 1 - w) (i + 1), t.sample j c ^ 2) / w := by
  unfold envelopeRms
  simp only [h]
  rw [if_neg (by omega)]
  refine ⟨_, rfl, rfl, rfl, fun i hi c hc => ?_⟩
  have hn : 0 ≤ ∑ k ∈ Finset.range (i + 1), t.re.val (i - k) c ^ 2 *
      (if k < (w : ℤ).toNat then 1 / (((w : ℤ) : ℝ)) else 0) := by
    refine Finset.sum_nonneg fun k _ => mul_nonneg (sq_nonneg _) ?_
    split_ifs
    · positivity
    · exact le_rfl
  refine ⟨Real.rpow_nonneg hn _, ?_⟩
  dsimp only
  rw [show (0.5 : ℝ) = 1 / 2 by norm_num, ← Real.sqrt_eq_rpow, Real.sq_sqrt hn, Finset.sum_div]
  rw [← Finset.sum_range_reflect]
  simp only [mul_ite, mul_zero, ← Finset.sum_filter]
  refine Finset.sum_congr ?_ fun j hj => ?_
  · ext j
    simp only [Finset.mem_filter, Finset.mem_range, Finset.mem_Ico, Int.toNat_natCast]
    omega
  · have hj' := Finset.mem_Ico.1 hj
    rw [show i - (i + 1 - 1 - j) = j by omega]
    simp only [State.sample, hc, and_true, if_pos (show j < t.re.rows by omega)]
    push_cast
    ring

/-- A window of one sample gives the absolute values. -/
theorem C119_rms_one (fit : ℕ → List ℝ → List ℝ) (s t : State ℝ) (h : detrend fit s 1 = .ok t) :
    ∃ E, envelopeRms fit s (some 1) = .ok E ∧
      ∀ i < t.re.rows, ∀ c < t.re.cols, E.val i c = |t.sample i c| := by
  obtain ⟨E, hE, -, -, hv⟩ := C119_rms fit s t h 1 one_pos
  refine ⟨E, hE, fun i hi c hc => ?_⟩
  obtain ⟨h0, h1⟩ := hv i hi c hc
  rw [show i + 1 - 1 = i from rfl] at h1
  simp only [Nat.Ico_succ_singleton, Finset.sum_singleton, Nat.cast_one, div_one] at h1
  rw [← abs_of_nonneg h0]
  exact (sq_eq_sq_iff_abs_eq_abs _ _).1 h1

/-- The RMS envelope stays below the largest absolute value in the window. -/
theorem C119_rms_bound (fit : ℕ → List ℝ → List ℝ) (s t : State ℝ) (h : detrend fit s 1 = .ok t)
    (w : ℕ) (hw : 0 < w) (E : Mat ℝ) (hE : envelopeRms fit s (some w) = .ok E) (i c : ℕ)
    (hi : i < t.re.rows) (hc : c < t.re.cols) (M : ℝ)
    (hM : ∀ j, i + 1 - w ≤ j → j ≤ i → |t.sample j c| ≤ M) : E.val i c ≤ M := by
  obtain ⟨E', hE', -, -, hv⟩ := C119_rms fit s t h w hw
  rw [hE] at hE'
  obtain rfl := Except.ok.inj hE'
  obtain ⟨h0, h1⟩ := hv i hi c hc
  have hM0 : 0 ≤ M := (abs_nonneg _).trans (hM i (by omega) le_rfl)
  have hw' : (0 : ℝ) < w := by exact_mod_cast hw
  refine le_of_sq_le_sq ?_ hM0 |> fun h => h
  rw [h1, div_le_iff₀ hw']
  calc _ ≤ ∑ j ∈ Finset.Ico (i + 1 - w) (i + 1), M ^ 2 := by
        refine Finset.sum_le_sum fun j hj => ?_
        have hj' := Finset.mem_Ico.1 hj
        rw [← sq_abs]
        exact pow_le_pow_left₀ (abs_nonneg _) (hM j hj'.1 (by omega)) 2
    _ = ((i + 1 - (i + 1 - w) : ℕ) : ℝ) * M ^ 2 := by
        rw [Finset.sum_const, Nat.card_Ico, nsmul_eq_mul]
    _ ≤ M ^ 2 * w := by
        rw [mul_comm]
        gcongr
        omega

/-- The RMS envelope needs a positive window length. -/
theorem C119_rms_rejects (fit : ℕ → List ℝ → List ℝ) (s t : State ℝ) (h : detrend fit s 1 = .ok t)
    (w : Option ℤ) (hw : ∀ v, w = some v → v ≤ 0) :
    envelopeRms fit s w = .error .assertionError := by
  unfold envelopeRms
  simp only [h]
  cases w with
  | none => rfl
  | some v =>
    have := hw v rfl
    simp only
    rw [if_pos (by omega)]

/-- The analytic envelope is never below the absolute value of the signal without its linear trend. -/
theorem C119_analytic (fit : ℕ → List ℝ → List ℝ) (s t : State ℝ) (h : detrend fit s 1 = .ok t) :
    ∃ E, envelopeAnalytic fit s = .ok E ∧ E.rows = t.re.rows ∧ E.cols = t.re.cols ∧
      ∀ i < t.re.rows, ∀ c < t.re.cols, |t.sample i c| ≤ E.val i c := by
  unfold envelopeAnalytic
  simp only [h]
  refine ⟨_, rfl, rfl, rfl, fun i hi c hc => ?_⟩
  have h1 := Props.C66.C66_real_part t.re.rows (fun n => t.re.val n c) i hi
  have h2 := Complex.abs_re_le_norm (Transforms.analytic t.re.rows (fun n => t.re.val n c) i)
  rw [h1] at h2
  simpa [State.sample, hi, hc] using h2

/-- The envelope of a signal of constrained amplitude may be the one of a scaled signal. -/
theorem C119_envelope_wrong (fit : ℕ → List ℝ → List ℝ) (hf : Fits fit) :
    ∃ E F, envelopeRms fit (notch true) (some 1) = .ok E ∧
      envelopeRms fit (notch false) (some 1) = .ok F ∧ E.val 2 0 = 1 ∧ F.val 2 0 = 1.6 := by
  obtain ⟨t, ht, -, -, h2, -⟩ := C119_scaled_wrong fit hf
  obtain ⟨u, r, hu, -, ⟨hu1, hu2⟩, -, -, -, hr, hsc, -, -⟩ :=
    C119_detrend_partial fit hf _ (notch_shaped false) 1
  obtain ⟨t', r', ht', -, ⟨ht1, ht2⟩, -⟩ := C119_detrend_partial fit hf _ (notch_shaped true) 1
  rw [Nat.cast_one] at hu ht'
  rw [ht] at ht'
  obtain rfl := Except.ok.inj ht'
  obtain ⟨E, hE, hEv⟩ := C119_rms_one fit _ t ht
  obtain ⟨F, hF, hFv⟩ := C119_rms_one fit _ u hu
  refine ⟨E, F, hE, hF, ?_, ?_⟩
  · rw [hEv 2 (by rw [ht1]; simp [notch]) 0 (by rw [ht2]; simp [notch]), h2]
    norm_num
  · have h0 := hr 0 (by simp [notch])
    have h1 := unique 1 5 _ _ _ h0.1 notch_detrended 2 (by norm_num)
    rw [hFv 2 (by rw [hu1]; simp [notch]) 0 (by rw [hu2]; simp [notch]), h0.2 2 (by simp [notch]), h1,
      hsc (.inl rfl)]
    norm_num

end Verif.Detrend

import Verif.Model.CSM
import Verif.Props.C21
import Mathlib.Analysis.SpecialFunctions.Trigonometric.Basic
import Mathlib.Tactic.FieldSimp
import Mathlib.Tactic.LinearCombination
import Mathlib.Algebra.BigOperators.Ring.Finset

/-!
# C43: the cross-spectral matrix is Hermitian and positive semidefinite
-/

namespace Verif.CSM

open Complex Scaling Finset

/-- Hermitian, with real non-negative diagonal. -/
def Hermitian (C : ℕ → ℕ → ℂ) : Prop := ∀ r c, C c r = (starRingEnd ℂ) (C r c)

/-- The quadratic form `vᴴ C v` is real and non-negative for all vectors. -/
def PosSemidef (n : ℕ) (C : ℕ → ℕ → ℂ) : Prop :=
  ∀ v : ℕ → ℂ, ∃ q : ℝ, 0 ≤ q ∧
    ∑ r ∈ range n, ∑ c ∈ range n, (starRingEnd ℂ) (v r) * C r c * v c = (q : ℂ)

/-- The diagonal is real and non-negative. -/
def DiagNonneg (n : ℕ) (C : ℕ → ℕ → ℂ) : Prop := ∀ r < n, ∃ q : ℝ, 0 ≤ q ∧ C r r = (q : ℂ)

theorem assemble_hermitian (E : ℕ → ℕ → ℂ) : Hermitian (assemble E) := by
  intro r c
  unfold assemble
  rw [map_add, conj_conj, add_comm]

/-- If the two orders of the channels agree up to conjugation, the assembled matrix holds the
given products. -/
theorem assemble_eq (E : ℕ → ℕ → ℂ) (h : ∀ i j, E j i = (starRingEnd ℂ) (E i j)) (r c : ℕ) :
    assemble E r c = E c r := by
  unfold assemble lower
  rcases lt_trichotomy c r with hc | hc | hc
  · rw [if_pos hc, if_neg (by omega), if_neg (by omega), map_zero, add_zero]
  · subst hc
    rw [if_neg (lt_irrefl c), if_pos rfl, map_mul, ← h c c]
    have : (starRingEnd ℂ) (0.5 : ℂ) = 0.5 := by
      have h5 : (0.5 : ℂ) = ((0.5 : ℝ) : ℂ) := by push_cast; norm_num
      rw [h5, conj_ofReal]
    rw [this]
    ring
  · rw [if_neg (by omega), if_neg (by omega), if_pos hc, zero_add, ← h r c]

theorem posSemidef_smul (n : ℕ) (C D : ℕ → ℕ → ℂ) (a : ℝ) (ha : 0 ≤ a)
    (h : ∀ r c, D r c = C r c * a) (hC : PosSemidef n C) : PosSemidef n D := by
  intro v
  obtain ⟨q, hq, he⟩ := hC v
  refine ⟨q * a, mul_nonneg hq ha, ?_⟩
  rw [ofReal_mul, ← he, Finset.sum_mul]
  refine Finset.sum_congr rfl fun r _ => ?_
  rw [Finset.sum_mul]
  refine Finset.sum_congr rfl fun c _ => ?_
  rw [h]
  ring

theorem posSemidef_diag (n : ℕ) (C : ℕ → ℕ → ℂ) (h : PosSemidef n C) : DiagNonneg n C := by
  intro r hr
  obtain ⟨q, hq, he⟩ := h fun i => if i = r then 1 else 0
  refine ⟨q, hq, ?_⟩
  rw [← he, Finset.sum_eq_single r]
  · rw [Finset.sum_eq_single r]
    · simp
    · intro c _ hc
      simp [hc]
    · intro hn
      exact absurd (mem_range.mpr hr) hn
  · intro i _ hi
    refine Finset.sum_eq_zero fun c _ => ?_
    simp [hi]
  · intro hn
    exact absurd (mem_range.mpr hr) hn

/-- The matrix `Σ_f X_f X_fᴴ` of a list of vectors is positive semidefinite. -/
theorem posSemidef_gram (n : ℕ) {F : Type} (l : List F) (X : F → ℕ → ℂ) (C : ℕ → ℕ → ℂ)
    (h : ∀ r < n, ∀ c < n, C r c = (l.map fun f => (starRingEnd ℂ) (X f c) * X f r).sum) :
    PosSemidef n C := by
  intro v
  refine ⟨(l.map fun f => ‖∑ r ∈ range n, (starRingEnd ℂ) (v r) * X f r‖ ^ 2).sum, ?_, ?_⟩
  · refine List.sum_nonneg fun q hq => ?_
    obtain ⟨f, _, rfl⟩ := List.mem_map.mp hq
    positivity
  · have h1 : ∑ r ∈ range n, ∑ c ∈ range n, (starRingEnd ℂ) (v r) * C r c * v c =
        ∑ r ∈ range n, ∑ c ∈ range n, (starRingEnd ℂ) (v r) *
          (l.map fun f => (starRingEnd ℂ) (X f c) * X f r).sum * v c :=
      Finset.sum_congr rfl fun r hr => Finset.sum_congr rfl fun c hc => by
        rw [h r (mem_range.mp hr) c (mem_range.mp hc)]
    rw [h1]
    clear h h1
    induction l with
    | nil => simp
    | cons f l ih =>
      simp only [List.map_cons, List.sum_cons, ofReal_add]
      rw [← ih]
      have h2 : ((‖∑ r ∈ range n, (starRingEnd ℂ) (v r) * X f r‖ ^ 2 : ℝ) : ℂ) =
          ∑ r ∈ range n, ∑ c ∈ range n,
            (starRingEnd ℂ) (v r) * ((starRingEnd ℂ) (X f c) * X f r) * v c := by
        rw [← Complex.normSq_eq_norm_sq, ← Complex.mul_conj, map_sum, Finset.sum_mul_sum]
        refine Finset.sum_congr rfl fun r _ => Finset.sum_congr rfl fun c _ => ?_
        rw [map_mul, conj_conj]
        ring
      rw [h2, ← Finset.sum_add_distrib]
      refine Finset.sum_congr rfl fun r _ => ?_
      rw [← Finset.sum_add_distrib]
      refine Finset.sum_congr rfl fun c _ => ?_
      ring

/-! ### Welch -/

theorem factor_nonneg (s : Scaling) (hs : s.isAmplitude = false) (N fs : ℕ)
    (w : Option (List ℝ)) : 0 ≤ factor s N fs w := by
  have h2 : ∀ a : ℝ, 0 ≤ a ^ (2 : ℝ) := fun a => by
    rw [Real.rpow_two]
    positivity
  cases s <;> simp [Scaling.isAmplitude] at hs <;> simp only [factor, Scaling.isAmplitude] <;>
    exact h2 _

/-- The scaling of the periodogram for power scalings is a non-negative factor. -/
theorem welchScale_power (p : Params) (s : Scaling) (hs : s.isAmplitude = false) (k : ℕ) :
    ∃ a : ℝ, 0 ≤ a ∧ ∀ c, welchScale p s k c = c * a := by
  have hf := factor_nonneg s hs p.W p.fs (some p.window)
  by_cases h : physical s = true ∧ (k = 0 ∨ k = p.W / 2)
  · refine ⟨factor s p.W p.fs (some p.window) / 2, by positivity, fun c => ?_⟩
    unfold welchScale
    simp only [hs, if_pos h, if_pos h.1, Bool.false_eq_true, if_false]
    push_cast
    ring
  · by_cases hp : physical s = true
    · refine ⟨factor s p.W p.fs (some p.window), hf, fun c => ?_⟩
      unfold welchScale
      simp only [hs, if_neg h, if_pos hp]
      simp
    · refine ⟨1, zero_le_one, fun c => ?_⟩
      unfold welchScale
      simp only [hs, if_neg h, if_neg hp]
      simp

/-- Frames of a channel are numbered alike for all channels. -/
theorem zipWith_eq_range (f : List ℝ → List ℝ → ℂ) (l m : List (List ℝ))
    (h : l.length = m.length) :
    List.zipWith f l m = (List.range l.length).map fun t => f (l.getD t []) (m.getD t []) := by
  refine List.ext_getElem ?_ ?_
  · simp [h]
  · intro i h1 h2
    simp only [List.length_zipWith] at h1
    have hl : i < l.length := by omega
    have hm : i < m.length := by omega
    simp [List.getElem_zipWith, hl, hm]

theorem map_eq_range (f : List ℝ → ℂ) (l : List (List ℝ)) :
    l.map f = (List.range l.length).map fun t => f (l.getD t []) := by
  refine List.ext_getElem ?_ ?_
  · simp
  · intro i h1 h2
    have hl : i < l.length := by simpa using h1
    simp [hl]

theorem frames_length (p : Params) (hstep : 0 < p.step) (x y : List ℝ)
    (h : x.length = y.length) : (frames p x).length = (frames p y).length := by
  have key : ∀ z : List ℝ, ∃ n : ℕ, (n - 1) * p.step < z.length + 1 ∧ z.length ≤ n * p.step ∧
      (0 < n → (n - 1) * p.step < z.length) ∧ (frames p z).length = n := by
    intro z
    obtain ⟨l, hl, _, _, hlt, hle⟩ := Framing.C21_keep z p.W p.step hstep
    refine ⟨l.length, ?_, hle, ?_, ?_⟩
    · rcases Nat.eq_zero_or_pos l.length with h0 | h0
      · rw [h0]
        simp
      · have := hlt (l.length - 1) (by omega)
        omega
    · intro h0
      exact hlt (l.length - 1) (by omega)
    · unfold frames
      rw [hl]
  obtain ⟨n, _, hn2, hn3, hn⟩ := key x
  obtain ⟨m, _, hm2, hm3, hm⟩ := key y
  rw [hn, hm]
  rw [h] at hn2 hn3
  rcases lt_trichotomy n m with hlt | heq | hlt
  · have h1 := hm3 (by omega)
    have : n * p.step ≤ (m - 1) * p.step := Nat.mul_le_mul_right _ (by omega)
    omega
  · exact heq
  · have h1 := hn3 (by omega)
    have : m * p.step ≤ (n - 1) * p.step := Nat.mul_le_mul_right _ (by omega)
    omega

theorem step_pos (p : Params) (L : ℕ) (h : check p L = none) : 0 < p.step := by
  unfold check at h
  split_ifs at h with h1 h2
  obtain ⟨e, _, he, hW⟩ := h1
  unfold Params.step
  have hpos : 0 < p.W := by
    rw [hW]
    positivity
  have : p.overlap * p.W / 100 < p.W := by
    rw [Nat.div_lt_iff_lt_mul (by norm_num), mul_comm p.W]
    exact Nat.mul_lt_mul_of_pos_right h2 hpos
  omega

/-- The matrix computed with Welch's method is Hermitian for all scalings and averages. -/
theorem C43_welch_hermitian (p : Params) (s : Scaling) (n L : ℕ) (x : ℕ → List ℝ)
    (C : ℕ → ℕ → ℕ → ℂ) (h : csmWelch p s n L x = .ok C) (k : ℕ) : Hermitian (C k) := by
  unfold csmWelch at h
  split at h
  · cases h
  · cases h
    exact assemble_hermitian _

/-- With the mean over frames and a power scaling it is positive semidefinite with real,
non-negative diagonal. -/
theorem C43_welch_posSemidef_partial (p : Params) (s : Scaling) (hs : s.isAmplitude = false)
    (ha : p.average = .mean) (n L : ℕ) (x : ℕ → List ℝ) (hx : ∀ i < n, (x i).length = L)
    (C : ℕ → ℕ → ℕ → ℂ) (h : csmWelch p s n L x = .ok C) (k : ℕ) :
    PosSemidef n (C k) ∧ DiagNonneg n (C k) := by
  suffices hp : PosSemidef n (C k) from ⟨hp, posSemidef_diag n _ hp⟩
  rcases Nat.eq_zero_or_pos n with hn | hn
  · subst hn
    intro v
    exact ⟨0, le_rfl, by simp⟩
  unfold csmWelch at h
  rw [if_neg (by omega)] at h
  split at h
  · cases h
  rename_i hcheck
  cases h
  have hstep := step_pos p L hcheck
  obtain ⟨a, ha0, hscale⟩ := welchScale_power p s hs k
  -- all channels have the same number of frames
  set m := (frames p (x 0)).length with hm
  have hlen : ∀ i < n, (frames p (x i)).length = m := fun i hi =>
    frames_length p hstep _ _ ((hx i hi).trans (hx 0 hn).symm)
  set X : ℕ → ℕ → ℂ := fun t i => frameBin p s ((frames p (x i)).getD t []) k with hX
  have hprod : ∀ i < n, ∀ j < n, products p s (x i) (if i ≠ j then some (x j) else none) k =
      (List.range m).map fun t => (starRingEnd ℂ) (X t i) * X t j := by
    intro i hi j hj
    by_cases hij : i = j
    · subst hij
      rw [if_neg (by simp)]
      simp only [products]
      rw [map_eq_range (fun f => ((‖frameBin p s f k‖ ^ 2 : ℝ) : ℂ)), hlen i hi]
      refine List.map_congr_left fun t _ => ?_
      rw [← Complex.normSq_eq_norm_sq, Complex.normSq_eq_conj_mul_self]
    · rw [if_pos hij]
      simp only [products]
      rw [zipWith_eq_range _ _ _ ((hlen i hi).trans (hlen j hj).symm), hlen i hi]
  have hE : ∀ i < n, ∀ j < n, welch p s (x i) (if i ≠ j then some (x j) else none) k =
      ((List.range m).map fun t => (starRingEnd ℂ) (X t i) * X t j).sum * ((a / m : ℝ) : ℂ) := by
    intro i hi j hj
    unfold welch
    rw [hscale, ha, hprod i hi j hj]
    simp only [averaged, List.length_map, List.length_range]
    push_cast
    ring
  -- replace the entries by the ones of a Gram matrix on all indices
  have hentry : ∀ r < n, ∀ c < n, assemble (fun i j =>
      welch p s (x i) (if i ≠ j then some (x j) else none) k) r c =
      ((List.range m).map fun t => (starRingEnd ℂ) (X t c) * X t r).sum * ((a / m : ℝ) : ℂ) := by
    intro r hr c hc
    set G : ℕ → ℕ → ℂ := fun i j =>
      ((List.range m).map fun t => (starRingEnd ℂ) (X t i) * X t j).sum * ((a / m : ℝ) : ℂ) with hG
    have hsym : ∀ i j, G j i = (starRingEnd ℂ) (G i j) := by
      intro i j
      simp only [hG, map_mul, conj_ofReal, map_list_sum, List.map_map]
      congr 2
      refine List.map_congr_left fun t _ => ?_
      simp only [Function.comp, map_mul, conj_conj]
      ring
    show _ = G c r
    rw [← assemble_eq G hsym r c]
    have hl : ∀ r < n, ∀ c < n, lower (fun i j =>
        welch p s (x i) (if i ≠ j then some (x j) else none) k) r c = lower G r c := by
      intro r hr c hc
      unfold lower
      simp only [hE c hc r hr]
      rfl
    unfold assemble
    rw [hl r hr c hc, hl c hc r hr]
  intro v
  have hgram := posSemidef_smul n
    (fun r c => ((List.range m).map fun t => (starRingEnd ℂ) (X t c) * X t r).sum)
    (fun r c => ((List.range m).map fun t => (starRingEnd ℂ) (X t c) * X t r).sum *
      ((a / m : ℝ) : ℂ)) (a / m) (by positivity) (fun _ _ => rfl)
    (posSemidef_gram n (List.range m) X _ fun _ _ _ _ => rfl)
  obtain ⟨q, hq, he⟩ := hgram v
  refine ⟨q, hq, ?_⟩
  rw [← he]
  refine Finset.sum_congr rfl fun r hr => Finset.sum_congr rfl fun c hc => ?_
  simp only [hentry r (mem_range.mp hr) c (mem_range.mp hc)]

/-- A signal with at least two frames is accepted. -/
theorem C43_welch_accepts (p : Params) (s : Scaling) (e : ℕ) (he : 3 ≤ e) (he' : e ≤ 18)
    (hW : p.W = 2 ^ e) (ho : p.overlap < 100) (n L : ℕ) (hL : p.step < L) (x : ℕ → List ℝ) :
    ∃ C, csmWelch p s n L x = .ok C := by
  have hstep : 0 < p.step := by
    unfold Params.step
    have hpos : 0 < p.W := by
      rw [hW]
      positivity
    have : p.overlap * p.W / 100 < p.W := by
      rw [Nat.div_lt_iff_lt_mul (by norm_num), mul_comm p.W]
      exact Nat.mul_lt_mul_of_pos_right ho hpos
    omega
  have hc : check p L = none := by
    unfold check
    rw [if_pos ⟨e, List.mem_range.mpr (by omega), he, hW⟩, if_pos ho]
    obtain ⟨l, hl, _, _, _, hle⟩ :=
      Framing.C21_keep (List.replicate L (0 : ℚ)) p.W p.step hstep
    rw [hl]
    simp only
    rw [if_neg]
    intro h1
    rw [h1, List.length_replicate] at hle
    omega
  unfold csmWelch
  rw [hc]
  split
  · rename_i e heq
    split at heq <;> cases heq
  · exact ⟨_, rfl⟩

/-- A signal that fits into one frame step raises. -/
theorem C43_single_frame_raises (p : Params) (s : Scaling) (e : ℕ) (he : 3 ≤ e) (he' : e ≤ 18)
    (hW : p.W = 2 ^ e) (ho : p.overlap < 100) (n L : ℕ) (hn : 0 < n) (hL0 : 0 < L)
    (hL : L ≤ p.step) (x : ℕ → List ℝ) : csmWelch p s n L x = .error .valueError := by
  have hc : check p L = some .valueError := by
    unfold check
    rw [if_pos ⟨e, List.mem_range.mpr (by omega), he, hW⟩, if_pos ho]
    obtain ⟨l, hl, _, _, hlt, hle⟩ :=
      Framing.C21_keep (List.replicate L (0 : ℚ)) p.W p.step (by omega)
    rw [hl]
    simp only
    rw [if_pos]
    rw [List.length_replicate] at hle
    have h1 : l.length ≠ 0 := by
      intro h0
      rw [h0] at hle
      omega
    by_contra h2
    have h3 := hlt 1 (by omega)
    rw [List.length_replicate] at h3
    omega
  unfold csmWelch
  rw [if_neg (by omega), hc]

/-! ### From spectra -/

/-- The matrix from unscaled spectra is Hermitian and positive semidefinite. -/
theorem C43_fft_backward (F n fs : ℕ) (w : Option (List ℝ)) (X : ℕ → ℕ → ℂ) :
    ∃ C, csmFft F n fs .fftBackward w X = .ok C ∧
      ∀ k, Hermitian (C k) ∧ PosSemidef n (C k) ∧ DiagNonneg n (C k) := by
  refine ⟨_, by unfold csmFft; rw [if_pos rfl], fun k => ⟨assemble_hermitian _, ?_⟩⟩
  suffices hp : PosSemidef n (assemble fun i j => (starRingEnd ℂ) (X i k) * X j k) from
    ⟨hp, posSemidef_diag n _ hp⟩
  refine posSemidef_gram n [()] (fun _ i => X i k) _ fun r _ c _ => ?_
  rw [assemble_eq]
  · simp
  · intro i j
    rw [map_mul, conj_conj]
    ring

/-- With power scalings it is Hermitian and positive semidefinite. -/
theorem C43_fft_power (F n fs : ℕ) (s : Scaling) (hs : s.isAmplitude = false)
    (X : ℕ → ℕ → ℂ) :
    ∃ C, csmFft F n fs s none X = .ok C ∧
      ∀ k, Hermitian (C k) ∧ PosSemidef n (C k) ∧ DiagNonneg n (C k) := by
  obtain ⟨C0, h0, hC0⟩ := C43_fft_backward F n fs none X
  have h0' : C0 = fun k => assemble fun i j => (starRingEnd ℂ) (X i k) * X j k := by
    unfold csmFft at h0
    rw [if_pos rfl] at h0
    exact (Except.ok.inj h0).symm
  have hne : s ≠ .fftBackward := by
    rintro rfl
    simp [Scaling.isAmplitude] at hs
  have hfac : 0 ≤ conversionFactor .fftBackward s (F / 2 + 1) fs none := by
    unfold conversionFactor
    simp only [hs]
    rw [if_neg (by simp [Scaling.isAmplitude]), if_pos (by rfl)]
    refine div_nonneg (factor_nonneg s hs _ _ _) ?_
    rw [Real.rpow_two]
    positivity
  refine ⟨_, by unfold csmFft; rw [if_neg hne, if_neg (by simp)], fun k => ?_⟩
  simp only [hs, Bool.false_eq_true, if_false]
  have key : ∃ a : ℝ, 0 ≤ a ∧ ∀ r c, (if k = 0 ∨ k = F - 1 then
      assemble (fun i j => (starRingEnd ℂ) (X i k) * X j k) r c / 2 else
      assemble (fun i j => (starRingEnd ℂ) (X i k) * X j k) r c) *
        ((conversionFactor .fftBackward s (F / 2 + 1) fs none : ℝ) : ℂ) = C0 k r c * a := by
    by_cases hk : k = 0 ∨ k = F - 1
    · refine ⟨conversionFactor .fftBackward s (F / 2 + 1) fs none / 2, by positivity,
        fun r c => ?_⟩
      rw [if_pos hk, h0']
      push_cast
      ring
    · refine ⟨conversionFactor .fftBackward s (F / 2 + 1) fs none, hfac, fun r c => ?_⟩
      rw [if_neg hk, h0']
  obtain ⟨a, ha, hkey⟩ := key
  have hp := posSemidef_smul n (C0 k) _ a ha hkey (hC0 k).2.1
  refine ⟨?_, hp, posSemidef_diag n _ hp⟩
  intro r c
  simp only [hkey]
  rw [map_mul, conj_ofReal, (hC0 k).1 r c]

/-- With a window and several channels every power scaling raises. -/
theorem C43_fft_window_raises (F n fs : ℕ) (hn : 2 ≤ n) (s : Scaling)
    (hs : s.isAmplitude = false) (w : List ℝ) (X : ℕ → ℕ → ℂ) :
    csmFft F n fs s (some w) X = .error .valueError := by
  cases s <;> simp [Scaling.isAmplitude] at hs <;> unfold csmFft <;>
    rw [if_neg (by simp), if_pos ⟨rfl, by omega, rfl⟩]

/-! ### Amplitude scalings and medians -/

theorem csqrt_sq (z : ℂ) : csqrt z ^ 2 = z := by
  unfold csqrt
  have : (1 / 2 : ℂ) = ((2 : ℕ) : ℂ)⁻¹ := by norm_num
  rw [this, Complex.cpow_nat_inv_pow z (by norm_num)]

/-- With amplitude scalings the root of every entry is taken: for two channels in antiphase the
matrix from spectra is not Hermitian. -/
theorem C43_fft_amplitude_not_hermitian :
    ∃ C, csmFft 3 2 1 .fftForward none (fun i _ => if i = 0 then 1 else -1) = .ok C ∧
      ¬ Hermitian (C 1) := by
  refine ⟨_, by unfold csmFft; rw [if_neg (by simp), if_neg (by simp)], fun h => ?_⟩
  have h1 := h 0 1
  simp only [Scaling.isAmplitude, if_true] at h1
  have hif : ¬ (1 = 0 ∨ 1 = 3 - 1) := by norm_num
  simp only [if_neg hif] at h1
  have hE : ∀ i j : ℕ, (starRingEnd ℂ) (if j = 0 then (1 : ℂ) else -1) *
      (if i = 0 then (1 : ℂ) else -1) = (starRingEnd ℂ) ((starRingEnd ℂ)
        (if i = 0 then (1 : ℂ) else -1) * (if j = 0 then (1 : ℂ) else -1)) := by
    intro i j
    rw [map_mul, conj_conj]
    ring
  rw [assemble_eq _ hE, assemble_eq _ hE] at h1
  simp only [one_ne_zero, if_true, if_false, map_one, map_neg, one_mul, mul_one] at h1
  set f : ℝ := conversionFactor .fftBackward .fftForward (3 / 2 + 1) 1 none with hf
  have hfpos : 0 < f := by
    rw [hf]
    unfold conversionFactor factor
    simp [Scaling.isAmplitude]
  have h2 := csqrt_sq (-1 * (f : ℂ))
  obtain ⟨a, ha⟩ := Complex.conj_eq_iff_real.mp h1.symm
  rw [ha] at h2
  have h3 : a ^ 2 = -1 * f := by exact_mod_cast h2
  nlinarith [sq_nonneg a]

/-- Parameters of the counterexample for medians: rectangular window of 8 samples, no overlap. -/
def medianParams : Params := ⟨8, List.replicate 8 1, 0, false, .median, 1⟩

/-- Its channels: 24 samples, i.e. three frames, with one non-zero sample per frame. -/
def medianSignal (i : ℕ) : List ℝ :=
  (List.range 24).map fun t => if t = 0 then (if i = 0 then 3 else 1)
    else if t = 8 then (if i = 0 then 1 else 3) else 0

/-- The first bin of the frames. -/
theorem median_frames (i : ℕ) : (frames medianParams (medianSignal i)).length = 3 ∧
    ∀ t < 3, frameBin medianParams .powSpectrum
      ((frames medianParams (medianSignal i)).getD t []) 0 =
        if t = 0 then (if i = 0 then 3 else 1) else if t = 1 then (if i = 0 then 1 else 3)
        else 0 := by
  have hst : medianParams.step = 8 := rfl
  obtain ⟨l, hl, hframes, _, hlt, hle⟩ := Framing.C21_keep (medianSignal i) 8 8 (by norm_num)
  have hlen : (medianSignal i).length = 24 := by simp [medianSignal]
  rw [hlen] at hlt hle
  have h3 : l.length = 3 := by
    have : ¬ 3 < l.length := fun h => by
      have := hlt 3 h
      omega
    omega
  have hfr : frames medianParams (medianSignal i) = l := by
    unfold frames
    rw [hst]
    show (match Framing.framed (medianSignal i) 8 8 true with | .ok l => l | .error _ => []) = l
    rw [hl]
  rw [hfr]
  refine ⟨h3, fun t ht => ?_⟩
  have hval : ∀ j < 8, (l.getD t []).getD j 0 = (medianSignal i).getD (t * 8 + j) 0 :=
    fun j hj => (hframes t (by omega)).2 j hj
  have hprep : ∀ j ∈ range 8, ((prepared medianParams (l.getD t []) j : ℝ) : ℂ) *
      DFT.e 8 (-((0 : ℕ) * j)) = ((medianSignal i).getD (t * 8 + j) 0 : ℝ) := by
    intro j hj
    have hj' := mem_range.mp hj
    have hw : (List.replicate 8 (1 : ℝ)).getD j 0 = 1 := by
      rw [List.getD_eq_getElem _ _ (by simpa using hj'), List.getElem_replicate]
    have he : DFT.e 8 (-((0 : ℕ) * j)) = 1 := by simp [DFT.e]
    rw [he, mul_one, ← hval j hj']
    simp only [prepared, medianParams, Bool.false_eq_true, if_false]
    rw [hw, mul_one]
  unfold frameBin DFT.rfft DFT.dft
  rw [show medianParams.W = 8 from rfl, Finset.sum_congr rfl hprep]
  simp only [fftNorm, ofReal_one, one_mul]
  have hget : ∀ j < 24, (medianSignal i).getD j 0 = if j = 0 then (if i = 0 then 3 else 1)
    else if j = 8 then (if i = 0 then 1 else 3) else 0 := by
    intro j hj
    unfold medianSignal
    rw [List.getD_eq_getElem _ _ (by simpa using hj)]
    simp
  have hget' : ∀ j ∈ range 8, (((medianSignal i).getD (t * 8 + j) 0 : ℝ) : ℂ) =
      if j = 0 then (if t = 0 then (if i = 0 then 3 else 1) else
        if t = 1 then (if i = 0 then 1 else 3) else 0) else 0 := by
    intro j hj
    have hj' := mem_range.mp hj
    rw [hget _ (by omega)]
    by_cases hj0 : j = 0
    · subst hj0
      simp only [add_zero, if_true]
      interval_cases t <;> simp <;> split_ifs <;> norm_num
    · rw [if_neg (by omega), if_neg (by omega), if_neg hj0]
      simp
  rw [Finset.sum_congr rfl hget']
  simp

/-- With the median the matrix is not positive semidefinite in general. -/
theorem C43_median_not_posSemidef :
    ∃ C, csmWelch medianParams .powSpectrum 2 24 medianSignal = .ok C ∧ ¬ PosSemidef 2 (C 0) := by
  obtain ⟨C, hC⟩ := C43_welch_accepts medianParams .powSpectrum 3 le_rfl (by norm_num) rfl
    (by decide) 2 24 (by decide) medianSignal
  refine ⟨C, hC, fun h => ?_⟩
  obtain ⟨a, ha, hscale⟩ : ∃ a : ℝ, 0 < a ∧ ∀ c, welchScale medianParams .powSpectrum 0 c = c * a := by
    refine ⟨factor .powSpectrum 8 1 (some (List.replicate 8 1)) / 2, ?_, fun c => ?_⟩
    · unfold factor
      simp only [Scaling.isDensity, Scaling.isAmplitude, Bool.false_eq_true, if_false]
      have : (List.replicate 8 (1 : ℝ)).sum = 8 := by
        norm_num
      rw [this]
      positivity
    · unfold welchScale
      simp only [physical, Scaling.isAmplitude, Bool.false_eq_true, if_false, if_true, true_or,
        and_self, medianParams]
      push_cast
      ring
  have hprod : ∀ i < 2, ∀ j < 2, products medianParams .powSpectrum (medianSignal i)
      (if i ≠ j then some (medianSignal j) else none) 0 =
      if i = j then (if i = 0 then [9, 1, 0] else [1, 9, 0]) else [3, 3, 0] := by
    intro i hi j hj
    obtain ⟨li, hi3⟩ := median_frames i
    obtain ⟨lj, hj3⟩ := median_frames j
    by_cases hij : i = j
    · subst hij
      rw [if_neg (by simp), if_pos rfl]
      simp only [products]
      rw [map_eq_range (fun f => ((‖frameBin medianParams .powSpectrum f 0‖ ^ 2 : ℝ) : ℂ)), li]
      have h0 := hi3 0 (by norm_num)
      have h1 := hi3 1 (by norm_num)
      have h2 := hi3 2 (by norm_num)
      simp only [List.range_succ, List.range_zero, List.map_cons, List.map_nil,
        List.nil_append, List.cons_append, h0, h1, h2]
      interval_cases i <;> norm_num
    · rw [if_pos hij, if_neg hij]
      simp only [products]
      rw [zipWith_eq_range _ _ _ (li.trans lj.symm), li]
      have h0 := hi3 0 (by norm_num)
      have h1 := hi3 1 (by norm_num)
      have h2 := hi3 2 (by norm_num)
      have h0' := hj3 0 (by norm_num)
      have h1' := hj3 1 (by norm_num)
      have h2' := hj3 2 (by norm_num)
      simp only [List.range_succ, List.range_zero, List.map_cons, List.map_nil,
        List.nil_append, List.cons_append, h0, h1, h2, h0', h1', h2']
      have hc : (starRingEnd ℂ) 3 = 3 := map_ofNat _ 3
      interval_cases i <;> interval_cases j <;> simp at hij <;> norm_num [hc]
  have hw : ∀ i < 2, ∀ j < 2, welch medianParams .powSpectrum (medianSignal i)
      (if i ≠ j then some (medianSignal j) else none) 0 =
      ((if i = j then 3 * a else 9 * a : ℝ) : ℂ) := by
    intro i hi j hj
    unfold welch
    rw [hscale, hprod i hi j hj]
    simp only [averaged, medianParams]
    interval_cases i <;> interval_cases j <;>
      norm_num [median, bias, List.insertionSort, List.orderedInsert]
  have hC' : C 0 = assemble fun i j => welch medianParams .powSpectrum (medianSignal i)
      (if i ≠ j then some (medianSignal j) else none) 0 := by
    unfold csmWelch at hC
    split at hC
    · cases hC
    · cases hC
      rfl
  obtain ⟨q, hq, he⟩ := h fun i => if i = 0 then 1 else -1
  have hconj : ∀ r : ℝ, (starRingEnd ℂ) (r : ℂ) = r := conj_ofReal
  rw [hC'] at he
  simp only [Finset.sum_range_succ, Finset.sum_range_zero, assemble, lower] at he
  have e00 := hw 0 (by norm_num) 0 (by norm_num)
  have e01 := hw 0 (by norm_num) 1 (by norm_num)
  have e11 := hw 1 (by norm_num) 1 (by norm_num)
  simp only [e00, e01, e11] at he
  norm_num at he
  have hre := congrArg re he
  norm_num at hre
  nlinarith

/-- Concrete case for the positive theorems: two channels of 24 samples. -/
example : ∃ C, csmWelch ⟨8, List.replicate 8 1, 50, true, .mean, 48000⟩ .powDensity 2 24
      medianSignal = .ok C ∧ PosSemidef 2 (C 3) := by
  obtain ⟨C, hC⟩ := C43_welch_accepts ⟨8, List.replicate 8 1, 50, true, .mean, 48000⟩ .powDensity 3
    le_rfl (by norm_num) rfl (by norm_num) 2 24 (by decide) medianSignal
  refine ⟨C, hC, (C43_welch_posSemidef_partial _ _ rfl rfl 2 24 _ ?_ C hC 3).1⟩
  intro i _
  simp [medianSignal]

end Verif.CSM

import Verif.Model.FirDesigner
import Verif.Lemmas.Deconvolution
import Verif.Props.C88
import Verif.Props.C89

/-! Lemmas for the FIR designer. -/

namespace Verif.FirDesigner

open Complex Finset

theorem foldl_top (f : ℕ → ℝ) (l : List ℕ) (a : ℝ) :
    a ≤ l.foldl (fun (a : ℝ) k => max a (f k)) a ∧
      (∀ k ∈ l, f k ≤ l.foldl (fun (a : ℝ) k => max a (f k)) a) ∧
      (l.foldl (fun (a : ℝ) k => max a (f k)) a = a ∨
        ∃ k ∈ l, l.foldl (fun (a : ℝ) k => max a (f k)) a = f k) := by
  induction l generalizing a with
  | nil => simp
  | cons x l ih =>
    obtain ⟨h1, h2, h3⟩ := ih (max a (f x))
    rw [List.foldl_cons]
    refine ⟨le_trans (le_max_left _ _) h1, ?_, ?_⟩
    · intro k hk
      rcases List.mem_cons.mp hk with rfl | hk
      · exact le_trans (le_max_right _ _) h1
      · exact h2 k hk
    · rcases h3 with h3 | ⟨k, hk, h3⟩
      · rw [h3]
        rcases max_choice a (f x) with h | h
        · exact .inl h
        · exact .inr ⟨x, List.mem_cons_self, h⟩
      · exact .inr ⟨k, List.mem_cons_of_mem _ hk, h3⟩

/-- `top` is the greatest value. -/
theorem top_spec (M : ℕ) (hM : 0 < M) (f : ℕ → ℝ) :
    (∀ k < M, f k ≤ top M f) ∧ ∃ k < M, top M f = f k := by
  obtain ⟨-, h2, h3⟩ := foldl_top f (List.range M) (f 0)
  refine ⟨fun k hk => h2 k (List.mem_range.mpr hk), ?_⟩
  rcases h3 with h | ⟨k, hk, h⟩
  · exact ⟨0, hM, h⟩
  · exact ⟨k, List.mem_range.mp hk, h⟩

theorem factorSeconds_pos (N fs : ℕ) (hN : 0 < N) (hf : 0 < fs) : 0 < factorSeconds N fs := by
  have h1 : (0 : ℝ) < N := by exact_mod_cast hN
  have h2 : (0 : ℝ) < fs := by exact_mod_cast hf
  have := Real.pi_pos
  unfold factorSeconds
  positivity

/-- The unscaled target in terms of seconds. -/
theorem unscaled_eq (N fs : ℕ) (hN : 0 < N) (hf : 0 < fs) (inc : ℝ) (gd : ℕ → ℝ) (k : ℕ) :
    unscaled N fs inc gd k = 2 * Real.pi / N * (fs * (gd k + inc / 1000)) := by
  have h1 : (N : ℝ) ≠ 0 := by exact_mod_cast hN.ne'
  have h2 : (fs : ℝ) ≠ 0 := by exact_mod_cast hf.ne'
  have := Real.pi_ne_zero
  unfold unscaled factorSeconds
  field_simp

/-- The grid is kept if it is ten times longer than every delay plus one sample. -/
theorem not_refines (N : ℕ) (hN : 0 < N) (target : ℕ → ℝ)
    (h : ∀ k ≤ N / 2, 10 * (target k * (N / (2 * Real.pi)) + 1) ≤ N) :
    ¬ Refines N (maxDelay N target) := by
  obtain ⟨k, hk, e⟩ := (top_spec (N / 2 + 1) (by omega) target).2
  have hk' := h k (by omega)
  unfold Refines maxDelay
  rw [e]
  have h1 : target k * factorSamples N + 1 ≤ N / 10 := by
    have : factorSamples N = N / (2 * Real.pi) := by unfold factorSamples; rw [div_div]
    rw [this]
    linarith
  rw [gt_iff_lt, not_lt]
  have hz : ((SignalData.truncInt (target k * factorSamples N + 1) * 10 : ℤ) : ℝ) ≤ ((N : ℤ) : ℝ) := by
    have hN' : (0 : ℝ) ≤ N := Nat.cast_nonneg N
    unfold SignalData.truncInt
    push_cast
    by_cases hp : 0 ≤ target k * factorSamples N + 1
    · rw [if_pos hp]
      have := Int.floor_le (target k * factorSamples N + 1)
      linarith
    · rw [if_neg hp]
      have : ⌈target k * factorSamples N + 1⌉ ≤ 0 := by
        rw [Int.ceil_le]
        push_cast
        linarith
      have : ((⌈target k * factorSamples N + 1⌉ : ℤ) : ℝ) ≤ 0 := by exact_mod_cast this
      linarith
  exact_mod_cast hz

theorem phaseOf_zero (M : ℕ) (t : Bool) (tau : ℕ → ℝ) : phaseOf M t tau 0 = 0 := by
  unfold phaseOf trapezoid simpson
  cases t <;> simp

theorem phaseOf_trapezoid (M : ℕ) (tau : ℕ → ℝ) (k : ℕ) :
    phaseOf M true tau (k + 1) - phaseOf M true tau k = -((tau k + tau (k + 1)) / 2) := by
  unfold phaseOf trapezoid
  rw [if_pos rfl, if_pos rfl, sum_range_succ]
  ring

theorem exp_re (a x : ℝ) : (((a : ℂ) * exp (I * x)).re : ℝ) = a * Real.cos x := by
  rw [Complex.re_ofReal_mul, mul_comm I, Complex.exp_ofReal_mul_I_re]

/-- The bins of the inverse transform of `a e^{iφ}`. -/
theorem bin_irfft (n : ℕ) (hn : 0 < n) (a phi : ℕ → ℝ) (h0 : phi 0 = 0) (k : ℕ) (hk : 2 * k ≤ n) :
    DeconvSpec.bin n (Deconv.irfft n (n / 2 + 1) fun k => (a k : ℂ) * exp (I * phi k)) k =
      if 2 * k < n then (a k : ℂ) * exp (I * phi k) else ((a k * Real.cos (phi k) : ℝ) : ℂ) := by
  rw [Deconv.bin_eq, Deconv.rfft_irfft n _ _ k (by omega)]
  unfold Deconv.herm
  by_cases hk0 : k = 0
  · subst hk0
    rw [if_pos rfl, if_pos (by omega)]
    dsimp only
    rw [if_pos (by omega), exp_re, h0]
    simp
  rw [if_neg hk0]
  by_cases h1 : 2 * k < n
  · rw [if_pos h1, if_pos h1]
    dsimp only
    rw [if_pos (by omega)]
  · rw [if_neg h1, if_pos (by omega), if_neg h1]
    dsimp only
    rw [if_pos (by omega), exp_re]

/-- Constant values are interpolated by the same constant. -/
theorem interpolate_const (N n : ℕ) (c : ℝ) (k : ℕ) : interpolate N n (fun _ => c) k = c := by
  have hd : ∀ M i, OctaveSmoothing.deriv M (fun _ => c) i = 0 := by
    intro M i
    have hs : ∀ j, OctaveSmoothing.slope (fun _ => c) j = 0 := fun j => sub_self c
    unfold OctaveSmoothing.deriv
    simp only [hs, OctaveSmoothing.edge, OctaveSmoothing.inner]
    split_ifs <;> simp_all
  unfold interpolate OctaveSmoothing.pchip
  dsimp only
  rw [hd, hd]
  ring

theorem top_const (M : ℕ) (hM : 0 < M) (c : ℝ) : top M (fun _ => c) = c := by
  obtain ⟨k, -, h⟩ := (top_spec M hM fun _ => c).2
  exact h

theorem phaseOf_const (M : ℕ) (t : Bool) (c : ℝ) (k : ℕ) : phaseOf M t (fun _ => c) k = -(c * k) := by
  unfold phaseOf trapezoid simpson
  have h1 : (c + c) / 2 = c := by ring
  have h2 : ∀ j, simpsonStep M (fun _ => c) j = c := by
    intro j
    unfold simpsonStep
    split_ifs <;> ring
  cases t <;> simp [h1, h2, mul_comm]

/-- A whole number of samples: the phase of the last bin needs no correction. -/
theorem correct_const (n : ℕ) (hn : 2 ≤ n) (he : n % 2 = 0) (D : ℕ) (t : Bool) (k : ℕ) :
    LinearPhase.correctPhase (n / 2 + 1) (phaseOf (n / 2 + 1) t fun _ => 2 * Real.pi / n * D) k =
      phaseOf (n / 2 + 1) t (fun _ => 2 * Real.pi / n * D) k ∧
    LinearPhase.pmod (phaseOf (n / 2 + 1) t (fun _ => 2 * Real.pi / n * D) (n / 2)) Real.pi = 0 := by
  have hpi := Real.pi_ne_zero
  have hm : LinearPhase.pmod (phaseOf (n / 2 + 1) t (fun _ => 2 * Real.pi / n * D) (n / 2))
      Real.pi = 0 := by
    rw [phaseOf_const]
    have hn' : (n : ℝ) ≠ 0 := by
      have : n ≠ 0 := by omega
      exact_mod_cast this
    have : ((n / 2 : ℕ) : ℝ) = n / 2 := by
      rw [Nat.cast_div (by omega) (by norm_num)]
      norm_num
    rw [this]
    have e : -(2 * Real.pi / (n : ℝ) * D * (n / 2)) = Real.pi * ((-(D : ℤ) : ℤ) : ℝ) := by
      push_cast
      field_simp
    rw [e]
    unfold LinearPhase.pmod
    rw [mul_div_cancel_left₀ _ hpi, Int.floor_intCast]
    ring
  refine ⟨?_, hm⟩
  unfold LinearPhase.correctPhase
  rw [Nat.add_sub_cancel, hm]
  ring

/-- The response of a delay of `D` samples with the gain `a`. -/
theorem response_const (n : ℕ) (hn : 2 ≤ n) (p : Params) (a : ℝ) (D : ℕ) (hD : D < n) (j : ℕ)
    (hj : j < n) :
    response n p (fun _ => a) (fun _ => 2 * Real.pi / n * D) j = if j = D then a else 0 := by
  unfold response
  dsimp only
  have hnew : (if n % 2 = 0 ∧ p.integerDelay = true then
      LinearPhase.correctPhase (n / 2 + 1) (phaseOf (n / 2 + 1) p.trapezoidal fun _ => 2 * Real.pi / n * D)
      else phaseOf (n / 2 + 1) p.trapezoidal fun _ => 2 * Real.pi / n * D) =
      fun k : ℕ => -(2 * Real.pi / n * D * k) := by
    by_cases h : n % 2 = 0 ∧ p.integerDelay = true
    · rw [if_pos h]
      funext k
      rw [(correct_const n hn h.1 D _ k).1, phaseOf_const]
    · rw [if_neg h]
      funext k
      rw [phaseOf_const]
  rw [hnew]
  refine Deconv.irfft_of_rfft n _ (by omega) (fun j => if j = D then a else 0) _ (fun k _ => ?_) j hj
  unfold DFT.rfft DFT.dft
  rw [Finset.sum_eq_single_of_mem D (mem_range.2 hD)]
  · dsimp only
    rw [if_pos rfl]
    congr 1
    unfold DFT.e
    congr 1
    push_cast
    ring
  · intro i _ hne
    dsimp only
    rw [if_neg hne]
    simp

theorem phaseOf_congr (n : ℕ) (t : Bool) (tau tau' : ℕ → ℝ) (h : ∀ k ≤ n / 2, tau k = tau' k) (k : ℕ)
    (hk : k ≤ n / 2) : phaseOf (n / 2 + 1) t tau k = phaseOf (n / 2 + 1) t tau' k := by
  unfold phaseOf trapezoid simpson
  have e1 : ∑ i ∈ range k, (tau i + tau (i + 1)) / 2 =
      ∑ i ∈ range k, (tau' i + tau' (i + 1)) / 2 := by
    refine sum_congr rfl fun i hi => ?_
    rw [mem_range] at hi
    rw [h i (by omega), h (i + 1) (by omega)]
  have e2 : ∑ i ∈ range k, simpsonStep (n / 2 + 1) tau i =
      ∑ i ∈ range k, simpsonStep (n / 2 + 1) tau' i := by
    refine sum_congr rfl fun i hi => ?_
    rw [mem_range] at hi
    unfold simpsonStep
    rw [h i (by omega), h (i + 1) (by omega), h (i - 1) (by omega)]
    split_ifs with c1 c2
    · rfl
    · rw [h (i + 2) (by omega)]
    · rfl
  rw [e1, e2]

/-- Values behind the last bin are never used. -/
theorem trimmed_congr (n : ℕ) (p : Params) (mag mag' tau tau' : ℕ → ℝ)
    (h1 : ∀ k ≤ n / 2, mag k = mag' k) (h2 : ∀ k ≤ n / 2, tau k = tau' k) (m : ℤ) :
    trimmed n m p mag tau = trimmed n m p mag' tau' := by
  have hph := phaseOf_congr n p.trapezoidal tau tau' h2
  have hresp : response n p mag tau = response n p mag' tau' := by
    funext j
    unfold response Deconv.irfft
    dsimp only
    congr 2
    refine sum_congr rfl fun k hk => ?_
    congr 1
    refine Deconv.herm_congr n _ _ (fun k hk => ?_) k (mem_range.1 hk)
    have hkn : k ≤ n / 2 := by omega
    have hlt : k < n / 2 + 1 := by omega
    simp only [hlt, if_true]
    rw [h1 k hkn]
    congr 4
    by_cases hc : n % 2 = 0 ∧ p.integerDelay = true
    · rw [if_pos hc, if_pos hc]
      unfold LinearPhase.correctPhase
      rw [hph k hkn, Nat.add_sub_cancel, hph _ le_rfl]
    · rw [if_neg hc, if_neg hc]
      exact hph k hkn
  have hex : extra n p tau = extra n p tau' := by
    unfold extra
    rw [hph (n / 2) le_rfl]
  unfold trimmed
  rw [hresp, hex]

theorem interpolate_of_const (N : ℕ) (hN : 2 ≤ N) (y : ℕ → ℝ) (c : ℝ) (hy : ∀ k ≤ N / 2, y k = c)
    (n k : ℕ) : interpolate N n y k = c := by
  rw [← interpolate_const N n c k]
  unfold interpolate OctaveSmoothing.pchip
  dsimp only
  have hi : min (⌊(k : ℝ) * N / n + 1⌋₊ - 1) (N / 2 + 1 - 2) ≤ N / 2 + 1 - 2 := min_le_right _ _
  generalize min (⌊(k : ℝ) * N / n + 1⌋₊ - 1) (N / 2 + 1 - 2) = q at hi ⊢
  have hder : ∀ q ≤ N / 2, OctaveSmoothing.deriv (N / 2 + 1) y q =
      OctaveSmoothing.deriv (N / 2 + 1) (fun _ => c) q := by
    intro q hq
    have hs : ∀ j, j + 1 ≤ N / 2 → OctaveSmoothing.slope y j =
        OctaveSmoothing.slope (fun _ => c) j := by
      intro j hj
      unfold OctaveSmoothing.slope
      rw [hy j (by omega), hy (j + 1) hj]
    unfold OctaveSmoothing.deriv
    split_ifs with c1 c2 c3
    · exact hs 0 (by omega)
    · rw [hs 0 (by omega), hs 1 (by omega)]
    · rw [hs _ (by omega), hs _ (by omega)]
    · rw [hs _ (by omega), hs _ (by omega)]
  rw [hder q (by omega), hder (q + 1) (by omega), hy q (by omega), hy (q + 1) (by omega)]

end Verif.FirDesigner

import Verif.Lemmas.FirDesigner

/-!
# C109: FIR filters with a desired group delay
-/

namespace Verif.FirDesigner

open Complex Finset

/-- The samples of a list as a signal. -/
def sig (h : List ℝ) (j : ℕ) : ℝ := h.getD j 0

theorem bin_sig (n : ℕ) (g : ℕ → ℝ) (k : ℕ) :
    DeconvSpec.bin n (sig ((List.range n).map g)) k = DeconvSpec.bin n g k := by
  refine Deconv.bin_congr n _ _ (fun j hj => ?_) k
  unfold sig
  rw [List.getD_eq_getElem _ _ (by simpa using hj)]
  simp

/-- Valid parameters are stored, the others refused. -/
theorem C109_parameters (inc : ℝ) (add : Option ℤ) (t i : Bool) :
    (0 ≤ inc ∧ (∀ a ∈ add, 0 ≤ a) → setParameters inc add t i = .ok ⟨inc, add, t, i⟩) ∧
    (¬ (0 ≤ inc ∧ ∀ a ∈ add, 0 ≤ a) → setParameters inc add t i = .error .assertionError) := by
  unfold setParameters
  constructor
  · rintro ⟨h1, h2⟩
    rw [if_neg (not_not.mpr h1), if_neg]
    rintro ⟨a, ha, h⟩
    exact h (h2 a ha)
  · intro h
    by_cases h1 : 0 ≤ inc
    · rw [if_neg (not_not.mpr h1), if_pos]
      by_contra hc
      push Not at hc
      exact h ⟨h1, hc⟩
    · rw [if_pos h1]

/-- Targets of other lengths are refused. -/
theorem C109_lengths_refused (N fs : ℕ) (mag gd : List ℝ) (p : Params)
    (h : gd.length ≠ N / 2 + 1 ∨ mag.length ≠ gd.length) :
    firDesigner N fs mag gd p = .error .assertionError := by
  unfold firDesigner
  by_cases h1 : N / 2 + 1 ≠ gd.length
  · rw [if_pos h1]
  · rw [if_neg h1, if_pos]
    rcases h with h | h
    · omega
    · exact fun e => h e.symm

/-- The grid has at least ten times the length of every group delay plus one sample. -/
def LongEnough (N fs : ℕ) (gd : List ℝ) (inc : ℝ) : Prop :=
  ∀ k ≤ N / 2, 10 * (fs * (gd.getD k 0 + inc / 1000) + 1) ≤ N

theorem design_long (N fs : ℕ) (hN : 0 < N) (hf : 0 < fs) (mag gd : List ℝ) (p : Params)
    (hg : gd.length = N / 2 + 1) (hm : mag.length = N / 2 + 1)
    (hl : LongEnough N fs gd p.increaseMs) :
    firDesigner N fs mag gd p = .ok (trimmed N
      (maxDelay N (unscaled N fs p.increaseMs fun k => gd.getD k 0)) p (fun k => mag.getD k 0)
      (unscaled N fs p.increaseMs fun k => gd.getD k 0)) := by
  have hN' : (N : ℝ) ≠ 0 := by exact_mod_cast hN.ne'
  have hpi := Real.pi_ne_zero
  unfold firDesigner design
  dsimp only
  rw [if_neg (by omega), if_neg (by omega), if_neg]
  refine not_refines N hN _ fun k hk => ?_
  have := hl k hk
  rw [unscaled_eq N fs hN hf]
  refine le_trans (le_of_eq ?_) this
  field_simp

/-- The phase falls between neighbouring bins by the mean of the desired group delays. -/
def PhaseSteps (N fs : ℕ) (gd : List ℝ) (inc : ℝ) (phi : ℕ → ℝ) : Prop :=
  phi 0 = 0 ∧ ∀ k, k + 1 ≤ N / 2 →
    -(phi (k + 1) - phi k) / (2 * Real.pi * fs / N) =
      (gd.getD k 0 + gd.getD (k + 1) 0) / 2 + inc / 1000

theorem phaseSteps (N fs : ℕ) (hN : 0 < N) (hf : 0 < fs) (gd : List ℝ) (inc : ℝ) :
    PhaseSteps N fs gd inc
      (phaseOf (N / 2 + 1) true (unscaled N fs inc fun k => gd.getD k 0)) := by
  have h1 : (N : ℝ) ≠ 0 := by exact_mod_cast hN.ne'
  have h2 : (fs : ℝ) ≠ 0 := by exact_mod_cast hf.ne'
  have hpi := Real.pi_ne_zero
  refine ⟨phaseOf_zero _ _ _, fun k _ => ?_⟩
  rw [phaseOf_trapezoid, unscaled_eq N fs hN hf, unscaled_eq N fs hN hf]
  field_simp
  ring

/-- The untrimmed filter has the desired magnitudes, and the group delay between two neighbouring bins
(phase difference over angular frequency difference) is the mean of the two desired group delays plus
the increase.  At the Nyquist frequency only the real part remains. -/
theorem C109_response (N fs : ℕ) (hN : 0 < N) (hf : 0 < fs) (mag gd : List ℝ) (inc : ℝ)
    (hg : gd.length = N / 2 + 1) (hm : mag.length = N / 2 + 1) (hl : LongEnough N fs gd inc) :
    ∃ h phi, firDesigner N fs mag gd ⟨inc, none, true, false⟩ = .ok h ∧ h.length = N ∧
      PhaseSteps N fs gd inc phi ∧
      (∀ k, 2 * k < N → DeconvSpec.bin N (sig h) k = (mag.getD k 0 : ℂ) * exp (I * phi k)) ∧
      ∀ k, 2 * k = N →
        DeconvSpec.bin N (sig h) k = ((mag.getD k 0 * Real.cos (phi k) : ℝ) : ℂ) := by
  have hd := design_long N fs hN hf mag gd ⟨inc, none, true, false⟩ hg hm hl
  refine ⟨_, _, hd, by simp [trimmed], phaseSteps N fs hN hf gd inc, fun k hk => ?_, fun k hk => ?_⟩
  · unfold trimmed
    dsimp only
    rw [bin_sig]
    unfold response
    dsimp only
    rw [if_neg (by simp), bin_irfft N hN _ _ (phaseOf_zero _ _ _) k (by omega), if_pos hk]
  · unfold trimmed
    dsimp only
    rw [bin_sig]
    unfold response
    dsimp only
    rw [if_neg (by simp), bin_irfft N hN _ _ (phaseOf_zero _ _ _) k (by omega), if_neg (by omega)]

/-- The group delay designer: an all-pass response (modulus 1 below half the sampling rate) with the phase whose
steps are the requested group delay. -/
theorem C109_group_delay_designer (N fs : ℕ) (hN : 0 < N) (hf : 0 < fs) (gd : List ℝ) (inc : ℝ)
    (hg : gd.length = N / 2 + 1) (hl : LongEnough N fs gd inc) :
    ∃ h phi, groupDelayDesigner N fs gd ⟨inc, none, true, false⟩ = .ok h ∧ h.length = N ∧
      PhaseSteps N fs gd inc phi ∧
      (∀ k, 2 * k < N → DeconvSpec.bin N (sig h) k = exp (I * phi k) ∧ ‖DeconvSpec.bin N (sig h) k‖ = 1) ∧
      ∀ k, 2 * k = N → DeconvSpec.bin N (sig h) k = ((Real.cos (phi k) : ℝ) : ℂ) := by
  obtain ⟨h, phi, h1, h2, h3, h4, h5⟩ := C109_response N fs hN hf (List.replicate gd.length 1) gd inc hg
    (by rw [List.length_replicate, hg]) hl
  have hm : ∀ k, 2 * k ≤ N → (List.replicate gd.length (1 : ℝ)).getD k 0 = 1 := by
    intro k hk
    rw [List.getD_eq_getElem _ _ (by rw [List.length_replicate, hg]; omega), List.getElem_replicate]
  refine ⟨h, phi, h1, h2, h3, fun k hk => ?_, fun k hk => ?_⟩
  · have : DeconvSpec.bin N (sig h) k = exp (I * phi k) := by
      rw [h4 k hk, hm k hk.le, ofReal_one, one_mul]
    refine ⟨this, ?_⟩
    rw [this, mul_comm]
    exact norm_exp_ofReal_mul_I _
  · rw [h5 k hk, hm k hk.le, one_mul]

/-- With `ensure_integer_delay` (even lengths) the magnitude is reached at the Nyquist frequency as
well, at the price of a constant additional delay below one sample. -/
theorem C109_integer_delay_option (N fs : ℕ) (hN : 0 < N) (he : N % 2 = 0) (hf : 0 < fs)
    (mag gd : List ℝ) (inc : ℝ) (hg : gd.length = N / 2 + 1) (hm : mag.length = N / 2 + 1)
    (hl : LongEnough N fs gd inc) :
    ∃ h phi, ∃ d : ℝ, firDesigner N fs mag gd ⟨inc, none, true, true⟩ = .ok h ∧ h.length = N ∧
      PhaseSteps N fs gd inc phi ∧ 0 ≤ d ∧ d < 1 ∧
      (∀ k, 2 * k ≤ N → DeconvSpec.bin N (sig h) k =
        (mag.getD k 0 : ℂ) * exp (I * ((phi k - 2 * Real.pi / N * d * k : ℝ) : ℂ))) ∧
      ∃ z : ℤ, phi (N / 2) - 2 * Real.pi / N * d * (N / 2 : ℕ) = Real.pi * z := by
  have hd := design_long N fs hN hf mag gd ⟨inc, none, true, true⟩ hg hm hl
  have hN' : (N : ℝ) ≠ 0 := by exact_mod_cast hN.ne'
  have hpi := Real.pi_pos
  have hhalf : ((N / 2 : ℕ) : ℝ) = N / 2 := by
    rw [Nat.cast_div (by omega) (by norm_num)]
    norm_num
  generalize hphi : phaseOf (N / 2 + 1) true (unscaled N fs inc fun k => gd.getD k 0) = phi
  have hst : PhaseSteps N fs gd inc phi := by rw [← hphi]; exact phaseSteps N fs hN hf gd inc
  generalize hr : LinearPhase.pmod (phi (N / 2)) Real.pi = r
  have hr' := hr
  unfold LinearPhase.pmod at hr'
  have f1 := Int.floor_le (phi (N / 2) / Real.pi)
  have f2 := Int.lt_floor_add_one (phi (N / 2) / Real.pi)
  rw [le_div_iff₀ hpi] at f1
  rw [div_lt_iff₀ hpi] at f2
  have hlast : phi (N / 2) - 2 * Real.pi / N * (r / Real.pi) * (N / 2 : ℕ) =
      Real.pi * (⌊phi (N / 2) / Real.pi⌋ : ℤ) := by
    rw [hhalf]
    have : 2 * Real.pi / (N : ℝ) * (r / Real.pi) * (N / 2) = r := by
      have := hpi.ne'
      field_simp
    rw [this, ← hr']
    ring
  refine ⟨_, phi, r / Real.pi, hd, by simp [trimmed], hst, ?_, ?_, fun k hk => ?_, _, hlast⟩
  · exact div_nonneg (by linarith) hpi.le
  · rw [div_lt_one hpi]
    linarith
  · unfold trimmed
    dsimp only
    rw [bin_sig]
    unfold response
    dsimp only
    rw [if_pos ⟨he, rfl⟩, hphi]
    have hc : LinearPhase.correctPhase (N / 2 + 1) phi = fun k : ℕ =>
        phi k - 2 * Real.pi / N * (r / Real.pi) * k := by
      funext k
      unfold LinearPhase.correctPhase
      rw [Nat.add_sub_cancel, hr, hhalf]
      have := hpi.ne'
      field_simp
    rw [hc, bin_irfft N hN _ _ (by simp [hst.1]) k hk]
    by_cases h1 : 2 * k < N
    · rw [if_pos h1]
    · rw [if_neg h1]
      have hk2 : k = N / 2 := by omega
      subst hk2
      rw [hlast]
      rw [Complex.ofReal_mul]
      congr 1
      apply Complex.ext
      · rw [Complex.ofReal_re, mul_comm I, Complex.exp_ofReal_mul_I_re]
      · rw [Complex.ofReal_im, mul_comm I, Complex.exp_ofReal_mul_I_im, mul_comm Real.pi,
          Real.sin_int_mul_pi]

/-- A constant group delay of `D` whole samples and a constant magnitude `a` give exactly `a` times the
impulse at `D`, for every length (also those that are refined), either rule of integration and
either option. -/
theorem C109_whole_samples (N fs D : ℕ) (hN : 2 ≤ N) (hf : 0 < fs) (a : ℝ) (ha : 0 ≤ a)
    (inc tau : ℝ) (hD : fs * (tau + inc / 1000) = D) (add : ℕ) (t i : Bool) :
    firDesigner N fs (List.replicate (N / 2 + 1) a) (List.replicate (N / 2 + 1) tau)
        ⟨inc, some add, t, i⟩ =
      .ok ((List.range (D + 2 + add)).map fun j => if j = D then a else 0) := by
  have hN' : (N : ℝ) ≠ 0 := by
    have : N ≠ 0 := by omega
    exact_mod_cast this
  have hpi := Real.pi_ne_zero
  -- the target
  have htar : ∀ k ≤ N / 2, unscaled N fs inc (fun k => (List.replicate (N / 2 + 1) tau).getD k 0) k =
      2 * Real.pi / N * D := by
    intro k hk
    rw [unscaled_eq N fs (by omega) hf, ← hD]
    rw [List.getD_eq_getElem _ _ (by simp; omega), List.getElem_replicate]
  have hmag : ∀ k ≤ N / 2, (List.replicate (N / 2 + 1) a).getD k 0 = a := by
    intro k hk
    rw [List.getD_eq_getElem _ _ (by simp; omega), List.getElem_replicate]
  have hmax : maxDelay N (unscaled N fs inc fun k => (List.replicate (N / 2 + 1) tau).getD k 0) =
      D + 1 := by
    unfold maxDelay
    obtain ⟨k, hk, h⟩ := (top_spec (N / 2 + 1) (by omega)
      (unscaled N fs inc fun k => (List.replicate (N / 2 + 1) tau).getD k 0)).2
    rw [h, htar k (by omega)]
    have : 2 * Real.pi / (N : ℝ) * D * factorSamples N + 1 = ((D + 1 : ℕ) : ℝ) := by
      unfold factorSamples
      push_cast
      field_simp
    rw [this]
    unfold SignalData.truncInt
    rw [if_pos (Nat.cast_nonneg _)]
    push_cast
    rw [show ((D : ℝ) + 1) = ((D + 1 : ℤ) : ℝ) by push_cast; ring, Int.floor_intCast]
  have hex : ∀ n, 2 ≤ n → extra n ⟨inc, some (add : ℤ), t, i⟩ (fun _ => 2 * Real.pi / n * D) = 0 := by
    intro n hn
    unfold extra
    rw [if_neg]
    rintro ⟨h1, -, h2⟩
    rw [(correct_const n hn h1 D t 0).2] at h2
    linarith [Real.pi_pos]
  have final : ∀ n, 2 ≤ n → D < n →
      trimmed n (D + 1) ⟨inc, some (add : ℤ), t, i⟩ (fun _ => a) (fun _ => 2 * Real.pi / n * D) =
        (List.range (D + 2 + add)).map fun j => if j = D then a else 0 := by
    intro n hn hDn
    unfold trimmed
    dsimp only
    rw [hex n hn, show ((D : ℤ) + 1 + 1 + 0 + add).toNat = D + 2 + add by omega]
    refine List.map_congr_left fun j _ => ?_
    by_cases hj : j < n
    · rw [if_pos hj, response_const n hn _ a D hDn j hj]
    · rw [if_neg hj, if_neg (by omega)]
  unfold firDesigner design
  dsimp only
  rw [if_neg (by simp), if_neg (by simp), hmax]
  by_cases hr : Refines N (D + 1)
  · rw [if_pos hr, if_neg (by omega)]
    have hn : refinedLength (D + 1) = 10 * D + 12 := by
      unfold refinedLength
      dsimp only
      omega
    rw [hn]
    have hgrid : (N : ℝ) / ((10 * D + 12 : ℕ) : ℝ) * (2 * Real.pi / N * D) =
        2 * Real.pi / ((10 * D + 12 : ℕ) : ℝ) * D := by
      have : ((10 * D + 12 : ℕ) : ℝ) ≠ 0 := by positivity
      field_simp
    rw [trimmed_congr (10 * D + 12) _ _ (fun _ => a) _
      (fun _ => 2 * Real.pi / ((10 * D + 12 : ℕ) : ℝ) * D) (fun k _ => ?_) (fun k _ => ?_),
      final (10 * D + 12) (by omega) (by omega)]
    · rw [interpolate_of_const N hN _ (a ^ 2) (fun k hk => by rw [hmag k hk]), Real.sqrt_sq ha]
    · rw [interpolate_of_const N hN _ _ htar, mul_comm, hgrid]
  · rw [if_neg hr]
    have hDN : D < N := by
      unfold Refines at hr
      omega
    rw [trimmed_congr N _ _ (fun _ => a) _ (fun _ => 2 * Real.pi / N * D) hmag htar, final N hN hDN]

/-- The filter is never cut before the largest group delay: the trimmed length is the largest delay in
samples, rounded down, plus two samples, plus the additional ones (plus one for the integer delay). -/
theorem C109_length (N fs : ℕ) (hN : 0 < N) (hf : 0 < fs) (mag gd : List ℝ) (inc : ℝ) (add : ℕ)
    (t i : Bool) (hg : gd.length = N / 2 + 1) (hm : mag.length = N / 2 + 1)
    (hl : LongEnough N fs gd inc) (hpos : ∀ k ≤ N / 2, 0 ≤ gd.getD k 0 + inc / 1000) :
    ∃ h, firDesigner N fs mag gd ⟨inc, some add, t, i⟩ = .ok h ∧
      ∃ k ≤ N / 2, (∀ k' ≤ N / 2, gd.getD k' 0 ≤ gd.getD k 0) ∧
        (h.length = ⌊fs * (gd.getD k 0 + inc / 1000)⌋₊ + 2 + add ∨
          h.length = ⌊fs * (gd.getD k 0 + inc / 1000)⌋₊ + 3 + add ∧ i = true) := by
  have hN' : (N : ℝ) ≠ 0 := by exact_mod_cast hN.ne'
  have hNp : (0 : ℝ) < N := by exact_mod_cast hN
  have hfp : (0 : ℝ) < fs := by exact_mod_cast hf
  have hpi := Real.pi_pos
  refine ⟨_, design_long N fs hN hf mag gd ⟨inc, some add, t, i⟩ hg hm hl, ?_⟩
  obtain ⟨h1, k, hk, h2⟩ := top_spec (N / 2 + 1) (by omega) (unscaled N fs inc fun k => gd.getD k 0)
  refine ⟨k, by omega, fun k' hk' => ?_, ?_⟩
  · have := h1 k' (by omega)
    rw [h2, unscaled_eq N fs hN hf, unscaled_eq N fs hN hf] at this
    have hc : 0 < 2 * Real.pi / (N : ℝ) := by positivity
    have := le_of_mul_le_mul_left this hc
    have := le_of_mul_le_mul_left this hfp
    linarith
  · have hmax : maxDelay N (unscaled N fs inc fun k => gd.getD k 0) =
        (⌊fs * (gd.getD k 0 + inc / 1000)⌋₊ : ℤ) + 1 := by
      unfold maxDelay
      rw [h2, unscaled_eq N fs hN hf]
      have e : 2 * Real.pi / (N : ℝ) * (fs * (gd.getD k 0 + inc / 1000)) * factorSamples N + 1 =
          fs * (gd.getD k 0 + inc / 1000) + 1 := by
        unfold factorSamples
        have := hpi.ne'
        field_simp
      rw [e]
      have h0 : 0 ≤ (fs : ℝ) * (gd.getD k 0 + inc / 1000) := mul_nonneg hfp.le (hpos k (by omega))
      unfold SignalData.truncInt
      rw [if_pos (by linarith), Int.floor_add_one, Int.natCast_floor_eq_floor h0]
    unfold trimmed
    dsimp only
    rw [List.length_map, List.length_range, hmax]
    unfold extra
    dsimp only
    split_ifs with hx
    · right
      exact ⟨by omega, hx.2.1⟩
    · left
      omega

/-! ### Linearisation of a phase -/

/-- Group delay of a phase on a grid of `M` bins, in radians per bin: central differences, and one-sided
ones at the ends. -/
noncomputable def Delay (M : ℕ) (u : ℕ → ℝ) (k : ℕ) : ℝ :=
  if k = 0 then -(u 1 - u 0)
  else if k = M - 1 then -(u (M - 1) - u (M - 2))
  else -(u (k + 1) - u (k - 1)) / 2

theorem gradient_delay (M : ℕ) (hM : 2 ≤ M) (u phase : ℕ → ℝ)
    (hu : ∀ k, k + 1 < M → |u (k + 1) - u k| < Real.pi)
    (hw : ∀ k < M, ∃ m : ℤ, phase k = u k + m * (2 * Real.pi)) (k : ℕ) (hk : k < M) :
    -GroupDelay.gradient M (Spectrum.unwrap phase) 1 k = Delay M u k := by
  have h := GroupDelay.unwrap_phase M u phase hu hw
  unfold GroupDelay.gradient Delay
  by_cases h0 : k = 0
  · rw [if_pos h0, if_pos h0, h 1 (by omega), h 0 (by omega)]
    ring
  rw [if_neg h0, if_neg h0]
  by_cases h1 : k = M - 1
  · rw [if_pos h1, if_pos h1, h _ (by omega), h _ (by omega)]
    ring
  · rw [if_neg h1, if_neg h1, h _ (by omega), h _ (by omega)]
    ring

/-- Integrating the delays by the trapezoidal rule gives the phase, smoothed over three bins. -/
theorem trapezoid_delay (M : ℕ) (hM : 2 ≤ M) (u : ℕ → ℝ) (c : ℝ) (k : ℕ) (hk : k + 1 < M) (h0 : 0 < k) :
    trapezoid (fun i => c - Delay M u i) k =
      k * c + ((u (k - 1) + 2 * u k + u (k + 1)) / 4 - u 0) := by
  have hin : ∀ i, 0 < i → i + 1 < M → Delay M u i = -(u (i + 1) - u (i - 1)) / 2 := by
    intro i h1 h2
    unfold Delay
    rw [if_neg (by omega), if_neg (by omega)]
  have hz : Delay M u 0 = -(u 1 - u 0) := by unfold Delay; rw [if_pos rfl]
  obtain ⟨j, rfl⟩ : ∃ j, k = j + 1 := ⟨k - 1, by omega⟩
  clear h0
  induction j with
  | zero =>
    unfold trapezoid
    rw [sum_range_one]
    dsimp only
    rw [hz, hin 1 (by omega) hk]
    norm_num
    ring
  | succ j ih =>
    unfold trapezoid at ih ⊢
    rw [sum_range_succ, ih (by omega)]
    dsimp only
    rw [hin (j + 1) (by omega) (by omega), hin (j + 1 + 1) (by omega) hk]
    simp only [Nat.add_sub_cancel]
    push_cast
    ring

theorem trapezoid_delay_last (M : ℕ) (hM : 2 ≤ M) (u : ℕ → ℝ) (c : ℝ) :
    trapezoid (fun i => c - Delay M u i) (M - 1) = (M - 1 : ℕ) * c + (u (M - 1) - u 0) := by
  have hz : Delay M u 0 = -(u 1 - u 0) := by unfold Delay; rw [if_pos rfl]
  have hl : Delay M u (M - 1) = -(u (M - 1) - u (M - 2)) := by
    unfold Delay
    rw [if_neg (by omega), if_pos rfl]
  by_cases h2 : M = 2
  · subst h2
    unfold trapezoid
    norm_num at hl ⊢
    rw [hz, hl]
    ring
  · obtain ⟨j, rfl⟩ : ∃ j, M = j + 3 := ⟨M - 3, by omega⟩
    have h := trapezoid_delay (j + 3) hM u c (j + 1) (by omega) (by omega)
    have hin : Delay (j + 3) u (j + 1) = -(u (j + 2) - u j) / 2 := by
      unfold Delay
      rw [if_neg (by omega), if_neg (by omega)]
      rfl
    rw [show j + 3 - 1 = j + 2 by omega] at hl ⊢
    rw [show j + 3 - 2 = j + 1 by omega] at hl
    unfold trapezoid at h ⊢
    rw [sum_range_succ, h]
    dsimp only
    rw [hin, hl]
    simp only [Nat.add_sub_cancel]
    push_cast
    ring

/-- The phase linearizer: the given phase `u` (wrapped in any way) and the phase of the filter add up to
a linear one with the group delay `(1 + percent / 100)` times the largest one; what remains is a
quarter of the second difference of the phase.  The magnitude of the filter is one. -/
theorem C109_linearizer (N fs : ℕ) (hN : 2 ≤ N) (hf : 0 < fs) (phase : List ℝ) (u : ℕ → ℝ)
    (percent : ℝ) (hp : 0 ≤ percent) (hlen : phase.length = N / 2 + 1)
    (hu : ∀ k, k + 1 ≤ N / 2 → |u (k + 1) - u k| < Real.pi)
    (hw : ∀ k ≤ N / 2, ∃ m : ℤ, phase.getD k 0 = u k + m * (2 * Real.pi))
    (G : ℝ) (hG : ∀ k ≤ N / 2, Delay (N / 2 + 1) u k ≤ G)
    (hG' : ∃ k ≤ N / 2, Delay (N / 2 + 1) u k = G)
    (hl : ∀ k ≤ N / 2, 10 * ((G * (1 + percent / 100) - Delay (N / 2 + 1) u k) *
      (N / (2 * Real.pi)) + 1) ≤ N) :
    ∃ h, phaseLinearizer N fs phase percent ⟨0, none, true, false⟩ = .ok h ∧ h.length = N ∧
      DeconvSpec.bin N (sig h) 0 = 1 ∧
      (∀ k, 0 < k → k < N / 2 → DeconvSpec.bin N (sig h) k * exp (I * phase.getD k 0) =
          exp (I * ((u 0 - k * (G * (1 + percent / 100)) -
            (u (k - 1) - 2 * u k + u (k + 1)) / 4 : ℝ) : ℂ))) ∧
      ∀ k, N = 2 * k + 1 → DeconvSpec.bin N (sig h) k * exp (I * phase.getD k 0) =
          exp (I * ((u 0 - k * (G * (1 + percent / 100)) : ℝ) : ℂ)) := by
  have hM : 2 ≤ N / 2 + 1 := by omega
  have hF := factorSeconds_pos N fs (by omega) hf
  have hgd := gradient_delay (N / 2 + 1) hM u (fun i => phase.getD i 0)
    (fun k hk => hu k (by omega)) (fun k hk => hw k (by omega))
  have htop : top (N / 2 + 1) (fun k => -GroupDelay.gradient (N / 2 + 1)
      (Spectrum.unwrap fun i => phase.getD i 0) 1 k) = G := by
    obtain ⟨h1, k, hk, h2⟩ := top_spec (N / 2 + 1) (by omega) (fun k => -GroupDelay.gradient
      (N / 2 + 1) (Spectrum.unwrap fun i => phase.getD i 0) 1 k)
    obtain ⟨j, hj, hj'⟩ := hG'
    refine le_antisymm ?_ ?_
    · rw [h2, hgd k hk]
      exact hG k (by omega)
    · rw [← hj', ← hgd j (by omega)]
      exact h1 j (by omega)
  have htar : ∀ k ≤ N / 2, linearizerTarget N fs (N / 2 + 1) (1 + percent / 100)
      (fun i => phase.getD i 0) k / factorSeconds N fs =
      G * (1 + percent / 100) - Delay (N / 2 + 1) u k := by
    intro k hk
    unfold linearizerTarget
    dsimp only
    rw [htop, hgd k (by omega), mul_div_cancel_right₀ _ hF.ne']
  have hd : phaseLinearizer N fs phase percent ⟨0, none, true, false⟩ = .ok (trimmed N
      (maxDelay N fun k => linearizerTarget N fs (N / 2 + 1) (1 + percent / 100)
        (fun i => phase.getD i 0) k / factorSeconds N fs) ⟨0, none, true, false⟩ (fun _ => 1)
      fun k => linearizerTarget N fs (N / 2 + 1) (1 + percent / 100)
        (fun i => phase.getD i 0) k / factorSeconds N fs) := by
    unfold phaseLinearizer design
    dsimp only
    rw [if_neg (not_not.mpr hp), if_neg (by omega), if_neg (by omega), hlen, if_neg]
    refine not_refines N (by omega) _ fun k hk => ?_
    rw [htar k hk]
    exact hl k hk
  have hbin : ∀ k, 2 * k < N → DeconvSpec.bin N (sig (trimmed N
      (maxDelay N fun k => linearizerTarget N fs (N / 2 + 1) (1 + percent / 100)
        (fun i => phase.getD i 0) k / factorSeconds N fs) ⟨0, none, true, false⟩ (fun _ => 1)
      fun k => linearizerTarget N fs (N / 2 + 1) (1 + percent / 100)
        (fun i => phase.getD i 0) k / factorSeconds N fs)) k =
      exp (I * ((-trapezoid (fun i => G * (1 + percent / 100) - Delay (N / 2 + 1) u i) k : ℝ) : ℂ)) := by
    intro k hk
    unfold trimmed
    dsimp only
    rw [bin_sig]
    unfold response
    dsimp only
    rw [if_neg (by simp), bin_irfft N (by omega) (fun _ => 1) _ (phaseOf_zero _ _ _) k (by omega),
      if_pos hk, Complex.ofReal_one, one_mul]
    congr 3
    unfold phaseOf trapezoid
    rw [if_pos rfl]
    congr 1
    refine sum_congr rfl fun i hi => ?_
    rw [mem_range] at hi
    dsimp only
    rw [htar i (by omega), htar (i + 1) (by omega)]
  refine ⟨_, hd, by simp [trimmed], ?_, fun k h0 hk2 => ?_, fun k hk => ?_⟩
  · rw [hbin 0 (by omega)]
    simp [trapezoid]
  · obtain ⟨m, hm⟩ := hw k (by omega)
    rw [hbin k (by omega), trapezoid_delay (N / 2 + 1) hM u _ k (by omega) h0, hm,
      ← Complex.exp_add, Complex.exp_eq_exp_iff_exists_int]
    refine ⟨m, ?_⟩
    push_cast
    ring
  · obtain ⟨m, hm⟩ := hw k (by omega)
    have hlast := trapezoid_delay_last (N / 2 + 1) hM u (G * (1 + percent / 100))
    rw [show N / 2 + 1 - 1 = k by omega] at hlast
    rw [hbin k (by omega), hlast, hm, ← Complex.exp_add, Complex.exp_eq_exp_iff_exists_int]
    refine ⟨m, ?_⟩
    push_cast
    ring

/-- The targets are not negative if any group delay is not. -/
theorem C109_linearizer_causal (N fs : ℕ) (hN : 2 ≤ N) (hf : 0 < fs) (phase u : ℕ → ℝ)
    (percent : ℝ) (hp : 0 ≤ percent)
    (hu : ∀ k, k + 1 ≤ N / 2 → |u (k + 1) - u k| < Real.pi)
    (hw : ∀ k ≤ N / 2, ∃ m : ℤ, phase k = u k + m * (2 * Real.pi))
    (hpos : ∃ k ≤ N / 2, 0 ≤ Delay (N / 2 + 1) u k) (k : ℕ) (hk : k ≤ N / 2) :
    0 ≤ linearizerTarget N fs (N / 2 + 1) (1 + percent / 100) phase k := by
  have hF := factorSeconds_pos N fs (by omega) hf
  have hgd := gradient_delay (N / 2 + 1) (by omega) u phase
    (fun k hk => hu k (by omega)) (fun k hk => hw k (by omega))
  obtain ⟨h1, -⟩ := top_spec (N / 2 + 1) (by omega) (fun k => -GroupDelay.gradient
    (N / 2 + 1) (Spectrum.unwrap phase) 1 k)
  obtain ⟨j, hj, h0⟩ := hpos
  unfold linearizerTarget
  dsimp only
  refine mul_nonneg ?_ hF.le
  have a := h1 k (by omega)
  have b := h1 j (by omega)
  rw [hgd j (by omega)] at b
  generalize top (N / 2 + 1) (fun k => -GroupDelay.gradient (N / 2 + 1) (Spectrum.unwrap phase) 1 k) =
    G at a b ⊢
  have : 0 ≤ G * (percent / 100) := mul_nonneg (by linarith) (by positivity)
  linarith

/-- Code fact: a phase whose group delays are all negative gets a negative target, more so the larger the
increase is: the filter would have to be acausal. -/
theorem C109_linearizer_acausal (N fs : ℕ) (hN : 2 ≤ N) (hf : 0 < fs) (phase u : ℕ → ℝ)
    (percent : ℝ) (hp : 0 < percent)
    (hu : ∀ k, k + 1 ≤ N / 2 → |u (k + 1) - u k| < Real.pi)
    (hw : ∀ k ≤ N / 2, ∃ m : ℤ, phase k = u k + m * (2 * Real.pi))
    (hneg : ∀ k ≤ N / 2, Delay (N / 2 + 1) u k < 0) :
    ∃ k ≤ N / 2, linearizerTarget N fs (N / 2 + 1) (1 + percent / 100) phase k < 0 := by
  have hF := factorSeconds_pos N fs (by omega) hf
  have hgd := gradient_delay (N / 2 + 1) (by omega) u phase
    (fun k hk => hu k (by omega)) (fun k hk => hw k (by omega))
  obtain ⟨h1, k, hk, h2⟩ := top_spec (N / 2 + 1) (by omega) (fun k => -GroupDelay.gradient
    (N / 2 + 1) (Spectrum.unwrap phase) 1 k)
  refine ⟨k, by omega, ?_⟩
  unfold linearizerTarget
  dsimp only
  rw [h2, hgd k hk]
  have := hneg k (by omega)
  refine mul_neg_of_neg_of_pos ?_ hF
  have : Delay (N / 2 + 1) u k * (percent / 100) < 0 := mul_neg_of_neg_of_pos this (by positivity)
  linarith

/-- A delay of three samples (1 ms and 2 ms increase at 1 kHz). -/
example : ∃ h, firDesigner 100 1000 (List.replicate 51 1) (List.replicate 51 0.001)
    ⟨2, some 0, true, false⟩ = .ok h :=
  ⟨_, C109_whole_samples 100 1000 3 (by norm_num) (by norm_num) 1 (by norm_num) 2 0.001 (by norm_num)
    0 true false⟩

example : LongEnough 100 1000 (List.replicate 51 0.001) 2 := by
  intro k hk
  rw [List.getD_eq_getElem _ _ (by simp; omega), List.getElem_replicate]
  norm_num

end Verif.FirDesigner

import Mathlib.Algebra.Order.Floor.Semifield
import Mathlib.Analysis.SpecialFunctions.Trigonometric.Bounds
import Verif.Model.LinearPhase
import Verif.Lemmas.Deconvolution

/-!
# C88: linear-phase responses from magnitudes
-/

namespace Verif.LinearPhase

open Complex Transforms DFT Finset MinimumPhase

/-- A grid from zero to the Nyquist frequency for `n` samples, `n` even. -/
structure Grid (fs : ℕ) (f : List ℚ) (n : ℕ) : Prop where
  two : 2 ≤ f.length
  len : n = 2 * (f.length - 1)
  freq : ∀ k < f.length, f.getD k 0 = (k : ℚ) * fs / n

theorem frequencyVector_grid (delta : ℚ) (fs : ℕ) (f : List ℚ) (d : ℚ) (n : ℕ)
    (h : frequencyVector delta fs = .ok (f, d, n)) : Grid fs f n := by
  unfold frequencyVector at h
  by_cases h0 : delta = 0
  · rw [if_pos h0] at h
    cases h
  rw [if_neg h0] at h
  dsimp only at h
  generalize (if ⌊(fs : ℚ) / 2 / delta + 0.5⌋₊ % 2 = 0 then ⌊(fs : ℚ) / 2 / delta + 0.5⌋₊ + 1
    else ⌊(fs : ℚ) / 2 / delta + 0.5⌋₊) = l at h
  by_cases h1 : l ≤ 1
  · rw [if_pos h1] at h
    cases h
  rw [if_neg h1] at h
  have h2 := Prod.mk.inj (Except.ok.inj h)
  obtain ⟨rfl, h3⟩ := h2
  obtain ⟨-, rfl⟩ := Prod.mk.inj h3
  refine ⟨by simp; omega, by simp; omega, fun k hk => ?_⟩
  rw [List.getD_eq_getElem _ _ hk]
  simp only [List.getElem_map, List.getElem_range]
  push_cast
  rw [mul_comm ((l - 1 : ℕ) : ℚ) 2, div_mul_eq_mul_div, div_div, mul_comm (fs : ℚ)]

/-- The grid and the delay for a requested group delay. -/
theorem plan_some (fs nch : ℕ) (ms : ℚ) (check : Bool) (factor : ℚ) (minGd : List ℚ → ℕ → ℚ)
    (f : List ℚ) (d : ℚ) (n : ℕ) (hms : ms ≠ 0)
    (hf : frequencyVector (1 / (ms / 1000 * 2) * 0.9) fs = .ok (f, d, n)) :
    plan fs nch (some ms) check factor minGd =
      if check = true ∧ ¬ (1 ≤ factor ∧ ∀ c < nch, factor * (minGd f c + 1e-3) ≤ ms / 1000)
      then .error .assertionError else .ok (f, n, fun _ => ms / 1000) := by
  have h0 : ¬ ms / 1000 = 0 := div_ne_zero hms (by norm_num)
  unfold plan
  dsimp only
  rw [if_neg h0]
  simp only [hf, bind, Except.bind, pure, Except.pure, throw, throwThe, MonadExceptOf.throw]
  cases check
  · simp
  · by_cases h1 : 1 ≤ factor
    · by_cases h2 : ∃ c < nch, ¬ factor * (minGd f c + 1e-3) ≤ ms / 1000
      · have h3 : ¬ ∀ c < nch, factor * (minGd f c + 1e-3) ≤ ms / 1000 := by
          push Not
          push Not at h2
          exact h2
        simp only [if_true, h1, not_true_eq_false, if_false, if_pos h2, h3, and_false, not_false_eq_true,
          true_and]
      · have h3 : ∀ c < nch, factor * (minGd f c + 1e-3) ≤ ms / 1000 := by
          intro c hc
          by_contra h
          exact h2 ⟨c, hc, h⟩
        simp only [h1, not_true_eq_false, if_false, if_neg h2, true_and, ite_self]
        rw [if_neg (fun h => h h3)]
    · simp only [if_true, h1, not_false_eq_true, false_and, true_and]

theorem plan_grid (fs nch : ℕ) (delayMs : Option ℚ) (check : Bool) (factor : ℚ) (minGd : List ℚ → ℕ → ℚ)
    (f : List ℚ) (n : ℕ) (tau : ℕ → ℚ)
    (h : plan fs nch delayMs check factor minGd = .ok (f, n, tau)) : Grid fs f n := by
  cases delayMs with
  | none =>
    unfold plan at h
    cases h1 : frequencyVector 0.5 fs with
    | error e => rw [h1] at h; cases h
    | ok r =>
      obtain ⟨f1, d1, n1⟩ := r
      have hg := frequencyVector_grid _ _ _ _ _ h1
      simp only [h1, bind, Except.bind, pure, Except.pure, throw, throwThe, MonadExceptOf.throw] at h
      split at h
      · cases h
      · split at h
        · split at h
          · cases h
          · rename_i v hv
            obtain ⟨f2, d2, n2⟩ := v
            cases h
            exact frequencyVector_grid _ _ _ _ _ hv
        · cases h
          exact hg
  | some ms =>
    by_cases h0 : ms = 0
    · subst h0
      unfold plan at h
      dsimp only at h
      rw [if_pos (by norm_num)] at h
      cases h
    cases h1 : frequencyVector (1 / (ms / 1000 * 2) * 0.9) fs with
    | error e =>
      unfold plan at h
      dsimp only at h
      rw [if_neg (div_ne_zero h0 (by norm_num)), h1] at h
      cases h
    | ok r =>
      obtain ⟨f1, d1, n1⟩ := r
      rw [plan_some fs nch ms check factor minGd f1 d1 n1 h0 h1] at h
      split at h
      · cases h
      · cases h
        exact frequencyVector_grid _ _ _ _ _ h1

/-- The corrected phase is that of a delay by a whole number of samples, the next one. -/
theorem corrected (fs : ℕ) (f : List ℚ) (n : ℕ) (hg : Grid fs f n) (tau : ℚ) (k : ℕ) (hk : k < f.length) :
    correctPhase f.length (fun k => -2 * Real.pi * (f.getD k 0 : ℝ) * (tau : ℝ)) k =
      -(2 * Real.pi * k * (⌈fs * tau⌉ : ℤ) / n) := by
  have hn : (n : ℝ) = 2 * (f.length - 1 : ℕ) := by
    rw [hg.len]
    push_cast
    rfl
  have hM : ((f.length - 1 : ℕ) : ℝ) ≠ 0 := by
    have := hg.two
    exact_mod_cast (by omega : f.length - 1 ≠ 0)
  have hfr : ∀ k < f.length, (f.getD k 0 : ℝ) = (k : ℝ) * fs / n := by
    intro k hk
    rw [hg.freq k hk]
    push_cast
    rfl
  unfold correctPhase pmod
  dsimp only
  rw [hfr k hk, hfr (f.length - 1) (by omega)]
  generalize ((f.length - 1 : ℕ) : ℝ) = m at *
  have hp := Real.pi_ne_zero
  have h1 : -2 * Real.pi * (m * fs / n) * (tau : ℝ) / Real.pi = -(((fs * tau : ℚ)) : ℝ) := by
    rw [hn]
    push_cast
    field_simp
  rw [h1]
  have h2 : ⌊-(((fs * tau : ℚ)) : ℝ)⌋ = -⌈fs * tau⌉ := by
    rw [Int.floor_neg]
    congr 1
    exact Rat.ceil_cast _
  rw [h2, hn]
  push_cast
  field_simp
  ring

/-- The spectrum that the response is made from. -/
noncomputable def shifted (n : ℕ) (mag : ℕ → ℝ) (d : ℤ) (k : ℕ) : ℂ := (mag k : ℂ) * e n (-(k * d))

theorem full_eq (fs : ℕ) (f : List ℚ) (n : ℕ) (hg : Grid fs f n) (tau : ℚ) (mag : ℕ → ℝ) :
    full f n tau mag = fun j => Deconv.irfft n f.length (shifted n mag ⌈fs * tau⌉) j := by
  funext j
  unfold full Deconv.irfft
  have : (fun k => if k < f.length then (mag k : ℂ) * exp (I * correctPhase f.length
      (fun k => -2 * Real.pi * (f.getD k 0 : ℝ) * (tau : ℝ)) k) else 0) =
      fun k => if k < f.length then shifted n mag ⌈fs * tau⌉ k else 0 := by
    funext k
    by_cases hk : k < f.length
    · rw [if_pos hk, if_pos hk, corrected fs f n hg tau k hk]
      unfold shifted e
      congr 2
      push_cast
      ring
    · rw [if_neg hk, if_neg hk]
  rw [this]

/-- The whole spectrum: mirrored magnitudes with the phase of a delay. -/
theorem herm_shifted (n M : ℕ) (hM : 2 ≤ M) (hn : n = 2 * (M - 1)) (mag : ℕ → ℝ) (d : ℤ) (k : ℕ) (hk : k < n) :
    Deconv.herm n (fun k => if k < M then shifted n mag d k else 0) k =
      (mag (if k < M then k else n - k) : ℂ) * e n (-(k * d)) := by
  have hn0 : n ≠ 0 := by omega
  unfold Deconv.herm shifted
  dsimp only
  by_cases h0 : k = 0
  · subst h0
    rw [if_pos rfl, if_pos (by omega), if_pos (by omega)]
    simp [e_zero]
  rw [if_neg h0]
  by_cases h1 : 2 * k < n
  · rw [if_pos h1, if_pos (by omega), if_pos (by omega)]
  rw [if_neg h1]
  by_cases h2 : 2 * k = n
  · rw [if_pos h2, if_pos (by omega), if_pos (by omega)]
    refine Complex.conj_eq_iff_re.1 ?_
    rw [map_mul, e_conj, Complex.conj_ofReal]
    congr 1
    rw [← e_period n hn0 (-(k * d)) d]
    congr 1
    rw [← h2]
    push_cast
    ring
  · rw [if_neg h2, if_pos (by omega), if_neg (by omega), map_mul, e_conj, Complex.conj_ofReal]
    congr 1
    rw [← e_period n hn0 (-(k * d)) d]
    congr 1
    rw [Nat.cast_sub hk.le]
    ring

/-- On a grid, the response has the given magnitudes in every bin, and the phase of a delay of whole
samples. -/
theorem full_spectrum (fs : ℕ) (f : List ℚ) (n : ℕ) (hg : Grid fs f n) (tau : ℚ) (mag : ℕ → ℝ) (k : ℕ)
    (hk : k < f.length) : rfft n (full f n tau mag) k = (mag k : ℂ) * e n (-(k * ⌈fs * tau⌉)) := by
  have h2 := hg.two
  have hn := hg.len
  rw [full_eq fs f n hg tau mag]
  refine (Deconv.rfft_irfft n f.length _ k (by omega)).trans ?_
  rw [herm_shifted n f.length h2 hn mag _ k (by omega), if_pos hk]

theorem full_sum (fs : ℕ) (f : List ℚ) (n : ℕ) (hg : Grid fs f n) (tau : ℚ) (mag : ℕ → ℝ) (j : ℕ) :
    full f n tau mag j = ((∑ k ∈ range n, (mag (if k < f.length then k else n - k) : ℂ) *
      e n (k * (j - ⌈fs * tau⌉))) / n).re := by
  rw [full_eq fs f n hg tau mag]
  show Deconv.irfft _ _ _ _ = _
  unfold Deconv.irfft
  congr 2
  refine sum_congr rfl fun k hk => ?_
  rw [herm_shifted n f.length hg.two hg.len mag _ k (mem_range.1 hk), mul_assoc, ← e_add]
  congr 2
  ring

theorem full_symmetric (fs : ℕ) (f : List ℚ) (n : ℕ) (hg : Grid fs f n) (tau : ℚ) (mag : ℕ → ℝ) (i j : ℕ)
    (hij : (n : ℤ) ∣ (i : ℤ) + j - 2 * ⌈fs * tau⌉) : full f n tau mag i = full f n tau mag j := by
  have hn0 : n ≠ 0 := by
    have := hg.two
    have := hg.len
    omega
  rw [full_sum fs f n hg, full_sum fs f n hg, ← Complex.conj_re, map_div₀, map_sum, Complex.conj_natCast]
  congr 2
  refine sum_congr rfl fun k _ => ?_
  rw [map_mul, e_conj, Complex.conj_ofReal]
  congr 1
  obtain ⟨c, hc⟩ := hij
  rw [← e_period n hn0 (-(k * (i - ⌈fs * tau⌉))) (k * c)]
  congr 1
  linear_combination -(k : ℤ) * hc

/-! ### The property -/

theorem linPhase_eq (fs nch : ℕ) (delayMs : Option ℚ) (check : Bool) (factor : ℚ)
    (minGd : List ℚ → ℕ → ℚ) (interp : List ℚ → ℕ → ℕ → ℝ) (f : List ℚ) (n : ℕ) (tau : ℕ → ℚ)
    (h : plan fs nch delayMs check factor minGd = .ok (f, n, tau)) :
    linPhase fs nch delayMs check factor minGd interp = .ok ((List.range nch).map fun c =>
      (List.range ⌊2 * maxDelay nch tau * fs + 0.5⌋₊).map fun j =>
        if j < n then full f n (tau c) (interp f c) j else 0) := by
  unfold linPhase
  rw [h]
  rfl

/-- Every channel of the result is cut from a response `y` with exactly the interpolated magnitudes in
every bin and the phase of a delay by a whole number of samples: the group delay of the channel, rounded
up. -/
theorem C88_linear_phase (fs nch : ℕ) (delayMs : Option ℚ) (check : Bool) (factor : ℚ)
    (minGd : List ℚ → ℕ → ℚ) (interp : List ℚ → ℕ → ℕ → ℝ) (f : List ℚ) (n : ℕ) (tau : ℕ → ℚ)
    (h : plan fs nch delayMs check factor minGd = .ok (f, n, tau)) :
    ∃ r, linPhase fs nch delayMs check factor minGd interp = .ok r ∧ r.length = nch ∧
      n = 2 * (f.length - 1) ∧ (∀ k < f.length, f.getD k 0 = (k : ℚ) * fs / n) ∧
      ∀ c < nch, ∃ y : ℕ → ℝ,
        (∀ k < f.length, rfft n y k = (interp f c k : ℂ) * e n (-(k * ⌈fs * tau c⌉))) ∧
        (∀ i j : ℕ, (n : ℤ) ∣ (i : ℤ) + j - 2 * ⌈fs * tau c⌉ → y i = y j) ∧
        (r.getD c []).length = ⌊2 * maxDelay nch tau * fs + 0.5⌋₊ ∧
        ∀ j < (r.getD c []).length, (r.getD c []).getD j 0 = if j < n then y j else 0 := by
  have hg := plan_grid _ _ _ _ _ _ _ _ _ h
  refine ⟨_, linPhase_eq fs nch delayMs check factor minGd interp f n tau h, by simp, hg.len, hg.freq,
    fun c hc => ⟨full f n (tau c) (interp f c), fun k hk => full_spectrum fs f n hg _ _ k hk,
      fun i j hij => full_symmetric fs f n hg _ _ i j hij, ?_⟩⟩
  rw [List.getD_eq_getElem _ _ (by simpa using hc)]
  simp only [List.getElem_map, List.getElem_range]
  refine ⟨by simp, fun j hj => ?_⟩
  rw [List.getD_eq_getElem _ _ hj]
  simp only [List.getElem_map, List.getElem_range]

/-- The magnitudes are exact in every bin before the response is cut. -/
theorem C88_magnitude (fs nch : ℕ) (delayMs : Option ℚ) (check : Bool) (factor : ℚ)
    (minGd : List ℚ → ℕ → ℚ) (mag : ℕ → ℝ) (f : List ℚ) (n : ℕ) (tau : ℕ → ℚ)
    (h : plan fs nch delayMs check factor minGd = .ok (f, n, tau)) (c k : ℕ) (hk : k < f.length)
    (hmag : 0 ≤ mag k) : ‖rfft n (full f n (tau c) mag) k‖ = mag k := by
  have hg := plan_grid _ _ _ _ _ _ _ _ _ h
  have he : ∀ d, ‖e n d‖ = 1 := by
    intro d
    unfold e
    rw [show 2 * (Real.pi : ℂ) * I * ((d : ℂ) / (n : ℂ)) = ((2 * Real.pi * (d / n) : ℝ) : ℂ) * I by
      push_cast
      ring]
    exact Complex.norm_exp_ofReal_mul_I _
  rw [full_spectrum fs f n hg _ _ k hk, norm_mul, he, Complex.norm_real, Real.norm_eq_abs,
    abs_of_nonneg hmag, mul_one]

/-- The real delay is at most one sample longer than the requested one. -/
theorem C88_delay_error (fs : ℕ) (hfs : 0 < fs) (tau : ℚ) :
    tau ≤ (⌈fs * tau⌉ : ℚ) / fs ∧ (⌈fs * tau⌉ : ℚ) / fs < tau + 1 / fs := by
  have hfs' : (0 : ℚ) < fs := by exact_mod_cast hfs
  constructor
  · rw [le_div_iff₀ hfs', mul_comm]
    exact Int.le_ceil _
  · rw [div_lt_iff₀ hfs', add_mul, one_div, inv_mul_cancel₀ hfs'.ne', mul_comm tau]
    exact Int.ceil_lt_add_one _

/-- A delay below the smallest causal one is refused, if this is to be checked, and only then. -/
theorem C88_causality (fs nch : ℕ) (ms : ℚ) (check : Bool) (factor : ℚ) (minGd : List ℚ → ℕ → ℚ)
    (interp : List ℚ → ℕ → ℕ → ℝ) (f : List ℚ) (d : ℚ) (n : ℕ) (hms : ms ≠ 0) (hfactor : 1 ≤ factor)
    (hf : frequencyVector (1 / (ms / 1000 * 2) * 0.9) fs = .ok (f, d, n)) :
    linPhase fs nch (some ms) check factor minGd interp = .error .assertionError ↔
      check = true ∧ ∃ c < nch, ms / 1000 < factor * (minGd f c + 1e-3) := by
  unfold linPhase
  rw [plan_some fs nch ms check factor minGd f d n hms hf]
  have h1 : (check = true ∧ ¬ (1 ≤ factor ∧ ∀ c < nch, factor * (minGd f c + 1e-3) ≤ ms / 1000)) ↔
      (check = true ∧ ∃ c < nch, ms / 1000 < factor * (minGd f c + 1e-3)) := by
    simp only [hfactor, true_and]
    push Not
    rfl
  by_cases h : check = true ∧ ¬ (1 ≤ factor ∧ ∀ c < nch, factor * (minGd f c + 1e-3) ≤ ms / 1000)
  · rw [if_pos h]
    exact ⟨fun _ => h1.1 h, fun _ => rfl⟩
  · rw [if_neg h]
    exact ⟨fun h' => (by cases h'), fun h' => absurd (h1.2 h') h⟩

theorem maxDelay_const (nch : ℕ) (s : ℚ) : maxDelay nch (fun _ => s) = s := by
  unfold maxDelay
  dsimp only
  generalize List.range nch = l
  induction l with
  | nil => rfl
  | cons a l ih =>
    rw [List.map_cons, List.foldl_cons, max_self]
    exact ih

theorem foldl_max (l : List ℚ) (a : ℚ) :
    (∀ x ∈ l, x ≤ l.foldl max a) ∧ a ≤ l.foldl max a ∧ (l.foldl max a = a ∨ l.foldl max a ∈ l) := by
  induction l generalizing a with
  | nil => simp
  | cons b l ih =>
    obtain ⟨h1, h2, h3⟩ := ih (max a b)
    rw [List.foldl_cons]
    refine ⟨fun x hx => ?_, (le_max_left a b).trans h2, ?_⟩
    · rcases List.mem_cons.1 hx with rfl | hx
      · exact (le_max_right a x).trans h2
      · exact h1 x hx
    · rcases h3 with h3 | h3
      · rw [h3]
        rcases max_choice a b with h | h
        · exact .inl h
        · right
          rw [h]
          exact List.mem_cons_self
      · exact .inr (List.mem_cons_of_mem _ h3)

/-- The length is twice the largest delay of all channels, rounded to the nearest sample. -/
theorem C88_length (fs nch : ℕ) (hnch : 0 < nch) (delayMs : Option ℚ) (check : Bool) (factor : ℚ)
    (minGd : List ℚ → ℕ → ℚ) (interp : List ℚ → ℕ → ℕ → ℝ) (f : List ℚ) (n : ℕ) (tau : ℕ → ℚ)
    (h : plan fs nch delayMs check factor minGd = .ok (f, n, tau)) :
    ∃ r c0, linPhase fs nch delayMs check factor minGd interp = .ok r ∧ c0 < nch ∧
      (∀ c < nch, tau c ≤ tau c0) ∧
      ∀ c < nch, (r.getD c []).length = ⌊2 * tau c0 * fs + 1 / 2⌋₊ := by
  obtain ⟨r, h1, -, -, -, h2⟩ := C88_linear_phase fs nch delayMs check factor minGd interp f n tau h
  obtain ⟨h3, -, h4⟩ := foldl_max ((List.range nch).map tau) (tau 0)
  have h5 : ∃ c0 < nch, maxDelay nch tau = tau c0 := by
    rcases h4 with h4 | h4
    · exact ⟨0, hnch, h4⟩
    · obtain ⟨c0, hc0, h6⟩ := List.mem_map.1 h4
      exact ⟨c0, List.mem_range.1 hc0, h6.symm⟩
  obtain ⟨c0, hc0, h6⟩ := h5
  refine ⟨r, c0, h1, hc0, fun c hc => ?_, fun c hc => ?_⟩
  · rw [← h6]
    exact h3 _ (List.mem_map.2 ⟨c, List.mem_range.2 hc, rfl⟩)
  · obtain ⟨y, -, -, h7, -⟩ := h2 c hc
    rw [h7, h6, show (0.5 : ℚ) = 1 / 2 by norm_num]

/-- Without a requested delay every channel is delayed by at least one millisecond more than the largest
group delay of its minimum-phase version. -/
theorem C88_minimum_delay (fs nch : ℕ) (check : Bool) (factor : ℚ) (minGd : List ℚ → ℕ → ℚ) (f : List ℚ)
    (n : ℕ) (tau : ℕ → ℚ) (h : plan fs nch none check factor minGd = .ok (f, n, tau)) :
    1 ≤ factor ∧ ∃ f0 d0 n0, frequencyVector (1 / 2) fs = .ok (f0, d0, n0) ∧
      ∀ c, tau c = factor * (minGd f0 c + 1 / 1000) := by
  unfold plan at h
  rw [show (1 / 2 : ℚ) = 0.5 by norm_num, show (1 / 1000 : ℚ) = 1e-3 by norm_num]
  cases h1 : frequencyVector 0.5 fs with
  | error e => rw [h1] at h; cases h
  | ok r =>
    obtain ⟨f1, d1, n1⟩ := r
    simp only [h1, bind, Except.bind, pure, Except.pure, throw, throwThe, MonadExceptOf.throw] at h
    split at h
    · cases h
    · rename_i hfac
      refine ⟨not_not.1 hfac, f1, d1, n1, rfl, ?_⟩
      split at h
      · split at h
        · cases h
        · cases h
          exact fun c => rfl
      · cases h
        exact fun c => rfl

/-- Without a requested delay the spectra have room for twice the delay of every channel (of at least 13.5
samples). -/
theorem C88_long_enough (fs nch : ℕ) (hfs : 0 < fs) (check : Bool) (factor : ℚ) (minGd : List ℚ → ℕ → ℚ)
    (f : List ℚ) (n : ℕ) (tau : ℕ → ℚ) (h : plan fs nch none check factor minGd = .ok (f, n, tau))
    (c : ℕ) (hc : c < nch) (htau : 27 / 2 ≤ fs * tau c) : 2 * (fs * tau c) ≤ n := by
  have hfs' : (0 : ℚ) < fs := by exact_mod_cast hfs
  unfold plan at h
  cases h1 : frequencyVector 0.5 fs with
  | error e => rw [h1] at h; cases h
  | ok r =>
    obtain ⟨f1, d1, n1⟩ := r
    simp only [h1, bind, Except.bind, pure, Except.pure, throw, throwThe, MonadExceptOf.throw] at h
    split at h
    · cases h
    · split at h
      · split at h
        · cases h
        · rename_i r2 h2
          cases h
          set tau : ℕ → ℚ := fun c => factor * (minGd f1 c + 1e-3) with htau'
          set M := maxDelay nch tau with hM
          have hle : tau c ≤ M :=
            (foldl_max ((List.range nch).map tau) (tau 0)).1 _
              (List.mem_map.2 ⟨c, List.mem_range.2 hc, rfl⟩)
          have hMfs : 27 / 2 ≤ fs * M := htau.trans (mul_le_mul_of_nonneg_left hle hfs'.le)
          have hM0 : 0 < M := by
            by_contra h0
            have := mul_nonpos_of_nonneg_of_nonpos hfs'.le (not_lt.1 h0)
            linarith
          unfold frequencyVector at h2
          rw [if_neg (by positivity)] at h2
          dsimp only at h2
          have e : (fs : ℚ) / 2 / (1 / (M * 2) * 0.9) + 0.5 = fs * M / 0.9 + 0.5 := by
            field_simp
          rw [e] at h2
          have hl := Nat.lt_floor_add_one ((fs : ℚ) * M / 0.9 + 0.5)
          generalize ⌊(fs : ℚ) * M / 0.9 + 0.5⌋₊ = l at *
          have hc' : (fs : ℚ) * tau c ≤ fs * M := mul_le_mul_of_nonneg_left hle hfs'.le
          have hll : l ≤ (if l % 2 = 0 then l + 1 else l) := by split_ifs <;> omega
          generalize (if l % 2 = 0 then l + 1 else l) = l' at *
          split_ifs at h2
          cases h2
          dsimp only
          have h5 : ((l : ℕ) : ℚ) ≤ l' := by exact_mod_cast hll
          rw [Nat.cast_mul, Nat.cast_sub (by omega)]
          push_cast
          have : (fs : ℚ) * M / 0.9 = fs * M + fs * M / 9 := by ring
          linarith
      · rename_i h2
        cases h
        push Not at h2
        have := h2 c hc
        rw [le_div_iff₀ hfs'] at this
        linarith

/-- A delay of `m` whole samples (at least four): the result has `2 m` samples, twice the delay, and is
symmetric around sample `m`. -/
theorem C88_symmetric_partial (fs nch m : ℕ) (hfs : 0 < fs) (hm : 4 ≤ m) (factor : ℚ)
    (minGd : List ℚ → ℕ → ℚ) (interp : List ℚ → ℕ → ℕ → ℝ) :
    ∃ r, linPhase fs nch (some (1000 * m / fs)) false factor minGd interp = .ok r ∧ r.length = nch ∧
      ∀ c < nch, (r.getD c []).length = 2 * m ∧
        ∀ j < m, (r.getD c []).getD (m + j) 0 = (r.getD c []).getD (m - j) 0 := by
  have hfs' : (fs : ℚ) ≠ 0 := by exact_mod_cast hfs.ne'
  have hm' : (m : ℚ) ≠ 0 := by exact_mod_cast (by omega : m ≠ 0)
  have hs : (1000 * m / fs : ℚ) / 1000 = m / fs := by
    field_simp
  have hfl : ⌊(fs : ℚ) / 2 / (1 / (m / fs * 2) * 0.9) + 0.5⌋₊ = (20 * m + 9) / 18 := by
    rw [show (fs : ℚ) / 2 / (1 / (m / fs * 2) * 0.9) + 0.5 = ((20 * m + 9 : ℕ) : ℚ) / (18 : ℕ) by
      push_cast
      field_simp
      ring]
    exact Nat.floor_div_eq_div (K := ℚ) _ 18
  obtain ⟨f, d, n, hf, hn⟩ : ∃ f d n, frequencyVector (1 / ((1000 * m / fs : ℚ) / 1000 * 2) * 0.9) fs = .ok (f, d, n) ∧
      2 * m ≤ n := by
    rw [hs]
    unfold frequencyVector
    rw [if_neg (by positivity)]
    dsimp only
    rw [hfl, if_neg (by split_ifs <;> omega)]
    exact ⟨_, _, _, rfl, by split_ifs <;> omega⟩
  have hp := plan_some fs nch (1000 * m / fs) false factor minGd f d n (by positivity) hf
  rw [if_neg (by simp), hs] at hp
  obtain ⟨r, h1, h2, -, -, h3⟩ := C88_linear_phase fs nch _ false factor minGd interp f n _ hp
  refine ⟨r, h1, h2, fun c hc => ?_⟩
  obtain ⟨y, -, h4, h5, h6⟩ := h3 c hc
  have h7 : (r.getD c []).length = 2 * m := by
    rw [h5, maxDelay_const, show 2 * ((m : ℚ) / fs) * fs + 0.5 = ((4 * m + 1 : ℕ) : ℚ) / (2 : ℕ) by
      push_cast
      field_simp
      ring, Nat.floor_div_eq_div (K := ℚ)]
    omega
  refine ⟨h7, fun j hj => ?_⟩
  rw [h6 _ (by omega), h6 _ (by omega), if_pos (by omega), if_pos (by omega)]
  refine h4 _ _ ?_
  have h8 : (fs : ℚ) * (m / fs) = (m : ℤ) := by
    push_cast
    field_simp
  rw [h8, Int.ceil_intCast, Nat.cast_sub hj.le]
  push_cast
  rw [show (m : ℤ) + j + (m - j) - 2 * m = 0 by ring]
  exact dvd_zero _

theorem full_one (fs : ℕ) (f : List ℚ) (n : ℕ) (hg : Grid fs f n) (tau : ℚ) (j : ℕ) :
    full f n tau (fun _ => 1) j = if (n : ℤ) ∣ j - ⌈fs * tau⌉ then 1 else 0 := by
  have hn0 : n ≠ 0 := by
    have := hg.two
    have := hg.len
    omega
  rw [full_sum fs f n hg]
  simp only [Complex.ofReal_one, one_mul]
  rw [sum_e n hn0]
  have hn' : (n : ℂ) ≠ 0 := by exact_mod_cast hn0
  split_ifs
  · rw [div_self hn']
    rfl
  · rw [zero_div]
    rfl

/-- The delay is not the requested one, not even rounded to the nearest sample: a flat spectrum with
10.1 ms at 1000 Hz (10.1 samples) gives an impulse at sample 11. -/
theorem C88_delay_wrong (factor : ℚ) (minGd : List ℚ → ℕ → ℚ) :
    ∃ r, linPhase 1000 1 (some 10.1) false factor minGd (fun _ _ _ => 1) = .ok [r] ∧ r.length = 20 ∧
      ∀ j < 20, r.getD j 0 = if j = 11 then 1 else 0 := by
  have hfl : ⌊(1000 : ℚ) / 2 / (1 / ((10.1 : ℚ) / 1000 * 2) * 0.9) + 0.5⌋₊ = 11 := by
    rw [Nat.floor_eq_iff (by norm_num)]
    norm_num
  obtain ⟨f, d, hf⟩ : ∃ f d, frequencyVector (1 / ((10.1 : ℚ) / 1000 * 2) * 0.9) 1000 = .ok (f, d, 20) := by
    unfold frequencyVector
    rw [if_neg (by norm_num)]
    dsimp only
    rw [show ((1000 : ℕ) : ℚ) = 1000 by norm_num, hfl]
    exact ⟨_, _, rfl⟩
  have hg := frequencyVector_grid _ _ _ _ _ hf
  have hp := plan_some 1000 1 10.1 false factor minGd f d 20 (by norm_num) hf
  rw [if_neg (by simp)] at hp
  have h1 := linPhase_eq 1000 1 _ false factor minGd (fun _ _ _ => 1) f 20 _ hp
  have h2 : ⌊2 * maxDelay 1 (fun _ => (10.1 : ℚ) / 1000) * (1000 : ℕ) + 0.5⌋₊ = 20 := by
    rw [maxDelay_const, Nat.floor_eq_iff (by norm_num)]
    norm_num
  rw [h2] at h1
  refine ⟨_, h1, by simp, fun j hj => ?_⟩
  rw [List.getD_eq_getElem _ _ (by simpa using hj)]
  simp only [List.getElem_map, List.getElem_range]
  rw [if_pos hj, full_one 1000 f 20 hg]
  have h3 : ⌈((1000 : ℕ) : ℚ) * (10.1 / 1000)⌉ = 11 := by
    rw [Int.ceil_eq_iff]
    norm_num
  rw [h3]
  by_cases h4 : j = 11
  · rw [if_pos h4, if_pos (by subst h4; norm_num)]
  · rw [if_neg h4, if_neg (by push_cast; omega)]

/-! ### Examples -/

/-- 10 ms at 48 kHz for two channels -/
example (interp : List ℚ → ℕ → ℕ → ℝ) : ∃ r, linPhase 48000 2 (some (1000 * 480 / 48000)) false 1
    (fun _ _ => 1 / 1000) interp = .ok r ∧ r.length = 2 := by
  obtain ⟨r, h1, h2, -⟩ := C88_symmetric_partial 48000 2 480 (by norm_num) (by norm_num) 1
    (fun _ _ => 1 / 1000) interp
  push_cast at h1
  exact ⟨r, h1, h2⟩

/-- The smallest delays of two channels with 5 and 7 ms at 48 kHz -/
example : ∃ f tau, plan 48000 2 none true 1 (fun _ c => if c = 0 then 5 / 1000 else 7 / 1000) =
    .ok (f, 96000, tau) ∧ tau 0 = 6 / 1000 ∧ tau 1 = 8 / 1000 := by
  have hfl : ⌊((48000 : ℕ) : ℚ) / 2 / 0.5 + 0.5⌋₊ = 48000 := by
    rw [Nat.floor_eq_iff (by norm_num)]
    norm_num
  obtain ⟨f, d, hf⟩ : ∃ f d, frequencyVector 0.5 48000 = .ok (f, d, 96000) := by
    unfold frequencyVector
    rw [if_neg (by norm_num)]
    dsimp only
    rw [hfl]
    exact ⟨_, _, rfl⟩
  refine ⟨f, fun c => 1 * ((if c = 0 then 5 / 1000 else 7 / 1000) + 1e-3), ?_, by norm_num, by norm_num⟩
  unfold plan
  simp only [hf, bind, Except.bind, pure, Except.pure]
  rw [if_neg (by norm_num), if_neg]
  rintro ⟨c, -, hc⟩
  split_ifs at hc <;> norm_num at hc

end Verif.LinearPhase

import Mathlib.Algebra.Order.Floor.Semifield
import Verif.Model.MinimumPhase
import Verif.Lemmas.Deconvolution
import Verif.Props.C66

/-!
# C87: minimum-phase versions keep the magnitude spectrum and depend on nothing else
-/

namespace Verif.MinimumPhase

open Complex Transforms DFT Finset

/-! ### Cepstrum and analytic signal -/

theorem conj_real_ifft (N : ℕ) (L : ℕ → ℝ) (n : ℕ) :
    rfft N L n = N * (starRingEnd ℂ) (ifft N (fun k => (L k : ℂ)) n) := by
  by_cases hN : N = 0
  · subst hN
    simp [rfft, dft]
  have hN' : (N : ℂ) ≠ 0 := by exact_mod_cast hN
  unfold ifft rfft dft
  rw [map_div₀, map_sum, Complex.conj_natCast, mul_div_cancel₀ _ hN']
  refine sum_congr rfl fun k _ => ?_
  rw [map_mul, e_conj, Complex.conj_ofReal, mul_comm (n : ℤ)]

/-- A real sequence that is even on the circle. -/
def EvenSeq (N : ℕ) (L : ℕ → ℝ) : Prop := ∀ k, 0 < k → k < N → L (N - k) = L k

theorem ifft_even_im (N : ℕ) (L : ℕ → ℝ) (h : EvenSeq N L) (n : ℕ) :
    ((ifft N (fun k => (L k : ℂ)) n).re : ℂ) = ifft N (fun k => (L k : ℂ)) n := by
  rw [← Complex.conj_eq_iff_re, conj_ifft]
  refine ifft_congr N _ _ (fun k hk => ?_) n
  rw [Complex.conj_ofReal]
  unfold mirror
  split_ifs with h0
  · rw [h0]
  · rw [h k (by omega) hk]

theorem fold_analyticBin (N : ℕ) (y : ℕ → ℝ) (n : ℕ) :
    analyticBin N (fun n => (N : ℂ) * (y n : ℂ)) n = N * (fold N y n : ℂ) := by
  unfold analyticBin fold
  split_ifs <;> push_cast <;> ring

theorem analyticBin_congr (N : ℕ) (X Y : ℕ → ℂ) (k : ℕ) (h : X k = Y k) :
    analyticBin N X k = analyticBin N Y k := by
  unfold analyticBin
  split_ifs <;> first | rfl | rw [h]

/-- The transform of the folded cepstrum is the conjugate of the analytic signal of the logarithm. -/
theorem fold_eq_analytic (N : ℕ) (L : ℕ → ℝ) (h : EvenSeq N L) (k : ℕ) :
    rfft N (fold N fun n => (ifft N (fun k => (L k : ℂ)) n).re) k = (starRingEnd ℂ) (analytic N L k) := by
  by_cases hN : N = 0
  · subst hN
    simp [rfft, dft, analytic, ifft]
  have hN' : (N : ℂ) ≠ 0 := by exact_mod_cast hN
  have hb : ∀ n, analyticBin N (dft N fun n => (L n : ℂ)) n =
      N * (fold N (fun n => (ifft N (fun k => (L k : ℂ)) n).re) n : ℂ) := by
    intro n
    rw [← fold_analyticBin]
    refine analyticBin_congr N _ _ n ?_
    show rfft N L n = _
    rw [conj_real_ifft, ← ifft_even_im N L h n, Complex.conj_ofReal]
    simp
  unfold analytic ifft
  rw [map_div₀, map_sum, Complex.conj_natCast]
  unfold rfft dft
  rw [eq_div_iff hN', sum_mul]
  refine sum_congr rfl fun n _ => ?_
  have := hb n
  unfold ifft dft at this
  rw [this, map_mul, map_mul, Complex.conj_natCast, Complex.conj_ofReal, e_conj, mul_comm (n : ℤ)]
  ring

theorem log_even (N : ℕ) (x : ℕ → ℝ) : EvenSeq N fun k => Real.log ‖rfft N x k‖ := by
  intro k h0 hk
  dsimp only
  rw [rfft_mirror N (by omega) x k hk.le, Complex.norm_conj]

theorem spectrum_some (N : ℕ) (x : ℕ → ℝ) (h : ∀ k < N, rfft N x k ≠ 0) :
    spectrum N x = some fun k => exp (rfft N (fold N (realCepstrum N x)) k) := by
  unfold spectrum
  rw [if_neg]
  rintro ⟨k, hk, h0⟩
  exact h k hk h0

theorem min_norm (N : ℕ) (x : ℕ → ℝ) (k : ℕ) (hk : k < N) (h : rfft N x k ≠ 0) :
    ‖exp (rfft N (fold N (realCepstrum N x)) k)‖ = ‖rfft N x k‖ := by
  unfold realCepstrum
  have := fold_eq_analytic N (fun k => Real.log ‖rfft N x k‖) (log_even N x) k
  rw [this, Complex.norm_exp, Complex.conj_re, Props.C66.C66_real_part N _ k hk, Real.exp_log (norm_pos_iff.2 h)]

theorem min_mirror (N : ℕ) (hN : N ≠ 0) (y : ℕ → ℝ) (k : ℕ) (hk : k ≤ N) :
    exp (rfft N y (N - k)) = (starRingEnd ℂ) (exp (rfft N y k)) := by
  rw [rfft_mirror N hN y k hk, Complex.exp_conj]

theorem ifft_mirror_real (N : ℕ) (S : ℕ → ℂ) (h0 : (starRingEnd ℂ) (S 0) = S 0)
    (h : ∀ k ≤ N, S (N - k) = (starRingEnd ℂ) (S k)) (n : ℕ) : ((ifft N S n).re : ℂ) = ifft N S n := by
  rw [← Complex.conj_eq_iff_re, conj_ifft]
  refine ifft_congr N _ _ (fun k hk => ?_) n
  unfold mirror
  split_ifs with h1
  · rw [h1, h0]
  · rw [h k hk.le, Complex.conj_conj]

/-- The transform of the minimum-phase response is the minimum-phase spectrum: taking the real part
loses nothing. -/
theorem ir_spectrum (N : ℕ) (y : ℕ → ℝ) (k : ℕ) (hk : k < N) :
    rfft N (fun n => (ifft N (fun k => exp (rfft N y k)) n).re) k = exp (rfft N y k) := by
  have hN : N ≠ 0 := by omega
  have h0 : (starRingEnd ℂ) (exp (rfft N y 0)) = exp (rfft N y 0) := by
    rw [← Complex.exp_conj, rfft_zero_conj]
  have : ∀ n, (((ifft N (fun k => exp (rfft N y k)) n).re : ℝ) : ℂ) = ifft N (fun k => exp (rfft N y k)) n :=
    fun n => ifft_mirror_real N (fun k => exp (rfft N y k)) h0 (fun k hk => min_mirror N hN y k hk) n
  unfold rfft at *
  simp_rw [this]
  exact dft_ifft N _ k hk

/-! ### Real cepstrum -/

/-- The minimum-phase spectrum has the magnitude of the given response in every bin. -/
theorem C87_spectrum_magnitude (N : ℕ) (x : ℕ → ℝ) (h : ∀ k < N, rfft N x k ≠ 0) :
    ∃ S, spectrum N x = some S ∧ ∀ k < N, ‖S k‖ = ‖rfft N x k‖ :=
  ⟨_, spectrum_some N x h, fun k hk => min_norm N x k hk (h k hk)⟩

/-- The minimum-phase response has the magnitude spectrum of the given response. -/
theorem C87_ir_magnitude (N : ℕ) (x : ℕ → ℝ) (h : ∀ k < N, rfft N x k ≠ 0) :
    ∃ y, cepstrumIr N x = some y ∧ ∀ k < N, ‖rfft N y k‖ = ‖rfft N x k‖ := by
  unfold cepstrumIr
  rw [spectrum_some N x h]
  refine ⟨_, rfl, fun k hk => ?_⟩
  rw [ir_spectrum N _ k hk, min_norm N x k hk (h k hk)]

/-- The logarithm of its spectrum is the transform of a causal sequence (nothing in the second half of
the period), which is what makes the response one of minimum and not of maximum phase. -/
theorem C87_causal_cepstrum (N : ℕ) (x y : ℕ → ℝ) (h : cepstrumIr N x = some y) :
    ∃ c : ℕ → ℝ, (∀ n < N, N < 2 * n → c n = 0) ∧ ∀ k < N, rfft N y k = exp (rfft N c k) := by
  have hnz : ∀ k < N, rfft N x k ≠ 0 := by
    intro k hk h0
    unfold cepstrumIr spectrum at h
    rw [if_pos ⟨k, hk, h0⟩] at h
    cases h
  unfold cepstrumIr at h
  rw [spectrum_some N x hnz] at h
  obtain rfl := Option.some.inj h
  refine ⟨fold N (realCepstrum N x), fun n hn h2 => ?_, fun k hk => ir_spectrum N _ k hk⟩
  unfold fold
  by_cases h1 : N % 2 = 0
  · rw [if_pos h1, if_neg (by omega), if_pos (by omega)]
  · rw [if_neg h1, if_neg (by omega), if_pos (by omega)]

/-- Responses with the same magnitudes (for example delayed, inverted or reversed ones) have the same
minimum-phase response. -/
theorem C87_only_magnitude (N : ℕ) (x x' : ℕ → ℝ) (h : ∀ k < N, ‖rfft N x k‖ = ‖rfft N x' k‖) :
    cepstrumIr N x = cepstrumIr N x' := by
  have hc : realCepstrum N x = realCepstrum N x' := by
    funext n
    unfold realCepstrum
    congr 1
    exact ifft_congr N _ _ (fun k hk => by rw [h k hk]) n
  have hz : (∃ k < N, rfft N x k = 0) ↔ ∃ k < N, rfft N x' k = 0 := by
    constructor
    · rintro ⟨k, hk, h0⟩
      exact ⟨k, hk, by rw [← norm_eq_zero, ← h k hk, h0, norm_zero]⟩
    · rintro ⟨k, hk, h0⟩
      exact ⟨k, hk, by rw [← norm_eq_zero, h k hk, h0, norm_zero]⟩
  unfold cepstrumIr spectrum
  rw [hc]
  simp only [hz]

/-- Doing it again changes nothing. -/
theorem C87_idempotent (N : ℕ) (x y : ℕ → ℝ) (h : cepstrumIr N x = some y) :
    cepstrumIr N y = some y := by
  have hnz : ∀ k < N, rfft N x k ≠ 0 := by
    intro k hk h0
    unfold cepstrumIr spectrum at h
    rw [if_pos ⟨k, hk, h0⟩] at h
    cases h
  obtain ⟨y', h1, h2⟩ := C87_ir_magnitude N x hnz
  rw [h1] at h
  cases h
  rw [← h1]
  exact C87_only_magnitude N _ _ h2

theorem dft_const (N : ℕ) (a : ℂ) (n : ℕ) (hn : n < N) :
    dft N (fun _ => a) n = if n = 0 then a * N else 0 := by
  have hN : N ≠ 0 := by omega
  unfold dft
  rw [← mul_sum, sum_congr rfl fun m _ => by rw [show -((n : ℤ) * m) = m * (-n) by ring], sum_e N hN]
  by_cases h : n = 0
  · subst h
    simp
  · rw [if_neg h, if_neg, mul_zero]
    rw [Int.dvd_neg]
    intro hd
    have := Int.le_of_dvd (by omega) hd
    omega

theorem analytic_shift (N : ℕ) (hN : N ≠ 0) (a : ℝ) (L : ℕ → ℝ) (j : ℕ) :
    analytic N (fun k => a + L k) j = a + analytic N L j := by
  have hN' : (N : ℂ) ≠ 0 := by exact_mod_cast hN
  have hd : ∀ n < N, analyticBin N (dft N fun k => ((a + L k : ℝ) : ℂ)) n =
      (if n = 0 then (a : ℂ) * N else 0) + analyticBin N (dft N fun k => (L k : ℂ)) n := by
    intro n hn
    have h1 : dft N (fun k => ((a + L k : ℝ) : ℂ)) n =
        (if n = 0 then (a : ℂ) * N else 0) + dft N (fun k => (L k : ℂ)) n := by
      rw [← dft_const N a n hn]
      unfold dft
      rw [← sum_add_distrib]
      exact sum_congr rfl fun k _ => by push_cast; ring
    unfold analyticBin
    rw [h1]
    split_ifs <;> first | (exfalso; omega) | ring
  unfold analytic
  rw [ifft_congr N _ _ hd j, ifft_add]
  congr 1
  unfold ifft
  rw [sum_eq_single 0]
  · simp [e_zero, hN']
  · intro b _ hb
    dsimp only
    rw [if_neg hb, zero_mul]
  · intro h
    exact absurd (mem_range.2 (by omega)) h

/-- A gain only changes the gain; its sign is lost. -/
theorem C87_gain (N : ℕ) (x : ℕ → ℝ) (g : ℝ) (hg : g ≠ 0) (y : ℕ → ℝ) (h : cepstrumIr N x = some y) :
    ∃ z, cepstrumIr N (fun n => g * x n) = some z ∧ ∀ n < N, z n = |g| * y n := by
  have hr : ∀ k, rfft N (fun n => g * x n) k = g * rfft N x k := by
    intro k
    unfold rfft dft
    rw [mul_sum]
    exact sum_congr rfl fun n _ => by push_cast; ring
  have hnz : ∀ k < N, rfft N x k ≠ 0 := by
    intro k hk h0
    unfold cepstrumIr spectrum at h
    rw [if_pos ⟨k, hk, h0⟩] at h
    cases h
  have hnz' : ∀ k < N, rfft N (fun n => g * x n) k ≠ 0 := by
    intro k hk
    rw [hr]
    exact mul_ne_zero (by exact_mod_cast hg) (hnz k hk)
  unfold cepstrumIr at h ⊢
  rw [spectrum_some N x hnz] at h
  rw [spectrum_some N _ hnz']
  cases h
  refine ⟨_, rfl, fun n hn => ?_⟩
  have hS : ∀ k < N, exp (rfft N (fold N (realCepstrum N fun n => g * x n)) k) =
      (|g| : ℝ) * exp (rfft N (fold N (realCepstrum N x)) k) := by
    intro k hk
    have h1 := fold_eq_analytic N (fun k => Real.log ‖rfft N x k‖) (log_even N x) k
    have h2 := fold_eq_analytic N (fun k => Real.log ‖rfft N (fun n => g * x n) k‖) (log_even N _) k
    have h3 : analytic N (fun k => Real.log ‖rfft N (fun n => g * x n) k‖) k =
        (Real.log |g| : ℝ) + analytic N (fun k => Real.log ‖rfft N x k‖) k := by
      rw [← analytic_shift N (by omega)]
      unfold analytic
      refine ifft_congr N _ _ (fun m hm => ?_) k
      refine analyticBin_congr N _ _ m ?_
      unfold dft
      refine sum_congr rfl fun i hi => ?_
      dsimp only
      rw [hr, norm_mul, Complex.norm_real, Real.norm_eq_abs,
        Real.log_mul (abs_ne_zero.2 hg) (norm_ne_zero_iff.2 (hnz i (mem_range.1 hi)))]
    unfold realCepstrum
    rw [h2, h1, h3, map_add, Complex.exp_add, Complex.conj_ofReal, ← Complex.ofReal_exp,
      Real.exp_log (abs_pos.2 hg)]
  dsimp only
  rw [ifft_congr N _ _ hS n, ifft_mul, Complex.re_ofReal_mul]

/-! ### `min_phase_ir` and `minimum_phase` -/

/-- The samples of a response, the `n`-th one multiplied by `alpha ^ n`; zeros behind them. -/
noncomputable def weighted (x : List ℝ) (alpha : ℝ) (n : ℕ) : ℝ :=
  if n < x.length then x.getD n 0 * alpha ^ n else 0

theorem minPhaseIr_eq (fast : ℕ → ℕ) (x : List ℝ) (padding : ℕ) (alpha : ℝ) (hp : 1 < padding)
    (ha : 0 < alpha ∧ alpha ≤ 1) :
    minPhaseIr fast x padding alpha = .ok ((cepstrumIr (fast (x.length * padding)) (weighted x alpha)).map
      fun y => (List.range x.length).map fun n : ℕ => y n / alpha ^ n) := by
  have hmax : max (x.length * padding) x.length = x.length * padding :=
    max_eq_left (Nat.le_mul_of_pos_right _ (by omega))
  have hw : (fun n => if n < x.length then (if alpha ≠ 1 then x.getD n 0 * alpha ^ n else x.getD n 0) else 0) =
      weighted x alpha := by
    funext n
    unfold weighted
    by_cases h1 : alpha = 1
    · simp [h1]
    · simp only [ne_eq, h1, not_false_eq_true, if_true]
  unfold minPhaseIr
  rw [if_neg (not_not.2 hp), if_neg (not_not.2 ⟨ha.2, ha.1⟩)]
  dsimp only
  rw [hmax, hw]
  congr 2
  funext y
  refine List.map_congr_left fun n _ => ?_
  by_cases h1 : alpha = 1
  · simp [h1]
  · simp only [ne_eq, h1, not_false_eq_true, if_true, zpow_neg, zpow_natCast, div_eq_mul_inv]

/-- `min_phase_ir` returns as many samples as it is given, the first ones of a response with the magnitude
spectrum of the zero-padded (and weighted) one. -/
theorem C87_min_phase_ir_partial (fast : ℕ → ℕ) (x : List ℝ) (padding : ℕ) (alpha : ℝ)
    (hp : 1 < padding) (ha : 0 < alpha ∧ alpha ≤ 1)
    (h : ∀ k < fast (x.length * padding), rfft (fast (x.length * padding)) (weighted x alpha) k ≠ 0) :
    ∃ r y, minPhaseIr fast x padding alpha = .ok (some r) ∧ r.length = x.length ∧
      cepstrumIr (fast (x.length * padding)) (weighted x alpha) = some y ∧
      (∀ n < x.length, r.getD n 0 * alpha ^ n = y n) ∧
      ∀ k < fast (x.length * padding), ‖rfft (fast (x.length * padding)) y k‖ =
        ‖rfft (fast (x.length * padding)) (weighted x alpha) k‖ := by
  obtain ⟨y, h1, h2⟩ := C87_ir_magnitude _ _ h
  refine ⟨(List.range x.length).map fun n : ℕ => y n / alpha ^ n, y, ?_, by simp, h1, fun n hn => ?_, h2⟩
  · rw [minPhaseIr_eq fast x padding alpha hp ha, h1]
    rfl
  · rw [List.getD_eq_getElem _ _ (by simpa using hn)]
    simp only [List.getElem_map, List.getElem_range]
    exact div_mul_cancel₀ _ (pow_ne_zero _ ha.1.ne')

/-- A response whose samples add up to zero (no direct component) has no minimum-phase version: the
samples of the result are not finite. -/
theorem C87_zero_bin_wrong (fast : ℕ → ℕ) (hfast : ∀ n, n ≤ fast n) (x : List ℝ) (padding : ℕ)
    (hp : 1 < padding) (hx : x ≠ []) (hsum : ∑ n ∈ range x.length, x.getD n 0 = 0) : minPhaseIr fast x padding 1 = .ok none := by
  rw [minPhaseIr_eq fast x padding 1 hp ⟨one_pos, le_rfl⟩]
  have hlen : 0 < x.length := List.length_pos_iff.2 hx
  have hle : x.length ≤ fast (x.length * padding) :=
    (Nat.le_mul_of_pos_right _ (by omega)).trans (hfast _)
  have h0 : rfft (fast (x.length * padding)) (weighted x 1) 0 = 0 := by
    unfold rfft dft
    have h1 : ∀ n ∈ range (fast (x.length * padding)),
        ((weighted x 1 n : ℝ) : ℂ) * e (fast (x.length * padding)) (-(((0 : ℕ) : ℤ) * n)) = (weighted x 1 n : ℝ) := by
      intro n _
      simp [e_zero]
    rw [sum_congr rfl h1, ← Complex.ofReal_sum]
    have h2 : ∑ n ∈ range (fast (x.length * padding)), weighted x 1 n =
        ∑ n ∈ range x.length, x.getD n 0 := by
      rw [← sum_subset (range_subset_range.2 hle) (fun n _ hn => by
        unfold weighted
        rw [if_neg (by simpa using hn)])]
      refine sum_congr rfl fun n hn => ?_
      unfold weighted
      rw [if_pos (mem_range.1 hn), one_pow, mul_one]
    rw [h2, hsum, Complex.ofReal_zero]
  unfold cepstrumIr spectrum
  rw [if_pos ⟨0, by omega, h0⟩]
  rfl

theorem range_filter_lt (N m : ℕ) (h : m ≤ N) :
    (List.range N).filter (fun k => decide (k < m)) = List.range m := by
  obtain ⟨d, rfl⟩ := Nat.exists_eq_add_of_le h
  rw [List.range_add, List.filter_append, List.filter_eq_self.2, List.filter_eq_nil_iff.2, List.append_nil]
  · intro a ha
    obtain ⟨b, -, rfl⟩ := List.mem_map.1 ha
    simp
  · intro a ha
    simpa using ha

theorem fftfreq_getD (N fs k : ℕ) (hk : k < N) :
    (fftfreq N fs).getD k 0 = (if k < (N + 1) / 2 then (k : ℝ) else (k : ℝ) - N) * fs / N := by
  unfold fftfreq
  rw [List.getD_eq_getElem _ _ (by simpa using hk)]
  simp

/-- `minimum_phase` returns the bins from 0 to the Nyquist frequency. -/
theorem C87_frequencies (N fs : ℕ) (hN : 0 < N) (hfs : 0 < fs) :
    positiveBins N fs = (List.range (N / 2 + 1)).map fun k : ℕ => ((k : ℝ) * fs / N, k) := by
  have hN' : (0 : ℝ) < N := by exact_mod_cast hN
  have hfs' : (0 : ℝ) < fs := by exact_mod_cast hfs
  have hf : ∀ k < N, ((List.range N).map fun k =>
      if N % 2 = 0 ∧ k = N / 2 then -(fftfreq N fs).getD k 0 else (fftfreq N fs).getD k 0).getD k 0 =
      if k < N / 2 + 1 then (k : ℝ) * fs / N else ((k : ℝ) - N) * fs / N := by
    intro k hk
    rw [List.getD_eq_getElem (List.map _ _) _ (by simpa using hk)]
    simp only [List.getElem_map, List.getElem_range]
    rw [fftfreq_getD N fs k hk]
    by_cases h1 : N % 2 = 0 ∧ k = N / 2
    · rw [if_pos h1, if_neg (by omega), if_pos (by omega)]
      have h2 : (N : ℝ) = 2 * k := by
        have : N = 2 * k := by omega
        rw [this]
        push_cast
        ring
      rw [h2]
      ring
    · rw [if_neg h1]
      by_cases h2 : k < N / 2 + 1
      · rw [if_pos h2, if_pos (by omega)]
      · rw [if_neg h2, if_neg (by omega)]
  unfold positiveBins
  dsimp only
  rw [List.filter_map, ← range_filter_lt N (N / 2 + 1) (by omega)]
  have hfilter : (List.range N).filter ((fun p : ℝ × ℕ => decide (0 ≤ p.1)) ∘ fun k => (((List.range N).map fun k =>
      if N % 2 = 0 ∧ k = N / 2 then -(fftfreq N fs).getD k 0 else (fftfreq N fs).getD k 0).getD k 0, k)) =
      (List.range N).filter (fun k => decide (k < N / 2 + 1)) := by
    refine List.filter_congr fun k hk => ?_
    have hk := List.mem_range.1 hk
    simp only [Function.comp_apply]
    rw [hf k hk, decide_eq_decide]
    by_cases h2 : k < N / 2 + 1
    · rw [if_pos h2]
      exact ⟨fun _ => h2, fun _ => by positivity⟩
    · rw [if_neg h2]
      refine ⟨fun h => absurd h (not_le.2 ?_), fun h => absurd h h2⟩
      have h3 : (k : ℝ) - N < 0 := by
        have : (k : ℝ) < N := by exact_mod_cast hk
        linarith
      exact div_neg_of_neg_of_pos (mul_neg_of_neg_of_pos h3 hfs') hN'
  rw [hfilter]
  refine List.map_congr_left fun k hk => ?_
  obtain ⟨h1, h2⟩ := List.mem_filter.1 hk
  rw [hf k (List.mem_range.1 h1), if_pos (by simpa using h2)]

/-! ### From magnitudes -/

theorem logWhole_even (M : ℕ) (hM : 2 ≤ M) (odd : Bool) (top : ℝ) (mag : ℕ → ℝ) :
    EvenSeq (wholeLength M odd) (logWhole M odd top mag) := by
  intro k h0 hk
  unfold logWhole wholeLength at *
  dsimp only
  cases odd <;> simp only [Bool.false_eq_true, if_false, if_true] at hk ⊢ <;>
    by_cases h1 : k < M
  · by_cases h2 : 2 * (M - 1) - k < M
    · obtain rfl : k = M - 1 := by omega
      rw [if_pos h2, if_pos h1, show 2 * (M - 1) - (M - 1) = M - 1 by omega]
    · rw [if_neg h2, if_pos h1, show 2 * (M - 1) - (2 * (M - 1) - k) = k by omega]
  · rw [if_pos (by omega), if_neg h1]
  · by_cases h2 : 2 * M - 1 - k < M
    · omega
    · rw [if_neg h2, if_pos h1, show 2 * M - 1 - (2 * M - 1 - k) = k by omega]
  · rw [if_pos (by omega), if_neg h1]

theorem phase_eq (M : ℕ) (hM : 2 ≤ M) (odd : Bool) (top : ℝ) (mag : ℕ → ℝ) (k : ℕ) :
    phaseOfMag M odd top mag k = (rfft (wholeLength M odd) (fold (wholeLength M odd)
      fun n => (ifft (wholeLength M odd) (fun k => (logWhole M odd top mag k : ℂ)) n).re) k).im := by
  rw [fold_eq_analytic _ _ (logWhole_even M hM odd top mag), Complex.conj_im]
  rfl

theorem real_bin (N : ℕ) (hN : N ≠ 0) (y : ℕ → ℝ) (k : ℕ) (hk : k = 0 ∨ 2 * k = N) : (rfft N y k).im = 0 := by
  rcases hk with rfl | hk
  · exact Complex.conj_eq_iff_im.1 (rfft_zero_conj N y)
  · have := rfft_mirror N hN y k (by omega)
    rw [show N - k = k by omega] at this
    exact Complex.conj_eq_iff_im.1 this.symm

/-- The response made from the magnitudes `mag 0, …, mag (M - 1)` has exactly these magnitudes and the
phase that was computed. -/
theorem C87_from_mag (M : ℕ) (hM : 2 ≤ M) (top : ℝ) (mag : ℕ → ℝ) (k : ℕ) (hk : k < M) :
    rfft (2 * (M - 1)) (irOfMag M (2 * (M - 1)) top mag) k =
      mag k * exp (I * phaseOfMag M false top mag k) := by
  have hodd : (2 * (M - 1) % 2 == 1) = false := by
    rw [Nat.mul_mod_right]
    rfl
  show rfft (2 * (M - 1)) (fun j => Deconv.irfft _ _ _ j) k = _
  rw [hodd]
  have h := Deconv.rfft_irfft (2 * (M - 1)) M
    (fun k => (mag k : ℂ) * exp (I * phaseOfMag M false top mag k)) k (by omega)
  refine h.trans ?_
  unfold Deconv.herm
  have hreal : ∀ k, k = 0 ∨ 2 * k = 2 * (M - 1) → phaseOfMag M false top mag k = 0 := by
    intro k hk'
    rw [phase_eq M hM]
    exact real_bin _ (by unfold wholeLength; simp; omega) _ k (by unfold wholeLength; simpa using hk')
  by_cases h0 : k = 0
  · subst h0
    rw [if_pos rfl]
    dsimp only
    rw [if_pos hk, hreal 0 (.inl rfl)]
    simp
  · rw [if_neg h0]
    by_cases h1 : 2 * k < 2 * (M - 1)
    · rw [if_pos h1]
      exact if_pos hk
    · rw [if_neg h1, if_pos (by omega)]
      dsimp only
      rw [if_pos hk, hreal k (.inr (by omega))]
      simp

/-- The magnitudes are kept. -/
theorem C87_from_mag_magnitude (M : ℕ) (hM : 2 ≤ M) (top : ℝ) (mag : ℕ → ℝ) (hmag : ∀ k < M, 0 ≤ mag k)
    (k : ℕ) (hk : k < M) : ‖rfft (2 * (M - 1)) (irOfMag M (2 * (M - 1)) top mag) k‖ = mag k := by
  rw [C87_from_mag M hM top mag k hk, norm_mul, Complex.norm_real, Real.norm_eq_abs,
    abs_of_nonneg (hmag k hk), mul_comm I, Complex.norm_exp_ofReal_mul_I, mul_one]

/-- Both methods agree: the response made from the magnitudes of a response (with a dynamic range below
500 dB) is its minimum-phase version. -/
theorem C87_methods_agree (M : ℕ) (hM : 2 ≤ M) (x : ℕ → ℝ) (top : ℝ)
    (hrange : ∀ k < M, 0 < ‖rfft (2 * (M - 1)) x k‖ ∧
      (10 : ℝ) ^ (-500 / 20 : ℝ) * top ≤ ‖rfft (2 * (M - 1)) x k‖) :
    ∃ y, cepstrumIr (2 * (M - 1)) x = some y ∧ ∀ j < 2 * (M - 1),
      irOfMag M (2 * (M - 1)) top (fun k => ‖rfft (2 * (M - 1)) x k‖) j = y j := by
  set N := 2 * (M - 1) with hN
  have hwl : wholeLength M false = N := rfl
  have hlog : ∀ k < N, logWhole M false top (fun k => ‖rfft N x k‖) k = Real.log ‖rfft N x k‖ := by
    intro k hk
    unfold logWhole
    dsimp only
    by_cases h1 : k < M
    · rw [if_pos h1, max_eq_left (hrange k h1).2]
    · rw [if_neg h1]
      simp only [Bool.false_eq_true, if_false, ← hN]
      rw [max_eq_left (hrange (N - k) (by omega)).2, rfft_mirror N (by omega) x k hk.le, Complex.norm_conj]
  have hnz : ∀ k < N, rfft N x k ≠ 0 := by
    intro k hk
    by_cases h1 : k < M
    · exact norm_pos_iff.1 (hrange k h1).1
    · have := (hrange (N - k) (by omega)).1
      rw [rfft_mirror N (by omega) x k hk.le, Complex.norm_conj] at this
      exact norm_pos_iff.1 this
  have hcep : (fold N fun n => (ifft N (fun k => (logWhole M false top (fun k => ‖rfft N x k‖) k : ℂ)) n).re) =
      fold N (realCepstrum N x) := by
    congr 1
    funext n
    unfold realCepstrum
    congr 1
    exact ifft_congr N _ _ (fun k hk => by rw [hlog k hk]) n
  unfold cepstrumIr
  rw [spectrum_some N x hnz]
  refine ⟨_, rfl, fun j hj => ?_⟩
  unfold irOfMag
  have hodd : (N % 2 == 1) = false := by
    rw [hN, Nat.mul_mod_right]
    rfl
  rw [hodd]
  refine Deconv.irfft_of_rfft N M (by omega)
    (fun n => (ifft N (fun k => exp (rfft N (fold N (realCepstrum N x)) k)) n).re) _ (fun k hk => ?_) j hj
  rw [ir_spectrum N _ k (by omega), phase_eq M hM, hwl, hcep]
  have h1 := min_norm N x k (by omega) (hnz k (by omega))
  set z := rfft N (fold N (realCepstrum N x)) k
  dsimp only
  rw [← h1, Complex.norm_exp, Complex.ofReal_exp, ← Complex.exp_add]
  congr 1
  apply Complex.ext <;> simp

/-! ### Length -/

/-- The length of the response from `min_phase_from_mag` is the multiple of 4 next to the requested one,
with bins that are spaced for that length. -/
theorem C87_length (fs n : ℕ) (hfs : 0 < fs) (hn : 3 ≤ n) :
    ∃ f, magGrid fs (some n) = .ok (f, f.getD 1 0, 4 * ((n + 1) / 4)) ∧
      f.length = 2 * ((n + 1) / 4) + 1 ∧
      ∀ k < f.length, f.getD k 0 = (k : ℚ) * fs / (4 * ((n + 1) / 4) : ℕ) := by
  have hfs' : (fs : ℚ) ≠ 0 := by exact_mod_cast hfs.ne'
  have hn' : (n : ℚ) ≠ 0 := by exact_mod_cast (by omega : n ≠ 0)
  have hfl : ⌊((fs : ℚ) / 2) / (fs / n) + 0.5⌋₊ = (n + 1) / 2 := by
    rw [show ((fs : ℚ) / 2) / (fs / n) + 0.5 = ((n + 1 : ℕ) : ℚ) / (2 : ℕ) by
      push_cast
      field_simp
      norm_num]
    exact Nat.floor_div_eq_div (K := ℚ) (n + 1) 2
  have hl : (if (n + 1) / 2 % 2 = 0 then (n + 1) / 2 + 1 else (n + 1) / 2) = 2 * ((n + 1) / 4) + 1 := by
    split_ifs <;> omega
  unfold magGrid
  dsimp only
  rw [if_neg (by omega)]
  unfold frequencyVector
  rw [if_neg (div_ne_zero hfs' hn')]
  dsimp only
  rw [hfl, hl, if_neg (by omega)]
  refine ⟨(List.range (2 * ((n + 1) / 4) + 1)).map
    fun k : ℕ => (fs : ℚ) / 2 * k / (2 * ((n + 1) / 4) + 1 - 1 : ℕ), ?_, by simp, fun k hk => ?_⟩
  · rw [show 4 * ((n + 1) / 4) = (2 * ((n + 1) / 4) + 1 - 1) * 2 by omega]
  · rw [List.getD_eq_getElem _ _ hk]
    simp only [List.getElem_map, List.getElem_range]
    have : ((n + 1) / 4 : ℕ) ≠ 0 := by omega
    generalize (n + 1) / 4 = q at *
    have : (q : ℚ) ≠ 0 := by exact_mod_cast this
    rw [show 2 * q + 1 - 1 = 2 * q by omega]
    push_cast
    field_simp
    ring

/-- A requested length that is a multiple of 4 is honoured. -/
theorem C87_length_partial (fs n : ℕ) (hfs : 0 < fs) (hn : 0 < n) (h4 : 4 ∣ n) :
    ∃ f delta, magGrid fs (some n) = .ok (f, delta, n) := by
  obtain ⟨f, h, -⟩ := C87_length fs n hfs (by omega)
  rw [show 4 * ((n + 1) / 4) = n by omega] at h
  exact ⟨f, _, h⟩

/-- Every other requested length is not. -/
theorem C87_length_wrong (fs n : ℕ) (hfs : 0 < fs) (hn : 3 ≤ n) (h4 : ¬ 4 ∣ n) :
    ¬ ∃ f delta, magGrid fs (some n) = .ok (f, delta, n) := by
  rintro ⟨f, d, h⟩
  obtain ⟨f', h', -⟩ := C87_length fs n hfs hn
  rw [h] at h'
  have := congrArg (fun r : Except Err (List ℚ × ℚ × ℕ) => match r with
    | .ok (_, _, n) => n
    | .error _ => 0) h'
  dsimp only at this
  omega

/-- With one or two samples the call fails. -/
theorem C87_length_short (fs n : ℕ) (hfs : 0 < fs) (hn : 0 < n) (h2 : n ≤ 2) :
    magGrid fs (some n) = .error .indexError := by
  have hfs' : (fs : ℚ) ≠ 0 := by exact_mod_cast hfs.ne'
  have hn' : (n : ℚ) ≠ 0 := by exact_mod_cast (by omega : n ≠ 0)
  have hfl : ⌊((fs : ℚ) / 2) / (fs / n) + 0.5⌋₊ = 1 := by
    rw [show ((fs : ℚ) / 2) / (fs / n) + 0.5 = ((n + 1 : ℕ) : ℚ) / (2 : ℕ) by
      push_cast
      field_simp
      norm_num]
    rw [Nat.floor_div_eq_div (K := ℚ) (n + 1) 2]
    omega
  unfold magGrid
  dsimp only
  rw [if_neg (by omega)]
  unfold frequencyVector
  rw [if_neg (div_ne_zero hfs' hn')]
  dsimp only
  rw [hfl]
  rfl

/-- Without a requested length the bins are half a hertz apart (as close as the length allows): the
response lasts two seconds for an even sampling rate, two samples less for an odd one. -/
theorem C87_default_length (fs : ℕ) (hfs : 2 ≤ fs) :
    ∃ f, magGrid fs none = .ok (f, f.getD 1 0, 4 * (fs / 2)) ∧
      ∀ k < f.length, f.getD k 0 = (k : ℚ) * fs / (4 * (fs / 2) : ℕ) := by
  have hfl : ⌊((fs : ℚ) / 2) / 0.5 + 0.5⌋₊ = fs := by
    rw [show (fs : ℚ) / 2 / 0.5 + 0.5 = fs + 1 / 2 by ring, Nat.floor_eq_iff (by positivity)]
    constructor <;> linarith
  have hl : (if fs % 2 = 0 then fs + 1 else fs) = 2 * (fs / 2) + 1 := by
    split_ifs <;> omega
  unfold magGrid
  dsimp only
  unfold frequencyVector
  rw [if_neg (by norm_num)]
  dsimp only
  rw [hfl, hl, if_neg (by omega)]
  refine ⟨(List.range (2 * (fs / 2) + 1)).map
    fun k : ℕ => (fs : ℚ) / 2 * k / (2 * (fs / 2) + 1 - 1 : ℕ), ?_, fun k hk => ?_⟩
  · rw [show 4 * (fs / 2) = (2 * (fs / 2) + 1 - 1) * 2 by omega]
  · rw [List.getD_eq_getElem _ _ hk]
    simp only [List.getElem_map, List.getElem_range]
    have h0 : fs / 2 ≠ 0 := by omega
    generalize fs / 2 = q at *
    have : (q : ℚ) ≠ 0 := by exact_mod_cast h0
    rw [show 2 * q + 1 - 1 = 2 * q by omega]
    push_cast
    field_simp
    ring

/-! ### Examples -/

/-- The hypotheses of the statements about magnitudes can be met: a unit impulse has no zero bins. -/
example (N : ℕ) : ∀ k < N, rfft N (fun n => if n = 0 then 1 else 0) k ≠ 0 := by
  intro k hk
  unfold rfft dft
  rw [Finset.sum_eq_single_of_mem 0 (by simp; omega) (fun n _ hn => by simp [hn])]
  simp [e_zero]

example : ∃ f delta, magGrid 48000 (some 1002) = .ok (f, delta, 1000) := by
  obtain ⟨f, h, -⟩ := C87_length 48000 1002 (by norm_num) (by norm_num)
  exact ⟨f, _, h⟩

end Verif.MinimumPhase

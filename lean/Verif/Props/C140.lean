import Verif.Model.ExcessDelay
import Verif.Props.C87
import Verif.Props.C89
import Verif.Props.C137

/-!
# C140: minimum and excess group delay
-/

namespace Verif.ExcessDelay

open GroupDelay MinimumPhase DFT
open Transforms hiding realCepstrum
open Verif.LFilter (getD_map_range)

theorem fMin_eq (N fs : ℕ) (hN : 0 < N) (hfs : 0 < fs) :
    (positiveBins N fs).map Prod.fst = rfftfreq N fs := by
  rw [C87_frequencies N fs hN hfs, List.map_map]
  rfl

theorem rfftfreq_length (N fs : ℕ) : (rfftfreq N fs).length = N / 2 + 1 := by simp [rfftfreq]

theorem rfftfreq_getD (N fs k : ℕ) (hk : k ≤ N / 2) :
    (rfftfreq N fs).getD k 0 = (k : ℝ) * fs / N := by
  unfold rfftfreq
  rw [getD_map_range, if_pos (by omega)]

theorem rfftfreq_step (N fs : ℕ) (hN : 2 ≤ N) :
    (rfftfreq N fs).getD 1 0 - (rfftfreq N fs).getD 0 0 = (fs : ℝ) / N := by
  rw [rfftfreq_getD N fs 1 (by omega), rfftfreq_getD N fs 0 (by omega)]
  simp

theorem rfftfreq_increasing (N fs : ℕ) (hN : 0 < N) (hfs : 0 < fs) : Increasing (rfftfreq N fs) := by
  intro i j hij hj
  rw [rfftfreq_length] at hj
  rw [rfftfreq_getD N fs i (by omega), rfftfreq_getD N fs j (by omega)]
  have h1 : (0 : ℝ) < N := by exact_mod_cast hN
  have h2 : (0 : ℝ) < fs := by exact_mod_cast hfs
  have h3 : (i : ℝ) < j := by exact_mod_cast hij
  gcongr

/-- The fast length used by `minimum_group_delay`. -/
def fftLength (fast : ℕ → ℕ) (x : List ℝ) (padding : ℕ) : ℕ := fast (max (x.length * padding) x.length)

/-- The minimum-phase spectrum in the bins. -/
theorem minimum_some (fast : ℕ → ℕ) (x : List ℝ) (padding fs : ℕ) (hfs : 0 < fs)
    (hN : 2 ≤ fftLength fast x padding) (S : ℕ → ℂ)
    (hS : spectrum (fftLength fast x padding) (fun n => x.getD n 0) = some S) :
    minimumGroupDelay fast x padding fs =
      (directPhase (fftLength fast x padding / 2 + 1)
        (fun k => if k < fftLength fast x padding / 2 + 1 then Complex.arg (S k) else 0)
        ((fs : ℝ) / fftLength fast x padding)).map fun g =>
          (rfftfreq (fftLength fast x padding) fs,
            some ((List.range (fftLength fast x padding / 2 + 1)).map g)) := by
  unfold minimumGroupDelay
  dsimp only
  rw [show fast (max (x.length * padding) x.length) = fftLength fast x padding from rfl]
  generalize fftLength fast x padding = N at *
  rw [fMin_eq N fs (by omega) hfs, rfftfreq_length, if_neg (by omega), rfftfreq_step N fs hN]
  unfold minimumPhase
  rw [hS, C87_frequencies N fs (by omega) hfs]
  simp only [Option.map_some, List.map_map]
  have : (fun k => (((List.range (N / 2 + 1)).map ((fun p : ℝ × ℕ => (p.1, Complex.arg (S p.2))) ∘
      fun k : ℕ => ((k : ℝ) * fs / N, k))).getD k (0, 0)).2) =
      fun k => if k < N / 2 + 1 then Complex.arg (S k) else 0 := by
    funext k
    by_cases hk : k < N / 2 + 1
    · rw [List.getD_eq_getElem _ _ (by simpa using hk), List.getElem_map, List.getElem_range, if_pos hk]
      rfl
    · rw [List.getD_eq_default _ _ (by simpa using hk), if_neg hk]
  rw [this]

theorem minimum_none (fast : ℕ → ℕ) (x : List ℝ) (padding fs : ℕ) (hfs : 0 < fs)
    (hN : 2 ≤ fftLength fast x padding)
    (hS : spectrum (fftLength fast x padding) (fun n => x.getD n 0) = none) :
    minimumGroupDelay fast x padding fs =
      .ok (rfftfreq (fftLength fast x padding) fs, none) := by
  unfold minimumGroupDelay
  dsimp only
  rw [show fast (max (x.length * padding) x.length) = fftLength fast x padding from rfl]
  generalize fftLength fast x padding = N at *
  rw [fMin_eq N fs (by omega) hfs, rfftfreq_length, if_neg (by omega)]
  unfold minimumPhase
  rw [hS]
  rfl

/-! ### The causal sequence -/

theorem ifft_conj (N : ℕ) (X : ℕ → ℂ) (n : ℕ) (hn : n < N) :
    Transforms.ifft N (fun k => (starRingEnd ℂ) (X k)) n =
      (starRingEnd ℂ) (Transforms.ifft N X (mirror N n)) := by
  have hN : N ≠ 0 := by omega
  unfold Transforms.ifft
  rw [map_div₀, map_sum, Complex.conj_natCast]
  congr 1
  refine Finset.sum_congr rfl fun k _ => ?_
  rw [map_mul, e_conj]
  congr 1
  unfold mirror
  split_ifs with h
  · rw [h]; simp
  · rw [← e_period N hN (-((k : ℤ) * ((N - n : ℕ) : ℤ))) k]
    congr 1
    rw [Nat.cast_sub hn.le]
    ring

/-- A causal sequence is found from the real part of its spectrum. -/
theorem fold_unique (N : ℕ) (x c : ℕ → ℝ) (hc : ∀ n < N, N < 2 * n → c n = 0)
    (hcx : ∀ k < N, (rfft N c k).re = Real.log ‖rfft N x k‖) (n : ℕ) (hn : n < N) :
    fold N (realCepstrum N x) n = c n := by
  have hm : mirror N n < N := by unfold mirror; split_ifs <;> omega
  have hr : realCepstrum N x n = (c n + c (mirror N n)) / 2 := by
    unfold realCepstrum
    have h1 : ∀ k < N, ((Real.log ‖rfft N x k‖ : ℝ) : ℂ) =
        (fun k => rfft N c k / 2) k + (fun k => (starRingEnd ℂ) (rfft N c k / 2)) k := by
      intro k hk
      rw [← hcx k hk]
      dsimp only
      rw [Complex.add_conj]
      push_cast
      simp
      ring
    rw [ifft_congr N _ _ h1, ifft_add, ifft_conj N _ n hn]
    have h2 : ∀ j < N, Transforms.ifft N (fun k => rfft N c k / 2) j = ((c j / 2 : ℝ) : ℂ) := by
      intro j hj
      have h3 := ifft_dft N (fun n => (c n : ℂ)) j hj
      have h4 : Transforms.ifft N (fun k => rfft N c k / 2) j =
          Transforms.ifft N (dft N fun n => (c n : ℂ)) j / 2 := by
        unfold Transforms.ifft
        have h5 : ∑ k ∈ Finset.range N, rfft N c k / 2 * e N (k * j) =
            (∑ k ∈ Finset.range N, dft N (fun n => (c n : ℂ)) k * e N (k * j)) / 2 := by
          rw [Finset.sum_div]
          refine Finset.sum_congr rfl fun k _ => ?_
          unfold rfft
          ring
        rw [h5]
        ring
      rw [h4, h3]
      push_cast
      rfl
    rw [h2 n hn, h2 _ hm, Complex.conj_ofReal, ← Complex.ofReal_add, Complex.ofReal_re]
    ring
  have hz : ∀ j < N, N < 2 * j → c j = 0 := hc
  unfold fold
  have hmir : 1 ≤ n → mirror N n = N - n := fun h => by unfold mirror; rw [if_neg (by omega)]
  by_cases hn0 : n = 0
  · subst hn0
    have : mirror N 0 = 0 := rfl
    rw [this] at hr
    split_ifs <;> first | omega | (rw [hr]; ring)
  · rw [hmir (by omega)] at hr
    rcases Nat.lt_trichotomy (2 * n) N with h | h | h
    · rw [hc (N - n) (by omega) (by omega), add_zero] at hr
      split_ifs <;> first | omega | (rw [hr]; ring)
    · rw [show N - n = n by omega] at hr
      split_ifs <;> first | omega | (rw [hr]; ring)
    · have := hc n hn h
      split_ifs <;> first | omega | rw [this]

theorem rfft_congr' (N : ℕ) (x y : ℕ → ℝ) (h : ∀ n < N, x n = y n) (k : ℕ) : rfft N x k = rfft N y k := by
  unfold rfft dft
  refine Finset.sum_congr rfl fun n hn => ?_
  dsimp only
  rw [h n (Finset.mem_range.mp hn)]

theorem delta_ne (fs N : ℕ) (hN : 2 ≤ N) (h : N ≠ fs) : (fs : ℝ) / N ≠ 1 := by
  intro h'
  rw [div_eq_one_iff_eq (by exact_mod_cast (by omega : N ≠ 0))] at h'
  exact h (by exact_mod_cast h'.symm)

/-- **C140**: if a response has no zero in its spectrum and its minimum phase `phi` changes by less than half a turn
between neighbouring bins, `minimum_group_delay` returns the difference quotients of `phi`.  This phase
together with the logarithm of the magnitude is the spectrum of a causal sequence. -/
theorem C140_minimum (fast : ℕ → ℕ) (x : List ℝ) (padding fs : ℕ) (hfs : 0 < fs)
    (hN : 2 ≤ fftLength fast x padding) (hne : fftLength fast x padding ≠ fs)
    (hx : ∀ k < fftLength fast x padding, rfft (fftLength fast x padding) (fun n => x.getD n 0) k ≠ 0)
    (phi : ℕ → ℝ) (c : ℕ → ℝ)
    (hc : ∀ n < fftLength fast x padding, fftLength fast x padding < 2 * n → c n = 0)
    (hcx : ∀ k < fftLength fast x padding, rfft (fftLength fast x padding) c k =
      Real.log ‖rfft (fftLength fast x padding) (fun n => x.getD n 0) k‖ + Complex.I * phi k)
    (hphi : ∀ k < fftLength fast x padding / 2, |phi (k + 1) - phi k| < Real.pi) :
    ∃ m, minimumGroupDelay fast x padding fs = .ok (rfftfreq (fftLength fast x padding) fs, some m) ∧
      m.length = fftLength fast x padding / 2 + 1 ∧
      m.getD 0 0 = -((phi 1 - phi 0) / (2 * Real.pi * ((fs : ℝ) / fftLength fast x padding))) ∧
      m.getD (fftLength fast x padding / 2) 0 =
        -((phi (fftLength fast x padding / 2) - phi (fftLength fast x padding / 2 - 1)) /
          (2 * Real.pi * ((fs : ℝ) / fftLength fast x padding))) ∧
      ∀ k, 0 < k → k < fftLength fast x padding / 2 →
        m.getD k 0 = -((phi (k + 1) - phi (k - 1)) /
          (2 * Real.pi * (2 * ((fs : ℝ) / fftLength fast x padding)))) := by
  generalize hNd : fftLength fast x padding = N at *
  have hS := spectrum_some N (fun n => x.getD n 0) hx
  have hfold : ∀ k < N, Complex.exp (rfft N (fold N (realCepstrum N fun n => x.getD n 0)) k) =
      Complex.exp (Real.log ‖rfft N (fun n => x.getD n 0) k‖ + Complex.I * phi k) := by
    intro k hk
    rw [← hcx k hk]
    congr 1
    exact rfft_congr' N _ _ (fun n hn => fold_unique N _ c hc (fun k hk => by
      rw [hcx k hk]; simp) n hn) k
  have hmin := minimum_some fast x padding fs hfs (by rw [hNd]; exact hN) _ (by rw [hNd]; exact hS)
  rw [hNd] at hmin
  obtain ⟨g, hg, hfirst, hlast, hmid⟩ := C89_direct_partial (N / 2 + 1) (by omega) phi
    (fun k => if k < N / 2 + 1 then
      Complex.arg (Complex.exp (rfft N (fold N (realCepstrum N fun n => x.getD n 0)) k)) else 0)
    ((fs : ℝ) / N) (delta_ne fs N hN hne) (fun k hk => hphi k (by omega)) (by
      intro k hk
      rw [if_pos hk, hfold k (by omega)]
      have h1 := Complex.norm_mul_exp_arg_mul_I
        (Complex.exp (Real.log ‖rfft N (fun n => x.getD n 0) k‖ + Complex.I * phi k))
      generalize hz : Complex.exp (Real.log ‖rfft N (fun n => x.getD n 0) k‖ + Complex.I * phi k) = z at *
      have hn : (‖z‖ : ℂ) = Complex.exp (Real.log ‖rfft N (fun n => x.getD n 0) k‖ : ℝ) := by
        rw [← hz, Complex.norm_exp]
        simp
      rw [hn, ← Complex.exp_add] at h1
      rw [← hz] at h1
      obtain ⟨m, hm⟩ := Complex.exp_eq_exp_iff_exists_int.1 h1
      refine ⟨m, ?_⟩
      have h3 := congrArg Complex.im hm
      rw [hz] at h3
      simpa using h3)
  rw [hmin, hg]
  refine ⟨_, rfl, by simp, ?_, ?_, fun k h0 hk => ?_⟩
  · rw [getD_map_range, if_pos (by omega)]
    exact hfirst
  · rw [getD_map_range, if_pos (by omega)]
    rw [Nat.add_sub_cancel, show N / 2 + 1 - 2 = N / 2 - 1 by omega] at hlast
    exact hlast
  · rw [getD_map_range, if_pos (by omega)]
    exact hmid k h0 (by omega)

/-! ### Excess -/

theorem directPhase_ok (M : ℕ) (hM : 2 ≤ M) (p : ℕ → ℝ) (d : ℝ) : ∃ g, directPhase M p d = .ok g := by
  unfold directPhase
  rw [if_neg (by omega)]
  split_ifs
  · exact ⟨_, rfl⟩
  · exact ⟨_, rfl⟩

theorem groupDelay_ok (x : List ℝ) (fs : ℕ) (analytic : Bool) (h2 : 2 ≤ x.length) :
    ∃ g, groupDelay x fs analytic = .ok (rfftfreq x.length fs, g) ∧ g.length = x.length / 2 + 1 := by
  unfold groupDelay
  cases analytic with
  | true => exact ⟨_, rfl, by simp [filterDelay, rfftfreq]⟩
  | false =>
    rw [if_neg (by simp)]
    unfold groupDelayDirect
    dsimp only
    rw [rfftfreq_length, if_neg (by omega)]
    unfold direct
    obtain ⟨g, hg⟩ := directPhase_ok (x.length / 2 + 1) (by omega)
      (fun k => Complex.arg (rfft x.length (fun n => x.getD n 0) k))
      ((rfftfreq x.length fs).getD 1 0 - (rfftfreq x.length fs).getD 0 0)
    rw [hg]
    exact ⟨_, rfl, by simp [rfftfreq_length]⟩

theorem fftLength_one (fast : ℕ → ℕ) (x : List ℝ) : fftLength fast x 1 = fast x.length := by
  unfold fftLength
  rw [mul_one, max_self]

/-- **C140**: the excess group delay is the group delay minus that of the minimum-phase response, both at
the returned frequencies: the group delay is taken from the polygon through its values if the numbers of
bins differ.  Above the last frequency of the group delay the result is minus the minimum group delay. -/
theorem C140_excess (fast : ℕ → ℕ) (x : List ℝ) (fs : ℕ) (analytic : Bool) (hfs : 0 < fs)
    (h2 : 2 ≤ x.length) (hfast : x.length ≤ fast x.length)
    (hx : ∀ k < fast x.length, rfft (fast x.length) (fun n => x.getD n 0) k ≠ 0) :
    ∃ m g e, minimumGroupDelay fast x 1 fs = .ok (rfftfreq (fast x.length) fs, some m) ∧
      groupDelay x fs analytic = .ok (rfftfreq x.length fs, g) ∧
      excessGroupDelay fast x fs analytic = .ok (rfftfreq (fast x.length) fs, some e) ∧
      m.length = fast x.length / 2 + 1 ∧ g.length = x.length / 2 + 1 ∧ e.length = fast x.length / 2 + 1 ∧
      (x.length / 2 = fast x.length / 2 →
        ∀ k ≤ fast x.length / 2, e.getD k 0 = g.getD k 0 - m.getD k 0) ∧
      (x.length / 2 ≠ fast x.length / 2 → ∀ k ≤ fast x.length / 2,
        ((k : ℝ) * fs / fast x.length ≤ (x.length / 2 : ℕ) * fs / x.length →
          ∃ v, OnPolygon (rfftfreq x.length fs) g ((k : ℝ) * fs / fast x.length) v ∧
            e.getD k 0 = v - m.getD k 0) ∧
        (((x.length / 2 : ℕ) : ℝ) * fs / x.length < k * fs / fast x.length →
          e.getD k 0 = -m.getD k 0)) := by
  have hS := spectrum_some (fast x.length) (fun n => x.getD n 0) hx
  have hmin := minimum_some fast x 1 fs hfs (by rw [fftLength_one]; omega) _
    (by rw [fftLength_one]; exact hS)
  rw [fftLength_one] at hmin
  obtain ⟨g', hg'⟩ := directPhase_ok (fast x.length / 2 + 1) (by omega)
    (fun k => if k < fast x.length / 2 + 1 then Complex.arg (Complex.exp
      (rfft (fast x.length) (fold (fast x.length) (realCepstrum (fast x.length) fun n => x.getD n 0)) k)) else 0)
    ((fs : ℝ) / fast x.length)
  rw [hg'] at hmin
  obtain ⟨g, hg, hgl⟩ := groupDelay_ok x fs analytic h2
  set m := (List.range (fast x.length / 2 + 1)).map g' with hm
  have hmin' : minimumGroupDelay fast x 1 fs = .ok (rfftfreq (fast x.length) fs, some m) := hmin
  unfold excessGroupDelay
  rw [hmin', hg]
  dsimp only
  rw [rfftfreq_length, rfftfreq_length]
  by_cases heq : x.length / 2 = fast x.length / 2
  · rw [if_neg (by omega)]
    refine ⟨m, g, _, rfl, rfl, rfl, by simp [hm], hgl, by simp, ?_, fun h => absurd heq h⟩
    intro _ k hk
    rw [getD_map_range, if_pos (by omega)]
  · rw [if_pos (by omega)]
    obtain ⟨r, hr, hrl, hrv⟩ := InterpolateFr.C137_values InterpolateFr.Documented.none
      (rfftfreq x.length fs) g (rfftfreq (fast x.length) fs)
      (rfftfreq_increasing _ fs (by omega) hfs) (by rw [rfftfreq_length, hgl])
      (by rw [rfftfreq_length]; omega) (by intro h; cases h)
    rw [hr]
    refine ⟨m, g, _, rfl, rfl, rfl, by simp [hm], hgl, by simp, fun h => absurd h heq, ?_⟩
    intro _ k hk
    rw [getD_map_range, if_pos (by omega)]
    obtain ⟨a, b, c⟩ := hrv k (by rw [rfftfreq_length]; omega)
    rw [rfftfreq_length, Nat.add_sub_cancel, rfftfreq_getD x.length fs _ le_rfl,
      rfftfreq_getD _ fs k hk] at a c
    rw [rfftfreq_getD _ fs 0 (by omega)] at a
    constructor
    · intro h
      obtain ⟨v, hv, e⟩ := a (by simp; positivity) h
      rw [List.map_id'] at hv
      exact ⟨v, hv, by rw [e]⟩
    · intro h
      rw [c h, zero_sub]

/-- **C140**: only the magnitude of the spectrum matters to the minimum group delay. -/
theorem C140_only_magnitude (fast : ℕ → ℕ) (x y : List ℝ) (padding fs : ℕ) (hl : x.length = y.length)
    (h : ∀ k < fftLength fast x padding, ‖rfft (fftLength fast x padding) (fun n => x.getD n 0) k‖ =
      ‖rfft (fftLength fast x padding) (fun n => y.getD n 0) k‖) :
    minimumGroupDelay fast x padding fs = minimumGroupDelay fast y padding fs := by
  have hs : spectrum (fftLength fast x padding) (fun n => x.getD n 0) =
      spectrum (fftLength fast x padding) (fun n => y.getD n 0) := by
    generalize fftLength fast x padding = N at *
    have hc : realCepstrum N (fun n => x.getD n 0) = realCepstrum N (fun n => y.getD n 0) := by
      funext n
      unfold realCepstrum
      congr 1
      exact ifft_congr N _ _ (fun k hk => by rw [h k hk]) n
    have hz : (∃ k < N, rfft N (fun n => x.getD n 0) k = 0) ↔
        ∃ k < N, rfft N (fun n => y.getD n 0) k = 0 := by
      constructor
      · rintro ⟨k, hk, h0⟩
        exact ⟨k, hk, by rw [← norm_eq_zero, ← h k hk, h0, norm_zero]⟩
      · rintro ⟨k, hk, h0⟩
        exact ⟨k, hk, by rw [← norm_eq_zero, h k hk, h0, norm_zero]⟩
    unfold MinimumPhase.spectrum
    rw [hc]
    simp only [hz]
  unfold minimumGroupDelay
  dsimp only
  unfold minimumPhase
  unfold fftLength at hs
  rw [hs, hl]

theorem gradient_congr (M : ℕ) (hM : 2 ≤ M) (p q : ℕ → ℝ) (h : ℝ) (he : ∀ k < M, p k = q k) (k : ℕ) (hk : k < M) :
    gradient M p h k = gradient M q h k := by
  unfold gradient
  split_ifs
  · rw [he 1 (by omega), he 0 (by omega)]
  · rw [he _ (by omega), he _ (by omega)]
  · rw [he _ (by omega), he _ (by omega)]

theorem unwrap_congr (M : ℕ) (p q : ℕ → ℝ) (he : ∀ k < M, p k = q k) (k : ℕ) (hk : k < M) :
    Spectrum.unwrap p k = Spectrum.unwrap q k := by
  unfold Spectrum.unwrap
  rw [he k hk]
  congr 1
  refine Finset.sum_congr rfl fun i hi => ?_
  have := Finset.mem_range.mp hi
  rw [he i (by omega), he (i + 1) (by omega)]

theorem directPhase_congr (M : ℕ) (hM : 2 ≤ M) (p q : ℕ → ℝ) (d : ℝ) (he : ∀ k < M, p k = q k)
    (g g' : ℕ → ℝ) (hg : directPhase M p d = .ok g) (hg' : directPhase M q d = .ok g') (k : ℕ) (hk : k < M) :
    g k = g' k := by
  unfold directPhase at hg hg'
  rw [if_neg (by omega)] at hg hg'
  by_cases hd : d ≠ 1
  · rw [if_pos hd] at hg hg'
    injection hg with hg
    injection hg' with hg'
    rw [← hg, ← hg']
    dsimp only
    rw [gradient_congr M hM _ _ d (unwrap_congr M p q he) k hk]
  · rw [if_neg hd] at hg hg'
    injection hg with hg
    injection hg' with hg'
    rw [← hg, ← hg']
    dsimp only
    rw [gradient_congr M hM _ _ 1 (unwrap_congr M p q he) k hk]

/-- **C140**: a minimum-phase response (of fast length) has no excess group delay. -/
theorem C140_minimum_phase_partial (fast : ℕ → ℕ) (x : List ℝ) (fs : ℕ) (hfs : 0 < fs)
    (h2 : 2 ≤ x.length) (hfast : fast x.length = x.length) (y : ℕ → ℝ)
    (hy : cepstrumIr x.length (fun n => x.getD n 0) = some y)
    (hxy : ∀ n < x.length, y n = x.getD n 0) :
    excessGroupDelay fast x fs false =
      .ok (rfftfreq x.length fs, some (List.replicate (x.length / 2 + 1) 0)) := by
  have hx : ∀ k < x.length, rfft x.length (fun n => x.getD n 0) k ≠ 0 := by
    intro k hk h0
    unfold cepstrumIr MinimumPhase.spectrum at hy
    rw [if_pos ⟨k, hk, h0⟩] at hy
    cases hy
  obtain ⟨m, g, e, h1, h3, h4, hml, hgl, hel, h5, -⟩ := C140_excess fast x fs false hfs h2 (by omega)
    (by rw [hfast]; exact hx)
  rw [hfast] at h1 h4 hml hel h5
  rw [h4]
  congr 3
  apply List.ext_getElem
  · simp [hel]
  intro k hk hk'
  have hk2 : k < x.length / 2 + 1 := by rw [hel] at hk; exact hk
  have h6 := h5 rfl k (by omega)
  rw [List.getD_eq_getElem e _ hk] at h6
  rw [h6, List.getElem_replicate, sub_eq_zero]
  -- both delays come from the same phases
  have hS := spectrum_some x.length (fun n => x.getD n 0) hx
  unfold cepstrumIr at hy
  rw [hS] at hy
  obtain rfl := Option.some.inj hy
  have hspec : ∀ k < x.length, rfft x.length (fun n => x.getD n 0) k =
      Complex.exp (rfft x.length (fold x.length (realCepstrum x.length fun n => x.getD n 0)) k) := by
    intro k hk
    rw [← ir_spectrum x.length _ k hk]
    exact rfft_congr' _ _ _ (fun n hn => (hxy n hn).symm) k
  have hmin := minimum_some fast x 1 fs hfs (by rw [fftLength_one, hfast]; omega) _
    (by rw [fftLength_one, hfast]; exact hS)
  rw [fftLength_one, hfast, h1] at hmin
  unfold groupDelay at h3
  rw [if_neg (by simp)] at h3
  unfold groupDelayDirect at h3
  dsimp only at h3
  rw [rfftfreq_length, if_neg (by omega), rfftfreq_step _ fs h2] at h3
  unfold direct at h3
  obtain ⟨g1, hg1⟩ := directPhase_ok (x.length / 2 + 1) (by omega)
    (fun k => Complex.arg (rfft x.length (fun n => x.getD n 0) k)) ((fs : ℝ) / x.length)
  obtain ⟨g2, hg2⟩ := directPhase_ok (x.length / 2 + 1) (by omega)
    (fun k => if k < x.length / 2 + 1 then Complex.arg (Complex.exp
      (rfft x.length (fold x.length (realCepstrum x.length fun n => x.getD n 0)) k)) else 0)
    ((fs : ℝ) / x.length)
  rw [hg1] at h3
  rw [hg2] at hmin
  simp only [Except.map, Except.ok.injEq, Prod.mk.injEq, true_and, Option.some.injEq,
    rfftfreq_length] at h3 hmin
  rw [← h3, hmin, getD_map_range, getD_map_range, if_pos hk2, if_pos hk2]
  refine directPhase_congr _ (by omega) _ _ _ (fun j hj => ?_) g1 g2 hg1 hg2 k hk2
  rw [if_pos hj, hspec j (by omega)]

/-! ### Impulses -/

/-- An impulse at sample `d` of `L`. -/
noncomputable def impulse (L d : ℕ) : List ℝ := (List.range L).map fun n => if n = d then 1 else 0

theorem impulse_length (L d : ℕ) : (impulse L d).length = L := by simp [impulse]

theorem impulse_rfft (L d N : ℕ) (hd : d < L) (hN : L ≤ N) (k : ℕ) :
    rfft N (fun n => (impulse L d).getD n 0) k = e N (-(k * d)) := by
  rw [← rfft_impulse N d (by omega)]
  refine rfft_congr' N _ _ (fun n hn => ?_) k
  unfold impulse
  rw [getD_map_range, getD_map_range, if_pos hn]
  split_ifs <;> first | rfl | omega

theorem norm_e (N : ℕ) (d : ℤ) : ‖e N d‖ = 1 := by
  have hn : e N d = Complex.exp (((2 * Real.pi * d / N : ℝ) : ℂ) * Complex.I) := by
    unfold e
    congr 1
    push_cast
    ring
  rw [hn]
  exact Complex.norm_exp_ofReal_mul_I _

theorem impulse_minimum (fast : ℕ → ℕ) (L d fs : ℕ) (hfs : 0 < fs) (h2 : 2 ≤ L) (hd : d < L)
    (hfast : L ≤ fast L) (m : List ℝ)
    (hm : minimumGroupDelay fast (impulse L d) 1 fs = .ok (rfftfreq (fast L) fs, some m))
    (k : ℕ) (hk : k ≤ fast L / 2) : m.getD k 0 = 0 := by
  have hx : ∀ k < fast L, rfft (fast L) (fun n => (impulse L d).getD n 0) k ≠ 0 := by
    intro k _
    rw [impulse_rfft L d _ hd hfast]
    intro h
    have := norm_e (fast L) (-(k * d))
    rw [h, norm_zero] at this
    norm_num at this
  have hl : fftLength fast (impulse L d) 1 = fast L := by rw [fftLength_one, impulse_length]
  have hmin := minimum_some fast (impulse L d) 1 fs hfs (by rw [hl]; omega) _
    (by rw [hl]; exact spectrum_some _ _ hx)
  rw [hl, hm] at hmin
  have hz : ∀ k < fast L, Complex.exp (rfft (fast L)
      (fold (fast L) (realCepstrum (fast L) fun n => (impulse L d).getD n 0)) k) = 1 := by
    intro k _
    have h0 : ∀ n < fast L, fold (fast L) (realCepstrum (fast L) fun n => (impulse L d).getD n 0) n =
        (fun _ => (0 : ℝ)) n := by
      intro n hn
      refine fold_unique _ _ _ (fun _ _ _ => rfl) (fun k _ => ?_) n hn
      rw [impulse_rfft L d _ hd hfast, norm_e, Real.log_one]
      simp [rfft, dft]
    rw [rfft_congr' _ _ _ h0]
    simp [rfft, dft]
  obtain ⟨g, hg⟩ := directPhase_ok (fast L / 2 + 1) (by omega)
    (fun k => if k < fast L / 2 + 1 then Complex.arg (Complex.exp (rfft (fast L)
      (fold (fast L) (realCepstrum (fast L) fun n => (impulse L d).getD n 0)) k)) else 0)
    ((fs : ℝ) / fast L)
  obtain ⟨g0, hg0⟩ := directPhase_ok (fast L / 2 + 1) (by omega) (fun _ => 0) ((fs : ℝ) / fast L)
  rw [hg] at hmin
  simp only [Except.map, Except.ok.injEq, Prod.mk.injEq, true_and, Option.some.injEq] at hmin
  rw [hmin, getD_map_range, if_pos (by omega)]
  rw [directPhase_congr _ (by omega) _ _ _ (fun j hj => by
    rw [if_pos hj, hz j (by omega), Complex.arg_one]) g g0 hg hg0 k (by omega)]
  unfold directPhase at hg0
  rw [if_neg (by omega)] at hg0
  have hu : ∀ j, Spectrum.unwrap (fun _ => (0 : ℝ)) j = 0 := by
    intro j
    unfold Spectrum.unwrap Spectrum.unwrapCorr
    simp [Real.pi_pos]
  split_ifs at hg0
  · injection hg0 with hg0
    rw [← hg0]
    unfold gradient
    simp only [hu]
    simp
  · injection hg0 with hg0
    rw [← hg0]
    unfold gradient
    simp only [hu]
    simp

/-- The excess delay of an impulse is its group delay where that is known. -/
theorem impulse_excess (fast : ℕ → ℕ) (L d fs : ℕ) (hfs : 0 < fs) (h2 : 2 ≤ L) (hd : 2 * d < L)
    (hfast : L ≤ fast L) (c : ℝ)
    (hg : ∃ f g, groupDelayDirect (impulse L d) fs = .ok (f, g) ∧ ∀ k ≤ L / 2, g k = c) :
    ∃ e, excessGroupDelay fast (impulse L d) fs false = .ok (rfftfreq (fast L) fs, some e) ∧
      e.length = fast L / 2 + 1 ∧
      (L / 2 = fast L / 2 → ∀ k ≤ fast L / 2, e.getD k 0 = c) ∧
      (L / 2 ≠ fast L / 2 → ∀ k ≤ fast L / 2,
        ((k : ℝ) * fs / fast L ≤ (L / 2 : ℕ) * fs / L → e.getD k 0 = c) ∧
        (((L / 2 : ℕ) : ℝ) * fs / L < k * fs / fast L → e.getD k 0 = 0)) := by
  have hx : ∀ k < fast (impulse L d).length, rfft (fast (impulse L d).length)
      (fun n => (impulse L d).getD n 0) k ≠ 0 := by
    intro k _
    rw [impulse_length, impulse_rfft L d _ (by omega) hfast]
    intro h
    have := norm_e (fast L) (-(k * d))
    rw [h, norm_zero] at this
    norm_num at this
  obtain ⟨m, g, e, h1, h3, h4, hml, hgl, hel, h5, h6⟩ := C140_excess fast (impulse L d) fs false hfs
    (by rw [impulse_length]; exact h2) (by rw [impulse_length]; exact hfast) hx
  rw [impulse_length] at h1 h3 h4 hml hgl hel h5 h6
  have hm := impulse_minimum fast L d fs hfs h2 (by omega) hfast m h1
  obtain ⟨f, g', hg', hv⟩ := hg
  have hgc : ∀ k ≤ L / 2, g.getD k 0 = c := by
    intro k hk
    unfold groupDelay at h3
    rw [if_neg (by simp), hg'] at h3
    simp only [Except.map, Except.ok.injEq, Prod.mk.injEq] at h3
    rw [← h3.2, h3.1, rfftfreq_length, getD_map_range, if_pos (by omega), hv k hk]
  refine ⟨e, h4, hel, fun h k hk => ?_, fun h k hk => ⟨fun hle => ?_, fun hlt => ?_⟩⟩
  · rw [h5 h k hk, hm k hk, hgc k (by omega), sub_zero]
  · obtain ⟨v, ⟨ho1, ho2, ho3⟩, he⟩ := (h6 h k hk).1 hle
    rw [he, hm k hk, sub_zero]
    rcases ho3 with ⟨i, hi, ha, hb⟩ | ⟨i, hi, ha⟩
    · have hseg := ho1 i hi ha hb
      have hinc := rfftfreq_increasing L fs (by omega) hfs i (i + 1) (by omega) hi
      rw [rfftfreq_length] at hi
      rw [hgc i (by omega), hgc (i + 1) (by omega)] at hseg
      have : v * ((rfftfreq L fs).getD (i + 1) 0 - (rfftfreq L fs).getD i 0) =
          c * ((rfftfreq L fs).getD (i + 1) 0 - (rfftfreq L fs).getD i 0) := by
        rw [hseg]; ring
      exact mul_right_cancel₀ (sub_ne_zero.mpr hinc.ne') this
    · rw [rfftfreq_length] at hi
      rw [ho2 i (by rw [rfftfreq_length]; exact hi) ha, hgc i (by omega)]
  · rw [(h6 h k hk).2 hlt, hm k hk, neg_zero]

/-- **C140**: the excess group delay of an impulse in the first half is its time, at each frequency up to the
last one of the group delay, unless the impulse response is one second long. -/
theorem C140_impulse_partial (fast : ℕ → ℕ) (L d fs : ℕ) (hfs : 0 < fs) (h2 : 2 ≤ L) (hd : 2 * d < L)
    (hfast : L ≤ fast L) (hne : L ≠ fs) :
    ∃ e, excessGroupDelay fast (impulse L d) fs false = .ok (rfftfreq (fast L) fs, some e) ∧
      ∀ k ≤ fast L / 2, (k : ℝ) * fs / fast L ≤ (L / 2 : ℕ) * fs / L → e.getD k 0 = d / fs := by
  obtain ⟨e, h1, -, h3, h4⟩ := impulse_excess fast L d fs hfs h2 hd hfast _
    (C89_impulse_partial L fs d hd h2 hfs hne)
  refine ⟨e, h1, fun k hk hle => ?_⟩
  by_cases h : L / 2 = fast L / 2
  · exact h3 h k hk
  · exact (h4 h k hk).1 hle

/-- **C140**, not so: at all returned frequencies.  If the length is odd and not fast, so that the numbers of
bins differ, the excess group delay of an impulse is 0 in the last bin, wherever the impulse is. -/
theorem C140_odd_wrong (fast : ℕ → ℕ) (L d fs : ℕ) (hfs : 0 < fs) (h2 : 2 ≤ L) (hd : 2 * d < L)
    (hfast : L ≤ fast L) (hne : L ≠ fs) (hodd : L % 2 = 1) (hbins : L / 2 ≠ fast L / 2) :
    ∃ e, excessGroupDelay fast (impulse L d) fs false = .ok (rfftfreq (fast L) fs, some e) ∧
      e.getD (fast L / 2) 0 = 0 := by
  obtain ⟨e, h1, -, -, h4⟩ := impulse_excess fast L d fs hfs h2 hd hfast _
    (C89_impulse_partial L fs d hd h2 hfs hne)
  refine ⟨e, h1, (h4 hbins _ le_rfl).2 ?_⟩
  have a1 : (0 : ℝ) < L := by exact_mod_cast (by omega : 0 < L)
  have a2 : (0 : ℝ) < fast L := by exact_mod_cast (by omega : 0 < fast L)
  have a3 : (0 : ℝ) < fs := by exact_mod_cast hfs
  rw [div_lt_div_iff₀ a1 a2]
  have key : (L / 2) * fast L < (fast L / 2) * L := by
    have e1 : L = 2 * (L / 2) + 1 := by omega
    have e2 : 2 * (fast L / 2) + 1 ≥ fast L := by omega
    have e3 : L / 2 < fast L / 2 := by omega
    generalize L / 2 = a at *
    generalize fast L / 2 = b at *
    subst e1
    nlinarith
  have key' : ((L / 2 : ℕ) : ℝ) * fast L < (fast L / 2 : ℕ) * L := by exact_mod_cast key
  nlinarith

/-- **C140**, not so: for an impulse response of one second the value is too large by `2 π`. -/
theorem C140_one_second_wrong (fast : ℕ → ℕ) (d fs : ℕ) (h2 : 2 ≤ fs) (hd : 2 * d < fs)
    (hfast : fast fs = fs) :
    ∃ e, excessGroupDelay fast (impulse fs d) fs false = .ok (rfftfreq fs fs, some e) ∧
      ∀ k ≤ fs / 2, e.getD k 0 = 2 * Real.pi * (d / fs) := by
  obtain ⟨e, h1, -, h3, -⟩ := impulse_excess fast fs d fs (by omega) h2 hd hfast.ge _
    (C89_one_second_wrong fs d hd h2)
  rw [hfast] at h1 h3
  exact ⟨e, h1, h3 rfl⟩

/-- **C140**, not so: both delays belong to the returned frequencies.  If the fast length differs from an even
length by 1, as 27 does from 26, the numbers of bins agree and no interpolation takes place, although the
frequencies differ in each bin but the first. -/
theorem C140_grid_wrong (fast : ℕ → ℕ) (x : List ℝ) (fs : ℕ) (analytic : Bool) (hfs : 0 < fs)
    (h2 : 2 ≤ x.length) (heven : x.length % 2 = 0) (hfast : fast x.length = x.length + 1)
    (hx : ∀ k < fast x.length, rfft (fast x.length) (fun n => x.getD n 0) k ≠ 0) :
    ∃ f m f' g e, minimumGroupDelay fast x 1 fs = .ok (f, some m) ∧
      groupDelay x fs analytic = .ok (f', g) ∧ excessGroupDelay fast x fs analytic = .ok (f, some e) ∧
      ∀ k ≤ x.length / 2, e.getD k 0 = g.getD k 0 - m.getD k 0 ∧
        (0 < k → f.getD k 0 < f'.getD k 0) := by
  obtain ⟨m, g, e, h1, h3, h4, hml, hgl, hel, h5, -⟩ := C140_excess fast x fs analytic hfs h2 (by omega) hx
  refine ⟨_, m, _, g, e, h1, h3, h4, fun k hk => ⟨h5 (by omega) k (by omega), fun h0 => ?_⟩⟩
  rw [rfftfreq_getD _ fs k (by omega), rfftfreq_getD _ fs k hk, hfast]
  have a1 : (0 : ℝ) < x.length := by exact_mod_cast (by omega : 0 < x.length)
  have a2 : (0 : ℝ) < k := by exact_mod_cast h0
  have a3 : (0 : ℝ) < fs := by exact_mod_cast hfs
  apply div_lt_div_of_pos_left (by positivity) a1
  push_cast
  linarith

/-- **C140**, not so: every response has an excess group delay.  One whose samples add up to 0 gives nan in
each bin. -/
theorem C140_zero_mean_wrong (fast : ℕ → ℕ) (x : List ℝ) (fs : ℕ) (analytic : Bool) (hfs : 0 < fs)
    (h2 : 2 ≤ x.length) (hfast : x.length ≤ fast x.length)
    (hsum : ∑ n ∈ Finset.range x.length, x.getD n 0 = 0) :
    excessGroupDelay fast x fs analytic = .ok (rfftfreq (fast x.length) fs, none) := by
  have h0 : rfft (fast x.length) (fun n => x.getD n 0) 0 = 0 := by
    unfold rfft dft
    have h1 : ∀ n ∈ Finset.range (fast x.length),
        ((x.getD n 0 : ℝ) : ℂ) * e (fast x.length) (-(((0 : ℕ) : ℤ) * n)) = (x.getD n 0 : ℝ) := by
      intro n _
      simp [e_zero]
    rw [Finset.sum_congr rfl h1, ← Complex.ofReal_sum,
      ← Finset.sum_subset (Finset.range_subset_range.2 hfast) (fun n _ hn => by
        rw [List.getD_eq_default _ _ (by simpa using hn)]), hsum, Complex.ofReal_zero]
  have hS : spectrum (fast x.length) (fun n => x.getD n 0) = none := by
    unfold MinimumPhase.spectrum
    rw [if_pos ⟨0, by omega, h0⟩]
  have hmin := minimum_none fast x 1 fs hfs (by rw [fftLength_one]; omega)
    (by rw [fftLength_one]; exact hS)
  rw [fftLength_one] at hmin
  obtain ⟨g, hg, hgl⟩ := groupDelay_ok x fs analytic h2
  unfold excessGroupDelay
  rw [hmin, hg]
  dsimp only
  by_cases h : (rfftfreq x.length fs).length ≠ (rfftfreq (fast x.length) fs).length
  · obtain ⟨r, hr, -⟩ := InterpolateFr.C137_values InterpolateFr.Documented.none
      (rfftfreq x.length fs) g (rfftfreq (fast x.length) fs)
      (rfftfreq_increasing _ fs (by omega) hfs) (by rw [rfftfreq_length, hgl])
      (by rw [rfftfreq_length]; omega) (by intro h; cases h)
    rw [if_pos h, hr]
    rfl
  · rw [if_neg h]
    rfl

/-- An impulse at sample 3 of 26 (the next fast length is 27) and one of 13 (the next fast length is 14). -/
example : 2 * 3 < 26 ∧ 26 % 2 = 0 ∧ 2 * 3 < 13 ∧ 13 % 2 = 1 ∧ 13 / 2 ≠ 14 / 2 := by decide

/-- Each minimum-phase response from C87 meets the hypotheses of `C140_minimum_phase_partial`. -/
example (N : ℕ) (x y : ℕ → ℝ) (h : cepstrumIr N x = some y) :
    ((List.range N).map y).length = N ∧
      cepstrumIr N (fun n => ((List.range N).map y).getD n 0) = some y ∧
      ∀ n < N, y n = ((List.range N).map y).getD n 0 := by
  have hl : ∀ n < N, ((List.range N).map y).getD n 0 = y n := fun n hn => by
    rw [getD_map_range, if_pos hn]
  refine ⟨by simp, ?_, fun n hn => (hl n hn).symm⟩
  rw [← C87_idempotent N x y h]
  exact C87_only_magnitude N _ _ fun k _ => by rw [rfft_congr' N _ _ hl k]

/-- The sequence 0 and the phase 0 meet the hypotheses of `C140_minimum` for an impulse. -/
example (k : ℕ) : rfft 4 (fun n => (impulse 4 1).getD n 0) k ≠ 0 ∧ rfft 4 (fun _ => 0) k =
    Real.log ‖rfft 4 (fun n => (impulse 4 1).getD n 0) k‖ + Complex.I * (0 : ℝ) := by
  rw [impulse_rfft 4 1 4 (by norm_num) le_rfl, norm_e]
  refine ⟨fun h => ?_, by simp [rfft, dft]⟩
  have := norm_e 4 (-((k : ℤ) * (1 : ℕ)))
  rw [h, norm_zero] at this
  norm_num at this

/-- The impulse at 0 is its own minimum-phase version. -/
example : excessGroupDelay id (impulse 4 0) 48000 false =
    .ok (rfftfreq 4 48000, some [0, 0, 0]) := by
  obtain ⟨e, h1, h2, h3, -⟩ := impulse_excess id 4 0 48000 (by norm_num) (by norm_num) (by norm_num) le_rfl _
    (C89_impulse_partial 4 48000 0 (by norm_num) (by norm_num) (by norm_num) (by norm_num))
  rw [h1]
  congr 3
  apply List.ext_getElem
  · simpa using h2
  intro k hk hk'
  have := h3 rfl k (by simpa using Nat.lt_succ_iff.mp (by simpa using hk'))
  rw [List.getD_eq_getElem _ _ hk] at this
  rw [this]
  have : k = 0 ∨ k = 1 ∨ k = 2 := by simp at hk'; omega
  rcases this with rfl | rfl | rfl <;> simp

end Verif.ExcessDelay

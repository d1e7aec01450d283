import Verif.Model.Gammatone
import Verif.Lemmas.FilterBank
import Verif.Props.C45
import Mathlib.RingTheory.PowerSeries.WellKnown
import Mathlib.Analysis.SpecificLimits.Normed

/-! Lemmas about the gammatone filter bank. -/

namespace Verif.Gammatone

open PowerSeries Verif.Bank

/-- Sample `n` of the response of four equal complex one-pole sections. -/
noncomputable def tone (c : ℂ) (g : ℝ) (n : ℕ) : ℂ := g * ((n + 3).choose 3 : ℕ) * c ^ n

theorem geometric (c : ℂ) : rescale c (mk 1 : PowerSeries ℂ) = mk fun n => c ^ n := by
  ext n
  simp [coeff_rescale]

theorem section_series (b c : ℂ) :
    ratio [b, 0, 0] [1, -c, 0] = C b * mk fun n => c ^ n := by
  unfold ratio
  have hb : zseries [b, 0, 0] = C b := by
    ext n
    rw [zseries_coeff, coeff_C]
    rcases n with _ | _ | _ | n <;> simp
  have ha : (zseries [1, -c, 0])⁻¹ = mk fun n => c ^ n := by
    rw [PowerSeries.inv_eq_iff_mul_eq_one]
    · ext n
      have e : zseries [1, -c, 0] = 1 - C c * X := by
        ext n
        rw [zseries_coeff, map_sub, coeff_C_mul, coeff_X, coeff_one]
        rcases n with _ | _ | _ | n <;> simp
      rw [e, mul_sub, mul_one, map_sub, mul_left_comm, coeff_C_mul]
      rcases n with _ | n
      · simp
      · rw [coeff_succ_mul_X, coeff_mk, coeff_mk, coeff_one, if_neg (by omega), pow_succ]
        ring
    · rw [← coeff_zero_eq_constantCoeff_apply, zseries_coeff]
      simp
  rw [hb, ha]

theorem filt_series (c : ℂ) (g : ℝ) : (filt c g).H = mk (tone c g) := by
  unfold filt Filt.H
  simp only [List.map_cons, List.map_nil, List.prod_cons, List.prod_nil, section_series]
  have h := mk_one_pow_eq_mk_choose_add ℂ 3
  rw [← geometric, map_one]
  have e : (rescale c (mk 1 : PowerSeries ℂ)) ^ 4 = rescale c (mk fun n => ((3 + n).choose 3 : ℂ)) := by
    rw [← map_pow]
    exact congrArg _ h
  have e2 : 1 * rescale c (mk 1 : PowerSeries ℂ) * (1 * rescale c (mk 1) *
      (1 * rescale c (mk 1) * (C (g : ℂ) * rescale c (mk 1) * 1))) =
      C (g : ℂ) * (rescale c (mk 1 : PowerSeries ℂ)) ^ 4 := by ring
  rw [e2, e]
  ext n
  rw [coeff_C_mul, coeff_rescale, coeff_mk, coeff_mk, tone, add_comm 3 n]
  ring

theorem filt_proper (c : ℂ) (g : ℝ) : (filt c g).Proper := by
  simp [filt, Filt.Proper]

theorem analyse_length (c : ℂ) (g : ℝ) (x : List ℝ) : (analyse c g x).length = x.length := by
  unfold analyse
  rw [channel_length _ (filt_proper c g), List.length_map]

/-- A band is the convolution of the channel with `tone`. -/
theorem analyse_getD (c : ℂ) (g : ℝ) (x : List ℝ) (n : ℕ) (hn : n < x.length) :
    (analyse c g x).getD n 0 = ∑ m ∈ Finset.range (n + 1), tone c g (n - m) * (x.getD m 0 : ℝ) := by
  have h := channel_agree (filt c g) (filt_proper c g) (x.map fun (v : ℝ) => (v : ℂ)) n (by simpa using hn)
  rw [zseries_coeff] at h
  unfold analyse
  rw [h, filt_series, mul_comm, coeff_mul, Finset.Nat.sum_antidiagonal_eq_sum_range_succ
    (fun i j => coeff i (zseries (x.map fun (v : ℝ) => (v : ℂ))) * coeff j (mk (tone c g)))]
  refine Finset.sum_congr rfl fun m hm => ?_
  have := Finset.mem_range.mp hm
  rw [zseries_coeff, coeff_mk, mul_comm]
  congr 1
  rw [List.getD_eq_getElem _ _ (by simp; omega), List.getD_eq_getElem _ _ (by omega), List.getElem_map]

theorem tone_hasSum (c : ℂ) (g : ℝ) (w : ℂ) (h : ‖c * w‖ < 1) :
    HasSum (fun n => tone c g n * w ^ n) (g * (1 - c * w) ^ (-4 : ℤ)) := by
  have := (hasSum_choose_mul_geometric_of_norm_lt_one 3 h).mul_left (g : ℂ)
  have e1 : (fun n => tone c g n * w ^ n) =
      fun n => (g : ℂ) * (((n + 3).choose 3 : ℕ) * (c * w) ^ n) := by
    funext n
    unfold tone
    rw [mul_pow]
    ring
  have e2 : (g : ℂ) * (1 - c * w) ^ (-4 : ℤ) = g * (1 / (1 - c * w) ^ (3 + 1)) := by
    rw [zpow_neg, one_div]
    norm_cast
  rw [e1, e2]
  exact this

/-! ### Design -/

theorem norm_coefficient (fs : ℕ) (f : ℝ) : ‖coefficient fs f‖ = lam fs f := by
  unfold coefficient
  rw [norm_mul, mul_comm Complex.I, Complex.norm_exp_ofReal_mul_I, mul_one, Complex.norm_real,
    Real.norm_of_nonneg (show 0 ≤ lam fs f from Real.exp_nonneg _)]

theorem lam_lt_one (fs : ℕ) (f : ℝ) (hfs : 0 < fs) (hf : 0 ≤ f) : lam fs f < 1 := by
  unfold lam
  rw [Real.exp_lt_one_iff]
  have h1 : 0 < erbAud f := by unfold erbAud; positivity
  have h2 : 0 < aGamma := by unfold aGamma; positivity
  have h3 : (0 : ℝ) < fs := by exact_mod_cast hfs
  have : 0 < 2 * Real.pi * (erbAud f / aGamma) / fs := by positivity
  have e : -2 * Real.pi * (erbAud f / aGamma) / fs = -(2 * Real.pi * (erbAud f / aGamma) / fs) := by ring
  rw [e]
  linarith

theorem lam_pos (fs : ℕ) (f : ℝ) : 0 < lam fs f := Real.exp_pos _

/-! ### The delayed impulse -/

theorem dirac_ok (L d : ℕ) (h : d < L) :
    dirac L d = .ok ((List.range L).map fun (n : ℕ) => if n = d then (1 : ℝ) else 0) := by
  unfold dirac
  rw [if_neg (by omega), if_neg (by omega)]

theorem analyse_dirac (c : ℂ) (g : ℝ) (L d n : ℕ) (hn : n < L) :
    (analyse c g ((List.range L).map fun (n : ℕ) => if n = d then (1 : ℝ) else 0)).getD n 0 =
      if n < d then 0 else tone c g (n - d) := by
  rw [analyse_getD c g _ n (by simpa using hn)]
  have e : ∀ m ∈ Finset.range (n + 1), tone c g (n - m) *
      ((((List.range L).map fun (n : ℕ) => if n = d then (1 : ℝ) else 0).getD m 0 : ℝ) : ℂ) =
      if m = d then tone c g (n - d) else 0 := by
    intro m hm
    have := Finset.mem_range.mp hm
    rw [List.getD_eq_getElem _ _ (by simp; omega), List.getElem_map, List.getElem_range]
    split_ifs with h
    · rw [h]; simp
    · simp
  rw [Finset.sum_congr rfl e, Finset.sum_ite_eq']
  by_cases h : n < d
  · rw [if_neg (by simp; omega), if_pos h]
  · rw [if_pos (by simp; omega), if_neg h]

theorem argmin_zeros (l : List ℝ) (hl : l ≠ []) (h : ∀ v ∈ l, v = 0) : Helpers.argmin l = .ok 0 := by
  have : ∀ (l : List ℝ) (i : ℕ), (∀ v ∈ l, v = 0) → (Helpers.argminFrom (0, (0 : ℝ)) i l).1 = 0 := by
    intro l
    induction l with
    | nil => intros; rfl
    | cons a l ih =>
      intro i h
      unfold Helpers.argminFrom
      rw [h a (by simp), if_neg (lt_irrefl _)]
      exact ih _ fun v hv => h v (List.mem_cons_of_mem _ hv)
  cases l with
  | nil => exact absurd rfl hl
  | cons a l =>
    unfold Helpers.argmin
    dsimp only
    rw [h a (by simp), this l 1 fun v hv => h v (List.mem_cons_of_mem _ hv)]

/-- The delay and the phase factor that are found: the impulse comes after the samples that are
searched. -/
theorem delayAndPhase_ok (fs : ℕ) (c : ℂ) (g : ℝ) (h : delaySamples fs + 3 < fs / 2) :
    delayAndPhase fs c g = .ok ((delaySamples fs : ℤ),
      Complex.I / (-tone c g (fs / 2 - 1 - (delaySamples fs + 3)) /
        ‖tone c g (fs / 2 - 1 - (delaySamples fs + 3))‖)) := by
  unfold delayAndPhase
  simp only [dirac_ok _ _ h, bind, Except.bind, pure, Except.pure]
  set x := (List.range (fs / 2)).map fun (n : ℕ) => if n = delaySamples fs + 3 then (1 : ℝ) else 0
    with hx
  have hlen : (analyse c g x).length = fs / 2 := by rw [analyse_length, hx]; simp
  rw [argmin_zeros]
  · dsimp only
    rw [hlen]
    have e1 := analyse_dirac c g (fs / 2) (delaySamples fs + 3) (0 + 1) (by omega)
    have e2 := analyse_dirac c g (fs / 2) (delaySamples fs + 3) (fs / 2 - 1) (by omega)
    rw [if_pos (by omega)] at e1
    rw [if_neg (by omega)] at e2
    rw [← hx] at e1 e2
    have e3 : (if ((0 : ℕ) : ℤ) - 1 < 0 then ((0 : ℕ) : ℤ) - 1 + ((fs / 2 : ℕ) : ℤ)
        else ((0 : ℕ) : ℤ) - 1).toNat = fs / 2 - 1 := by
      rw [if_pos (by norm_num)]
      omega
    rw [e3, e1, e2, zero_sub, norm_neg]
    simp
  · rw [ne_eq, List.map_eq_nil_iff, List.take_eq_nil_iff, List.map_eq_nil_iff]
    rintro (h1 | h1)
    · omega
    · rw [h1] at hlen
      simp at hlen
      omega
  · intro v hv
    obtain ⟨a, ha, rfl⟩ := List.mem_map.mp hv
    obtain ⟨i, hi, rfl⟩ := List.mem_take_iff_getElem.mp ha
    rw [List.length_map, hlen] at hi
    rw [List.getElem_map]
    have := analyse_dirac c g (fs / 2) (delaySamples fs + 3) i (by omega)
    rw [if_pos (by omega), ← hx, List.getD_eq_getElem _ _ (by omega)] at this
    rw [this]
    simp

/-- The band of a centre frequency, if the sampling rate is high enough. -/
noncomputable def bandOf (fs : ℕ) (f : ℝ) : Band :=
  ⟨f, coefficient fs f, normalization (coefficient fs f), delaySamples fs,
    Complex.I / (-tone (coefficient fs f) (normalization (coefficient fs f))
        (fs / 2 - 1 - (delaySamples fs + 3)) /
      ‖tone (coefficient fs f) (normalization (coefficient fs f))
        (fs / 2 - 1 - (delaySamples fs + 3))‖)⟩

theorem mapM_pure {α β : Type} (F : α → Except Err β) (G : α → β) (l : List α)
    (h : ∀ a ∈ l, F a = .ok (G a)) : l.mapM F = .ok (l.map G) := by
  induction l with
  | nil => rfl
  | cons a l ih =>
    rw [List.mapM_cons, h a (by simp), ih fun b hb => h b (List.mem_cons_of_mem _ hb)]
    rfl

theorem ofFrequencies_ok (fs : ℕ) (freqs : List ℝ) (hne : freqs ≠ [])
    (h : delaySamples fs + 3 < fs / 2) :
    ofFrequencies fs freqs =
      .ok ⟨fs, freqs.map (bandOf fs), computeGains fs (freqs.map (bandOf fs))⟩ := by
  unfold ofFrequencies
  rw [if_neg hne, mapM_pure _ (bandOf fs)]
  · rfl
  · intro f _
    simp only [delayAndPhase_ok fs _ _ h, bind, Except.bind, pure, Except.pure]
    rfl

theorem delayAndPhase_error (fs : ℕ) (c : ℂ) (g : ℝ) (h : ¬ delaySamples fs + 3 < fs / 2) :
    delayAndPhase fs c g = .error .assertionError := by
  unfold delayAndPhase dirac
  by_cases h0 : fs / 2 = 0
  · simp only [if_pos h0, bind, Except.bind]
  · simp only [if_neg h0, if_pos (not_lt.mp h), bind, Except.bind]

theorem ofFrequencies_error (fs : ℕ) (freqs : List ℝ) (hne : freqs ≠ [])
    (h : ¬ delaySamples fs + 3 < fs / 2) : ofFrequencies fs freqs = .error .assertionError := by
  unfold ofFrequencies
  rw [if_neg hne]
  cases freqs with
  | nil => exact absurd rfl hne
  | cons f l =>
    rw [List.mapM_cons]
    simp only [delayAndPhase_error fs _ _ h, bind, Except.bind]

end Verif.Gammatone

import Verif.Model.OctaveBands
import Verif.Lemmas.BlockFIR
import Verif.Props.C74
import Verif.Props.C89

/-!
# C92: reconstruction with fractional octave bands
-/

namespace Verif.OctaveBands

open Complex DFT

/-! ### Specification -/

/-- Gain with which band `b` is faded in. -/
noncomputable def fadeIn (k₁ P : ℕ → ℕ) (slope b k : ℕ) : ℝ :=
  if b = 0 then 1
  else if k < k₁ b - P b then 0
  else if k ≤ k₁ b + P b ∧ 0 < P b then Real.sin (angle (P b) slope ((k : ℤ) - k₁ b))
  else 1

/-- Gain with which the band before band `b` is faded out. -/
noncomputable def fadeOut (k₁ P : ℕ → ℕ) (slope b k : ℕ) : ℝ :=
  if k₁ b + P b ≤ k then 0
  else if k₁ b - P b ≤ k ∧ 0 < P b then Real.cos (angle (P b) slope ((k : ℤ) - k₁ b))
  else 1

/-- The fades of neighbouring bands do not overlap. -/
def Separated (bands : ℕ) (k₁ P : ℕ → ℕ) : Prop :=
  ∀ b, 1 ≤ b → b + 1 < bands → k₁ b + P b ≤ k₁ (b + 1) - P (b + 1)

theorem ramp_end (P slope : ℕ) (h : 0 < P) : ramp P slope P = 1 := by
  unfold ramp
  have hP : (P : ℝ) ≠ 0 := by positivity
  rw [Int.cast_natCast, div_self hP]
  induction slope with
  | zero => rfl
  | succ n ih => rw [Function.iterate_succ_apply', ih]; simp

theorem angle_end (P slope : ℕ) (h : 0 < P) : angle P slope P = Real.pi / 2 := by
  unfold angle
  rw [ramp_end P slope h]
  norm_num

theorem fade_sq (k₁ P : ℕ → ℕ) (slope b k : ℕ) (hb : 0 < b) :
    fadeIn k₁ P slope b k ^ 2 + fadeOut k₁ P slope b k ^ 2 = 1 := by
  unfold fadeIn fadeOut
  rw [if_neg (by omega)]
  by_cases h1 : k < k₁ b - P b
  · rw [if_pos h1, if_neg (by omega), if_neg (by omega)]
    norm_num
  · rw [if_neg h1]
    by_cases h2 : k₁ b + P b ≤ k
    · rw [if_pos h2]
      by_cases h3 : k ≤ k₁ b + P b ∧ 0 < P b
      · rw [if_pos h3, show ((k : ℤ) - k₁ b) = (P b : ℤ) by omega, angle_end _ _ h3.2]
        norm_num
      · rw [if_neg h3]
        norm_num
    · rw [if_neg h2]
      by_cases h3 : 0 < P b
      · rw [if_pos ⟨by omega, h3⟩, if_pos ⟨by omega, h3⟩, Real.sin_sq_add_cos_sq]
      · exact absurd h1 (by omega)

/-- Where band `b + 1` is faded in, band `b` is fully faded in. -/
theorem fadeIn_one (bands : ℕ) (k₁ P : ℕ → ℕ) (slope b k : ℕ) (hs : Separated bands k₁ P)
    (hb : b + 1 < bands) (h : k₁ (b + 1) - P (b + 1) ≤ k) : fadeIn k₁ P slope b k = 1 := by
  unfold fadeIn
  by_cases h0 : b = 0
  · rw [if_pos h0]
  · rw [if_neg h0]
    have := hs b (by omega) hb
    rw [if_neg (by omega)]
    by_cases h3 : k ≤ k₁ b + P b ∧ 0 < P b
    · rw [if_pos h3, show ((k : ℤ) - k₁ b) = (P b : ℤ) by omega, angle_end _ _ h3.2]
      simp
    · rw [if_neg h3]

theorem fadeIn_zero (k₁ P : ℕ → ℕ) (slope b k : ℕ) (hb : 0 < b) (h : k < k₁ b - P b) :
    fadeIn k₁ P slope b k = 0 := by
  unfold fadeIn
  rw [if_neg (by omega), if_pos h]

/-- The loop computes the product of the fades. -/
theorem gains_spec (bins bands : ℕ) (k₁ P : ℕ → ℕ) (slope n : ℕ) (hs : Separated bands k₁ P) (hn : n < bands)
    (g : ℕ → ℕ → ℝ) (h : gains bins k₁ P slope n = .ok g) (c k : ℕ) :
    g c k = (if c ≤ n then fadeIn k₁ P slope c k else 1) *
      (if c + 1 ≤ n then fadeOut k₁ P slope (c + 1) k else 1) := by
  induction n generalizing g c k with
  | zero =>
    unfold gains at h
    cases h
    rw [if_neg (by omega : ¬ c + 1 ≤ 0)]
    by_cases hc : c ≤ 0
    · rw [if_pos hc, show c = 0 by omega]
      unfold fadeIn
      simp
    · rw [if_neg hc]
      norm_num
  | succ n ih =>
    unfold gains at h
    cases hg : gains bins k₁ P slope n with
    | error e => rw [hg] at h; cases h
    | ok g0 =>
      rw [hg] at h
      dsimp only at h
      have ih' := ih (by omega) g0 hg
      unfold pass at h
      by_cases herr : 0 < P (n + 1) ∧ (k₁ (n + 1) < P (n + 1) ∨ bins < k₁ (n + 1) + P (n + 1) + 1)
      · rw [if_pos herr] at h
        cases h
      rw [if_neg herr] at h
      cases h
      dsimp only
      rw [Nat.add_sub_cancel]
      rcases Nat.lt_trichotomy c n with hc | hc | hc
      · -- not changed any more
        rw [if_neg (by omega), if_neg (by omega)]
        have : (if 0 < P (n + 1) ∧ k₁ (n + 1) - P (n + 1) ≤ k ∧ k < k₁ (n + 1) + P (n + 1) + 1 then
            if c = n then Real.cos (angle (P (n + 1)) slope ((k : ℤ) - k₁ (n + 1)))
            else if c = n + 1 then Real.sin (angle (P (n + 1)) slope ((k : ℤ) - k₁ (n + 1)))
            else g0 c k else g0 c k) = g0 c k := by
          rw [if_neg (by omega : ¬ c = n), if_neg (by omega : ¬ c = n + 1), ite_self]
        rw [this, ih' c k, if_pos (by omega), if_pos (by omega), if_pos (by omega), if_pos (by omega)]
      · -- faded out
        subst hc
        rw [if_pos (by omega : c ≤ c + 1), if_pos (le_refl (c + 1))]
        have hold : g0 c k = fadeIn k₁ P slope c k := by
          rw [ih' c k, if_pos (le_refl _), if_neg (by omega), mul_one]
        unfold fadeOut
        by_cases h1 : k₁ (c + 1) + P (c + 1) ≤ k
        · rw [if_pos ⟨rfl, h1⟩, if_pos h1, mul_zero]
        · rw [if_neg (by tauto), if_neg (by omega : ¬ (c = c + 1 ∧ k < k₁ (c + 1) - P (c + 1))), if_neg h1]
          by_cases h2 : k₁ (c + 1) - P (c + 1) ≤ k ∧ 0 < P (c + 1)
          · rw [if_pos ⟨h2.2, h2.1, by omega⟩, if_pos rfl, if_pos h2,
              fadeIn_one bands k₁ P slope c k hs hn h2.1, one_mul]
          · rw [if_neg (by tauto), if_neg h2, hold, mul_one]
      · rcases Nat.lt_or_ge (n + 1) c with hc2 | hc2
        · -- not yet changed
          rw [if_neg (by omega), if_neg (by omega)]
          have : (if 0 < P (n + 1) ∧ k₁ (n + 1) - P (n + 1) ≤ k ∧ k < k₁ (n + 1) + P (n + 1) + 1 then
              if c = n then Real.cos (angle (P (n + 1)) slope ((k : ℤ) - k₁ (n + 1)))
              else if c = n + 1 then Real.sin (angle (P (n + 1)) slope ((k : ℤ) - k₁ (n + 1)))
              else g0 c k else g0 c k) = g0 c k := by
            rw [if_neg (by omega : ¬ c = n), if_neg (by omega : ¬ c = n + 1), ite_self]
          rw [this, ih' c k, if_neg (by omega), if_neg (by omega), if_neg (by omega), if_neg (by omega)]
        · -- faded in
          have hc3 : c = n + 1 := by omega
          subst hc3
          rw [if_pos (le_refl _), if_neg (by omega : ¬ n + 1 + 1 ≤ n + 1), mul_one]
          have hold : g0 (n + 1) k = 1 := by
            rw [ih' (n + 1) k, if_neg (by omega), if_neg (by omega), mul_one]
          rw [if_neg (by omega : ¬ (n + 1 = n ∧ k₁ (n + 1) + P (n + 1) ≤ k))]
          unfold fadeIn
          rw [if_neg (by omega : ¬ n + 1 = 0)]
          by_cases h1 : k < k₁ (n + 1) - P (n + 1)
          · rw [if_pos ⟨rfl, h1⟩, if_pos h1]
          · rw [if_neg (by tauto), if_neg h1]
            by_cases h2 : k ≤ k₁ (n + 1) + P (n + 1) ∧ 0 < P (n + 1)
            · rw [if_pos ⟨h2.2, by omega, by omega⟩, if_neg (by omega : ¬ n + 1 = n), if_pos rfl, if_pos h2]
            · rw [if_neg (by omega), if_neg h2, hold]

/-- The squares of the gains sum to one in each bin. -/
theorem C92_power_partial (bins bands : ℕ) (hb : 0 < bands) (k₁ P : ℕ → ℕ) (slope : ℕ)
    (hs : Separated bands k₁ P) (g : ℕ → ℕ → ℝ) (h : gains bins k₁ P slope (bands - 1) = .ok g) (k : ℕ) :
    ∑ b ∈ Finset.range bands, g b k ^ 2 = 1 := by
  have hg := gains_spec bins bands k₁ P slope (bands - 1) hs (by omega) g h
  have key : ∀ m, m < bands → ∑ b ∈ Finset.range m, g b k ^ 2 = 1 - fadeIn k₁ P slope m k ^ 2 := by
    intro m
    induction m with
    | zero =>
      intro _
      unfold fadeIn
      simp
    | succ m ih =>
      intro hm
      rw [Finset.sum_range_succ, ih (by omega), hg m k, if_pos (by omega), if_pos (by omega)]
      have h1 := fade_sq k₁ P slope (m + 1) k (by omega)
      rw [mul_pow, show fadeOut k₁ P slope (m + 1) k ^ 2 = 1 - fadeIn k₁ P slope (m + 1) k ^ 2 by linarith]
      by_cases h2 : k < k₁ (m + 1) - P (m + 1)
      · rw [fadeIn_zero k₁ P slope (m + 1) k (by omega) h2]
        ring
      · rw [fadeIn_one bands k₁ P slope m k hs hm (by omega)]
        ring
  obtain ⟨m, rfl⟩ : ∃ m, bands = m + 1 := ⟨bands - 1, by omega⟩
  rw [Finset.sum_range_succ, key m (by omega), hg m k, if_pos (by omega), if_neg (by omega), mul_one]
  ring

/-! ### Filters -/

/-- The linear phase is a delay by half the length. -/
theorem spectrum_eq (N fs : ℕ) (hN : 0 < N) (he : Even N) (hfs : 0 < fs) (g : ℕ → ℝ) (k : ℕ) :
    spectrum N fs g k = ((g k ^ 2 : ℝ) : ℂ) * e N (-(k * (N / 2 : ℕ))) := by
  unfold spectrum e
  congr 2
  obtain ⟨m, hm⟩ := he
  have hm' : N / 2 = m := by omega
  rw [hm', hm]
  have h1 : (m : ℂ) ≠ 0 := by
    have : 0 < m := by omega
    exact_mod_cast this.ne'
  have h2 : (fs : ℂ) ≠ 0 := by exact_mod_cast hfs.ne'
  push_cast
  field_simp
  ring

theorem valid_length (N : ℕ) (h : N ∈ (List.range 13).map fun i => 2 ^ (i + 5)) : 32 ≤ N ∧ Even N := by
  rw [List.mem_map] at h
  obtain ⟨i, -, rfl⟩ := h
  refine ⟨?_, by rw [Nat.even_pow]; exact ⟨even_two, by omega⟩⟩
  calc 32 = 2 ^ 5 := by norm_num
    _ ≤ 2 ^ (i + 5) := Nat.pow_le_pow_right (by norm_num) (by omega)

theorem filters_ok (N fs bands : ℕ) (k₁ P : ℕ → ℕ) (slope : ℕ) (f : ℕ → ℕ → ℝ)
    (h : filters N fs bands k₁ P slope = .ok f) :
    (32 ≤ N ∧ Even N) ∧ ∃ g, gains (N / 2 + 1) k₁ P slope (bands - 1) = .ok g ∧
      f = fun b j => response N fs (g b) j * hann N j := by
  unfold filters at h
  by_cases hN : N ∉ (List.range 13).map fun i => 2 ^ (i + 5)
  · rw [if_pos hN] at h
    cases h
  rw [if_neg hN] at h
  refine ⟨valid_length N (not_not.1 hN), ?_⟩
  cases hg : gains (N / 2 + 1) k₁ P slope (bands - 1) with
  | error e => rw [hg] at h; cases h
  | ok g =>
    rw [hg] at h
    cases h
    exact ⟨g, rfl, rfl⟩

/-- The filters sum to an impulse in the middle, whose height is the value of the window there. -/
theorem C92_sum_partial (N fs bands : ℕ) (hfs : 0 < fs) (hb : 0 < bands) (k₁ P : ℕ → ℕ) (slope : ℕ)
    (hs : Separated bands k₁ P) (f : ℕ → ℕ → ℝ) (h : filters N fs bands k₁ P slope = .ok f) (j : ℕ) (hj : j < N) :
    ∑ b ∈ Finset.range bands, f b j = if j = N / 2 then (1 + Real.cos (Real.pi / (N - 1))) / 2 else 0 := by
  obtain ⟨⟨hN, he⟩, g, hg, rfl⟩ := filters_ok N fs bands k₁ P slope f h
  dsimp only
  rw [← Finset.sum_mul]
  have hlen : irfftLen (N / 2 + 1) = N := BlockFIR.irfftLen_even N he
  have hsum : ∑ b ∈ Finset.range bands, response N fs (g b) j = if j = N / 2 then 1 else 0 := by
    unfold response
    rw [hlen, ← irfft_sum]
    have h1 : ∀ k, ∑ b ∈ Finset.range bands, spectrum N fs (g b) k =
        rfft N (fun n => ((List.range N).map fun n => if n = N / 2 then (1 : ℝ) else 0).getD n 0) k := by
      intro k
      rw [GroupDelay.rfft_impulse N (N / 2) (by omega) k]
      simp only [spectrum_eq N fs (by omega) he hfs]
      rw [← Finset.sum_mul, ← Complex.ofReal_sum, C92_power_partial _ bands hb k₁ P slope hs g hg k,
        Complex.ofReal_one, one_mul]
    rw [BlockFIR.irfft_congr N _ _ h1, Props.C74.irfft_rfft N he _ j hj, List.getD_eq_getElem _ _ (by simpa using hj)]
    simp
  rw [hsum]
  by_cases h2 : j = N / 2
  · rw [if_pos h2, if_pos h2, one_mul, h2]
    unfold hann
    obtain ⟨m, hm⟩ := he
    have hm' : N / 2 = m := by omega
    have hN1 : (N : ℝ) - 1 ≠ 0 := by
      have : (32 : ℝ) ≤ N := by exact_mod_cast hN
      linarith
    have h3 : 2 * Real.pi * (N / 2 : ℕ) / ((N : ℝ) - 1) = Real.pi / (N - 1) + Real.pi := by
      rw [hm']
      have : (N : ℝ) = m + m := by exact_mod_cast hm
      field_simp
      rw [this]
      ring
    rw [h3, Real.cos_add_pi]
    ring
  · rw [if_neg h2, if_neg h2, zero_mul]

/-- Output of a FIR filter of `N` coefficients at sample `n`. -/
def output (N : ℕ) (h x : ℕ → ℝ) (n : ℕ) : ℝ := ∑ j ∈ Finset.range N, if j ≤ n then h j * x (n - j) else 0

/-- The bands of any signal sum to the signal, delayed by half the length of the filters and multiplied with the
same number for all signals. -/
theorem C92_reconstruction_partial (N fs bands : ℕ) (hfs : 0 < fs) (hb : 0 < bands) (k₁ P : ℕ → ℕ) (slope : ℕ)
    (hs : Separated bands k₁ P) (f : ℕ → ℕ → ℝ) (h : filters N fs bands k₁ P slope = .ok f) (x : ℕ → ℝ) (n : ℕ) :
    ∑ b ∈ Finset.range bands, output N (f b) x n =
      (1 + Real.cos (Real.pi / (N - 1))) / 2 * (if N / 2 ≤ n then x (n - N / 2) else 0) := by
  have hN := (filters_ok N fs bands k₁ P slope f h).1.1
  unfold output
  rw [Finset.sum_comm, Finset.sum_eq_single_of_mem (N / 2) (Finset.mem_range.2 (by omega))]
  · by_cases h1 : N / 2 ≤ n
    · simp only [if_pos h1]
      rw [← Finset.sum_mul, C92_sum_partial N fs bands hfs hb k₁ P slope hs f h (N / 2) (by omega), if_pos rfl]
    · simp only [if_neg h1]
      simp
  · intro j hj hne
    by_cases h1 : j ≤ n
    · simp only [if_pos h1]
      rw [← Finset.sum_mul, C92_sum_partial N fs bands hfs hb k₁ P slope hs f h j (Finset.mem_range.1 hj),
        if_neg hne, zero_mul]
    · simp only [if_neg h1]
      simp

/-- The reconstruction is not perfect: the number is less than one, because the symmetric window of even length
has no sample at its maximum. -/
theorem C92_gain_wrong (N : ℕ) (hN : 32 ≤ N) :
    0 < (1 + Real.cos (Real.pi / (N - 1))) / 2 ∧ (1 + Real.cos (Real.pi / (N - 1))) / 2 < 1 := by
  have h1 : (32 : ℝ) ≤ N := by exact_mod_cast hN
  have hpos : 0 < Real.pi / ((N : ℝ) - 1) := div_pos Real.pi_pos (by linarith)
  have hle : Real.pi / ((N : ℝ) - 1) < Real.pi / 2 :=
    div_lt_div_of_pos_left Real.pi_pos (by norm_num) (by linarith)
  have h2 : 0 < Real.cos (Real.pi / ((N : ℝ) - 1)) := Real.cos_pos_of_mem_Ioo ⟨by linarith [Real.pi_pos], hle⟩
  have h3 : Real.cos (Real.pi / ((N : ℝ) - 1)) < 1 := by
    have := Real.cos_lt_cos_of_nonneg_of_le_pi (x := 0) (le_refl _) (by linarith [Real.pi_pos]) hpos
    rwa [Real.cos_zero] at this
  constructor <;> linarith

/-- Both bands have half the amplitude (-6 dB) at their common cut-off frequency if they overlap. -/
theorem C92_cutoff (bins bands : ℕ) (k₁ P : ℕ → ℕ) (slope : ℕ) (hs : Separated bands k₁ P) (g : ℕ → ℕ → ℝ)
    (h : gains bins k₁ P slope (bands - 1) = .ok g) (b : ℕ) (hb : b + 1 < bands) (hP : 0 < P (b + 1))
    (hlast : b + 2 < bands → k₁ (b + 1) < k₁ (b + 1 + 1) - P (b + 1 + 1)) :
    g b (k₁ (b + 1)) ^ 2 = 1 / 2 ∧ g (b + 1) (k₁ (b + 1)) ^ 2 = 1 / 2 := by
  have hg := gains_spec bins bands k₁ P slope (bands - 1) hs (by omega) g h
  have hang : angle (P (b + 1)) slope 0 = Real.pi / 4 := by
    have hr : ramp (P (b + 1)) slope 0 = 0 := by
      unfold ramp
      rw [Int.cast_zero, zero_div]
      induction slope with
      | zero => rfl
      | succ n ih => rw [Function.iterate_succ_apply', Function.iterate_fixed (by simp) n]; simp
    unfold angle
    rw [hr]
    ring
  have hin : fadeIn k₁ P slope (b + 1) (k₁ (b + 1)) ^ 2 = 1 / 2 := by
    unfold fadeIn
    rw [if_neg (by omega), if_neg (by omega), if_pos ⟨by omega, hP⟩, sub_self, hang, Real.sin_pi_div_four,
      div_pow, Real.sq_sqrt (by norm_num)]
    norm_num
  have hsq := fade_sq k₁ P slope (b + 1) (k₁ (b + 1)) (by omega)
  constructor
  · rw [hg, if_pos (by omega), if_pos (by omega), fadeIn_one bands k₁ P slope b _ hs hb (by omega), one_mul]
    linarith
  · rw [hg, if_pos (by omega)]
    by_cases h2 : b + 2 < bands
    · rw [if_pos (by omega)]
      have : fadeOut k₁ P slope (b + 1 + 1) (k₁ (b + 1)) = 1 := by
        have := hlast h2
        unfold fadeOut
        rw [if_neg (by omega), if_neg (by omega)]
      rw [this, mul_one, hin]
    · rw [if_neg (by omega), mul_one, hin]

/-! ### Linear phase -/

theorem herm_spectrum (N fs : ℕ) (hN : 0 < N) (he : Even N) (hfs : 0 < fs) (g : ℕ → ℝ) (k : ℕ) (hk : k < N) :
    herm N (spectrum N fs g) k = ((g (min k (N - k)) ^ 2 : ℝ) : ℂ) * e N (-(k * (N / 2 : ℕ))) := by
  have hN0 : N ≠ 0 := by omega
  have hev : 2 * (N / 2) = N := Nat.two_mul_div_two_of_even he
  unfold herm
  by_cases h0 : k = 0
  · subst h0
    rw [if_pos rfl, spectrum_eq N fs hN he hfs, min_eq_left (by omega)]
    rw [show -(((0 : ℕ) : ℤ) * (N / 2 : ℕ)) = 0 by simp, e_zero, mul_one, Complex.ofReal_re]
  rw [if_neg h0]
  by_cases h1 : k < N / 2
  · rw [if_pos h1, spectrum_eq N fs hN he hfs, min_eq_left (by omega)]
  rw [if_neg h1]
  by_cases h2 : k = N / 2
  · rw [if_pos h2, spectrum_eq N fs hN he hfs, min_eq_left (by omega)]
    refine Complex.conj_eq_iff_re.1 ?_
    rw [map_mul, e_conj, Complex.conj_ofReal]
    congr 1
    rw [← e_period N hN0 (-(k * (N / 2 : ℕ))) (N / 2 : ℕ)]
    congr 1
    rw [h2]
    have : (N : ℤ) = 2 * (N / 2 : ℕ) := by exact_mod_cast hev.symm
    generalize ((N / 2 : ℕ) : ℤ) = m at this ⊢
    rw [this]
    ring
  · rw [if_neg h2, spectrum_eq N fs hN he hfs, min_eq_right (by omega), map_mul, e_conj, Complex.conj_ofReal]
    congr 1
    rw [← e_period N hN0 (-(k * (N / 2 : ℕ))) (N / 2 : ℕ)]
    congr 1
    rw [Nat.cast_sub hk.le]
    ring

theorem response_sum (N fs : ℕ) (hN : 0 < N) (he : Even N) (hfs : 0 < fs) (g : ℕ → ℝ) (j : ℕ) :
    response N fs g j = ((∑ k ∈ Finset.range N, ((g (min k (N - k)) ^ 2 : ℝ) : ℂ) *
      e N (k * (j - (N / 2 : ℕ)))) / N).re := by
  unfold response
  rw [show irfftLen (N / 2 + 1) = N from BlockFIR.irfftLen_even N he]
  unfold irfft
  congr 2
  refine Finset.sum_congr rfl fun k hk => ?_
  rw [herm_spectrum N fs hN he hfs g k (Finset.mem_range.1 hk), mul_assoc, ← e_add]
  congr 2
  ring

/-- Before the window the filters are symmetric around their middle: linear phase. -/
theorem C92_symmetric (N fs : ℕ) (hN : 0 < N) (he : Even N) (hfs : 0 < fs) (g : ℕ → ℝ) (i : ℕ) (hi : i ≤ N / 2) :
    response N fs g (N / 2 + i) = response N fs g (N / 2 - i) := by
  rw [response_sum N fs hN he hfs, response_sum N fs hN he hfs, ← Complex.conj_re]
  congr 1
  rw [map_div₀, map_sum, Complex.conj_natCast]
  congr 1
  refine Finset.sum_congr rfl fun k _ => ?_
  rw [map_mul, Complex.conj_ofReal, e_conj]
  congr 2
  rw [Nat.cast_sub hi]
  push_cast
  ring

theorem hann_lt (N i : ℕ) (he : Even N) (hi1 : 1 ≤ i) (hi : i < N / 2) :
    hann N (N / 2 + i) < hann N (N / 2 - i) := by
  obtain ⟨m, hm⟩ := he
  have hm' : N / 2 = m := by omega
  rw [hm'] at hi ⊢
  have hN : (N : ℝ) = m + m := by exact_mod_cast hm
  have him : (i : ℝ) + 1 ≤ m := by exact_mod_cast hi
  have hi1' : (1 : ℝ) ≤ i := by exact_mod_cast hi1
  have hd : (0 : ℝ) < N - 1 := by rw [hN]; linarith
  have hpi := Real.pi_pos
  unfold hann
  have h1 : Real.cos (2 * Real.pi * ((m + i : ℕ) : ℝ) / (N - 1)) =
      -Real.cos (Real.pi * (2 * i + 1) / (N - 1)) := by
    rw [← Real.cos_add_pi]
    congr 1
    push_cast
    field_simp
    rw [hN]
    ring
  have h2 : Real.cos (2 * Real.pi * ((m - i : ℕ) : ℝ) / (N - 1)) =
      -Real.cos (Real.pi * (2 * i - 1) / (N - 1)) := by
    rw [← Real.cos_pi_sub]
    congr 1
    rw [Nat.cast_sub hi.le]
    field_simp
    rw [hN]
    ring
  rw [h1, h2]
  have h3 : Real.cos (Real.pi * (2 * i + 1) / (N - 1)) < Real.cos (Real.pi * (2 * i - 1) / (N - 1)) := by
    refine Real.cos_lt_cos_of_nonneg_of_le_pi ?_ ?_ ?_
    · refine div_nonneg (mul_nonneg hpi.le (by linarith)) hd.le
    · rw [div_le_iff₀ hd]
      refine mul_le_mul_of_nonneg_left ?_ hpi.le
      rw [hN]
      linarith
    · refine div_lt_div_of_pos_right ?_ hd
      refine mul_lt_mul_of_pos_left ?_ hpi
      linarith
  linarith

/-- The filters themselves do not have linear phase: the symmetric window is centred half a sample before the
middle of the filters, so coefficients at the same distance from the middle are equal only if they are zero. -/
theorem C92_phase_wrong (N fs bands : ℕ) (hfs : 0 < fs) (k₁ P : ℕ → ℕ) (slope : ℕ) (f : ℕ → ℕ → ℝ)
    (h : filters N fs bands k₁ P slope = .ok f) (b i : ℕ) (hi1 : 1 ≤ i) (hi : i < N / 2) :
    f b (N / 2 + i) = f b (N / 2 - i) ↔ f b (N / 2 + i) = 0 ∧ f b (N / 2 - i) = 0 := by
  obtain ⟨⟨hN, he⟩, g, -, rfl⟩ := filters_ok N fs bands k₁ P slope f h
  dsimp only
  rw [C92_symmetric N fs (by omega) he hfs (g b) i hi.le]
  have hlt := hann_lt N i he hi1 hi
  constructor
  · intro heq
    have h0 : response N fs (g b) (N / 2 - i) = 0 := by
      have h1 : response N fs (g b) (N / 2 - i) * (hann N (N / 2 + i) - hann N (N / 2 - i)) = 0 := by
        rw [mul_sub, heq, sub_self]
      exact (mul_eq_zero.1 h1).resolve_right (by linarith)
    rw [h0]
    simp
  · rintro ⟨h1, h2⟩
    rw [h1, h2]

/-! ### Fades that overlap -/

theorem roundEven_of_lt (x : ℝ) (m : ℤ) (h1 : (m : ℝ) - 1 / 2 < x) (h2 : x < m + 1 / 2) : roundEven x = m := by
  unfold roundEven
  by_cases h : x < m
  · have hf : ⌊x⌋ = m - 1 := by
      rw [Int.floor_eq_iff]
      push_cast
      constructor <;> linarith
    rw [hf]
    push_cast
    rw [if_neg (by linarith), if_pos (by linarith)]
    ring
  · have hf : ⌊x⌋ = m := by
      rw [Int.floor_eq_iff]
      constructor <;> linarith
    rw [hf, if_pos (by linarith)]

theorem roundEven_half (m : ℤ) (h : m % 2 = 1) : roundEven ((m : ℝ) + 1 / 2) = m + 1 := by
  unfold roundEven
  have hf : ⌊(m : ℝ) + 1 / 2⌋ = m := by
    rw [Int.floor_eq_iff]
    constructor <;> linarith
  rw [hf, if_neg (by linarith), if_neg (by linarith), if_neg (by omega)]

/-- Half an octave and an octave. -/
theorem pow_half : (1.4 : ℝ) < 10 ^ (3 / 20 : ℝ) ∧ (10 : ℝ) ^ (3 / 20 : ℝ) < 1.42 := by
  constructor
  · refine lt_of_pow_lt_pow_left₀ 20 (by positivity) ?_
    rw [← Real.rpow_natCast ((10 : ℝ) ^ (3 / 20 : ℝ)) 20, ← Real.rpow_mul (by norm_num)]
    norm_num
  · refine lt_of_pow_lt_pow_left₀ 20 (by positivity) ?_
    rw [← Real.rpow_natCast ((10 : ℝ) ^ (3 / 20 : ℝ)) 20, ← Real.rpow_mul (by norm_num)]
    norm_num

theorem pow_one : (1.99 : ℝ) < 10 ^ (3 / 10 : ℝ) ∧ (10 : ℝ) ^ (3 / 10 : ℝ) < 2 := by
  constructor
  · refine lt_of_pow_lt_pow_left₀ 10 (by positivity) ?_
    rw [← Real.rpow_natCast ((10 : ℝ) ^ (3 / 10 : ℝ)) 10, ← Real.rpow_mul (by norm_num)]
    norm_num
  · refine lt_of_pow_lt_pow_left₀ 10 (by positivity) ?_
    rw [← Real.rpow_natCast ((10 : ℝ) ^ (3 / 10 : ℝ)) 10, ← Real.rpow_mul (by norm_num)]
    norm_num

theorem ratio_up : ((10 : ℝ) ^ (3 / 10 : ℝ)) ^ (1 / 2 / (1 : ℕ) : ℝ) = 10 ^ (3 / 20 : ℝ) := by
  rw [← Real.rpow_mul (by norm_num)]
  norm_num

theorem ratio_down : ((10 : ℝ) ^ (3 / 10 : ℝ)) ^ (-1 / 2 / (1 : ℕ) : ℝ) = (10 ^ (3 / 20 : ℝ))⁻¹ := by
  rw [← Real.rpow_mul (by norm_num), ← Real.rpow_neg (by norm_num)]
  norm_num

theorem ratio_sq : (10 : ℝ) ^ (3 / 10 : ℝ) = 10 ^ (3 / 20 : ℝ) * 10 ^ (3 / 20 : ℝ) := by
  rw [← Real.rpow_add (by norm_num)]
  norm_num

theorem pow_three : (2.8125 : ℝ) < 10 ^ (3 / 10 : ℝ) * 10 ^ (3 / 20 : ℝ) ∧
    (10 : ℝ) ^ (3 / 10 : ℝ) * 10 ^ (3 / 20 : ℝ) < 2.85 := by
  rw [← Real.rpow_add (by norm_num), show (3 / 10 + 3 / 20 : ℝ) = 9 / 20 by norm_num]
  constructor
  · refine lt_of_pow_lt_pow_left₀ 20 (by positivity) ?_
    rw [← Real.rpow_natCast ((10 : ℝ) ^ (9 / 20 : ℝ)) 20, ← Real.rpow_mul (by norm_num)]
    norm_num
  · refine lt_of_pow_lt_pow_left₀ 20 (by positivity) ?_
    rw [← Real.rpow_natCast ((10 : ℝ) ^ (9 / 20 : ℝ)) 20, ← Real.rpow_mul (by norm_num)]
    norm_num

/-- The bands at 1 and 2 kHz of filters with 64 coefficients at 8 kHz. -/
theorem bins_example :
    lowBin 64 8000 1 1000 = 6 ∧ overlapBins 64 8000 1 1 1000 = 2 ∧
      lowBin 64 8000 1 (1000 * 10 ^ (3 / 10 : ℝ)) = 11 ∧
      overlapBins 64 8000 1 1 (1000 * 10 ^ (3 / 10 : ℝ)) = 4 := by
  obtain ⟨h1, h2⟩ := pow_half
  obtain ⟨h3, h4⟩ := pow_one
  obtain ⟨h5, h6⟩ := pow_three
  have hinv1 : (1 / 1.42 : ℝ) < (10 ^ (3 / 20 : ℝ))⁻¹ := by
    rw [← one_div]
    exact one_div_lt_one_div_of_lt (by positivity) h2
  have hinv2 : ((10 : ℝ) ^ (3 / 20 : ℝ))⁻¹ < 1 / 1.4 := by
    rw [← one_div]
    exact one_div_lt_one_div_of_lt (by norm_num) h1
  have hr : (10 : ℝ) ^ (3 / 10 : ℝ) * (10 ^ (3 / 20 : ℝ))⁻¹ = 10 ^ (3 / 20 : ℝ) := by
    rw [ratio_sq]
    field_simp
  refine ⟨?_, ?_, ?_, ?_⟩
  · unfold lowBin
    rw [ratio_down]
    refine roundEven_of_lt _ _ ?_ ?_ <;> norm_num at * <;> linarith
  · have hh : highBin 64 8000 1 1000 = 11 := by
      unfold highBin
      rw [ratio_up]
      refine roundEven_of_lt _ _ ?_ ?_ <;> norm_num at * <;> linarith
    have hm : midBin 64 8000 1000 = 8 := by
      unfold midBin
      refine roundEven_of_lt _ _ ?_ ?_ <;> norm_num
    unfold overlapBins
    rw [hh, hm]
    have := roundEven_half 1 (by norm_num)
    norm_num at this ⊢
    exact this
  · unfold lowBin
    rw [ratio_down, mul_assoc 1000, hr]
    refine roundEven_of_lt _ _ ?_ ?_ <;> norm_num at * <;> linarith
  · have hh : highBin 64 8000 1 (1000 * 10 ^ (3 / 10 : ℝ)) = 23 := by
      unfold highBin
      rw [ratio_up, mul_assoc 1000]
      refine roundEven_of_lt _ _ ?_ ?_ <;> norm_num at * <;> linarith
    have hm : midBin 64 8000 (1000 * 10 ^ (3 / 10 : ℝ)) = 16 := by
      unfold midBin
      refine roundEven_of_lt _ _ ?_ ?_ <;> norm_num at * <;> linarith
    unfold overlapBins
    rw [hh, hm]
    have := roundEven_half 3 (by norm_num)
    norm_num at this ⊢
    exact this

/-- For these octave bands (64 coefficients, 8 kHz, full overlap, default slope) the fades overlap because of the
rounding to bins, and the bands do not sum to one: bin 7 is larger by `cos² (3 π / 8)`, 15 %. -/
theorem C92_overlap_wrong (k₁ P : ℕ → ℕ) (h1 : (k₁ 1 : ℤ) = lowBin 64 8000 1 1000)
    (h2 : (k₁ 2 : ℤ) = lowBin 64 8000 1 (1000 * 10 ^ (3 / 10 : ℝ)))
    (h3 : (P 1 : ℤ) = overlapBins 64 8000 1 1 1000)
    (h4 : (P 2 : ℤ) = overlapBins 64 8000 1 1 (1000 * 10 ^ (3 / 10 : ℝ))) :
    ∃ g, gains 33 k₁ P 0 2 = .ok g ∧
      ∑ b ∈ Finset.range 3, g b 7 ^ 2 = 1 + Real.cos (3 * Real.pi / 8) ^ 2 ∧
      (1 : ℝ) < 1 + Real.cos (3 * Real.pi / 8) ^ 2 := by
  obtain ⟨e1, e2, e3, e4⟩ := bins_example
  rw [e1] at h1
  rw [e2] at h3
  rw [e3] at h2
  rw [e4] at h4
  have h1' : k₁ 1 = 6 := by omega
  have h2' : k₁ 2 = 11 := by omega
  have h3' : P 1 = 2 := by omega
  have h4' : P 2 = 4 := by omega
  have ha : angle 2 0 1 = 3 * Real.pi / 8 := by
    unfold angle ramp
    norm_num
    ring
  have hb : angle 4 0 (-4) = 0 := by
    unfold angle ramp
    norm_num
  have hcos : 0 < Real.cos (3 * Real.pi / 8) :=
    Real.cos_pos_of_mem_Ioo ⟨by linarith [Real.pi_pos], by linarith [Real.pi_pos]⟩
  refine ⟨_, by
    unfold gains gains gains
    dsimp only
    unfold pass
    norm_num [h1', h2', h3', h4']
    rfl, ?_, by nlinarith⟩
  rw [Finset.sum_range_succ, Finset.sum_range_succ, Finset.sum_range_succ, Finset.sum_range_zero]
  norm_num [ha, hb]
  ring

/-! ### Examples -/

/-- Three bands with overlaps of one and two bins. -/
example : Separated 3 (fun b => [0, 5, 10].getD b 0) (fun b => [0, 1, 2].getD b 0) := by
  intro b h1 h2
  have : b = 1 := by omega
  subst this
  decide

/-- Without overlap ordered cut-off frequencies are enough. -/
example (bands : ℕ) (k₁ : ℕ → ℕ) (h : ∀ b, k₁ b ≤ k₁ (b + 1)) : Separated bands k₁ fun _ => 0 :=
  fun b _ _ => h b

/-- Filters exist, with coefficients that are not zero beside the middle. -/
example : ∃ f, filters 32 48000 2 (fun _ => 1) (fun _ => 0) 0 = .ok f ∧ f 0 (16 + 1) ≠ f 0 (16 - 1) := by
  have hg : ∃ g, gains (32 / 2 + 1) (fun _ => 1) (fun _ => 0) 0 1 = .ok g ∧
      ∀ k, g 0 k = if 1 ≤ k then 0 else 1 := by
    refine ⟨_, rfl, fun k => ?_⟩
    simp
  obtain ⟨g, hg, hg0⟩ := hg
  have hf : filters 32 48000 2 (fun _ => 1) (fun _ => 0) 0 =
      .ok fun b j => response 32 48000 (g b) j * hann 32 j := by
    unfold filters
    rw [if_neg (by decide), hg]
  refine ⟨_, hf, fun h => ?_⟩
  have h1 := ((C92_phase_wrong 32 48000 2 (by norm_num) _ _ 0 _ hf 0 1 (by norm_num) (by norm_num)).1 h).2
  have h2 : response 32 48000 (g 0) (32 / 2 - 1) = 1 / 32 := by
    rw [response_sum 32 48000 (by norm_num) (by decide) (by norm_num),
      Finset.sum_eq_single_of_mem 0 (by simp)]
    · rw [hg0]
      simp [e_zero]
    · intro k hk hne
      rw [Finset.mem_range] at hk
      rw [hg0, if_pos (by omega)]
      simp
  rw [h2] at h1
  have h3 := hann_lt 32 1 (by decide) (by norm_num) (by norm_num)
  have h4 : 0 ≤ hann 32 (32 / 2 + 1) := by
    unfold hann
    have := Real.cos_le_one (2 * Real.pi * ((32 / 2 + 1 : ℕ) : ℝ) / ((32 : ℕ) - 1))
    linarith
  rcases mul_eq_zero.1 h1 with h5 | h5
  · norm_num at h5
  · linarith

end Verif.OctaveBands

import Verif.Lemmas.Gammatone
import Verif.Props.C105
import Mathlib.Analysis.SpecialFunctions.Log.Deriv
import Mathlib.Analysis.Complex.ExponentialBounds

/-!
# C112: gammatone filter banks
-/

namespace Verif.Props.C112

open Gammatone SignalData

/-- The unit impulse of `n` samples. -/
def impulse (n : ℕ) : List ℝ := (List.range n).map fun (k : ℕ) => if k = 0 then 1 else 0

/-- Sample `n` of the impulse response of a band. -/
noncomputable def ir (b : Band) (n : ℕ) : ℂ := (analyse b.coeff b.norm (impulse (n + 1))).getD n 0

/-- Decay per sample of the envelope of the band at `f` (Hohmann 2002: four sections whose equivalent
rectangular bandwidth is the one of the ear, `24.7 + f / 9.265` Hz). -/
noncomputable def decay (fs : ℕ) (f : ℝ) : ℝ :=
  Real.exp (-(6.4 * (24.7 + f / 9.265) / fs))

theorem ir_eq (b : Band) (n : ℕ) : ir b n = tone b.coeff b.norm n := by
  unfold ir impulse
  rw [analyse_dirac _ _ _ _ _ (by omega), if_neg (by omega), Nat.sub_zero]

theorem lam_eq (fs : ℕ) (f : ℝ) : lam fs f = decay fs f := by
  unfold lam decay erbAud aGamma
  congr 1
  have : (2 : ℝ) ^ (-6 : ℤ) = 1 / 64 := by norm_num
  rw [this]
  field_simp
  ring

/-! ### Which inputs are refused -/

/-- No sampling rate, a range above half the sampling rate, a range that is no pair, a resolution
that is not positive, a range without any frequency of the grid, or a sampling rate so low that the
delay of 4 ms and three samples do not fit into half a second are refused. -/
theorem C112_refused (range : List ℝ) (resolution : ℝ) (fs : Option ℕ)
    (h : fs = none ∨ range.length ≠ 2 ∨ resolution ≤ 0 ∨
      (∃ r, fs = some r ∧ ((∃ f ∈ range, ((r / 2 : ℕ) : ℝ) < f) ∨
        FrequencyGrids.erbFrequencies range resolution 1000 = .ok [] ∨
        r / 2 ≤ delaySamples r + 3))) :
    ∃ e, create range resolution fs = .error e := by
  unfold create
  cases fs with
  | none => exact ⟨_, rfl⟩
  | some r =>
    dsimp only
    by_cases h1 : range = []
    · rw [if_pos h1]; exact ⟨_, rfl⟩
    rw [if_neg h1]
    by_cases h2 : ∃ f ∈ range, ((r / 2 : ℕ) : ℝ) < f
    · rw [if_pos h2]; exact ⟨_, rfl⟩
    rw [if_neg h2]
    rcases hg : FrequencyGrids.erbFrequencies range resolution 1000 with e | g
    · exact ⟨_, rfl⟩
    · dsimp only
      by_cases h3 : g = []
      · rw [h3]
        exact ⟨.attributeError, rfl⟩
      · refine ⟨_, ofFrequencies_error r g h3 ?_⟩
        rcases h with h | h | h | ⟨r', hr', h⟩
        · simp at h
        · rw [FrequencyGrids.C105_erb_refused _ _ _ (Or.inl h)] at hg
          simp at hg
        · rw [FrequencyGrids.C105_erb_refused _ _ _ (Or.inr h)] at hg
          simp at hg
        · cases hr'
          rcases h with h | h | h
          · exact absurd h h2
          · rw [hg] at h
            simp only [Except.ok.injEq] at h
            exact absurd h h3
          · omega

example : ∃ e, create [500, 3000] 1 (some 5000) = .error e :=
  C112_refused _ _ _ (Or.inr (Or.inr (Or.inr ⟨_, rfl, Or.inl ⟨3000, by simp, by norm_num⟩⟩)))

/-- What a filter bank consists of. -/
theorem create_ok {range : List ℝ} {resolution : ℝ} {fs : ℕ} {fb : Gammatone.Bank}
    (h : create range resolution (some fs) = .ok fb) :
    ∃ g, FrequencyGrids.erbFrequencies range resolution 1000 = .ok g ∧ g ≠ [] ∧
      (∀ f ∈ range, f ≤ ((fs / 2 : ℕ) : ℝ)) ∧ delaySamples fs + 3 < fs / 2 ∧
      fb = ⟨fs, g.map (bandOf fs), computeGains fs (g.map (bandOf fs))⟩ := by
  unfold create at h
  dsimp only at h
  by_cases h1 : range = []
  · rw [if_pos h1] at h; cases h
  rw [if_neg h1] at h
  by_cases h2 : ∃ f ∈ range, ((fs / 2 : ℕ) : ℝ) < f
  · rw [if_pos h2] at h; cases h
  rw [if_neg h2] at h
  rcases hg : FrequencyGrids.erbFrequencies range resolution 1000 with e | g
  · rw [hg] at h; cases h
  · rw [hg] at h
    dsimp only at h
    have h3 : g ≠ [] := by
      rintro rfl
      exact absurd h (by unfold ofFrequencies; simp [throw, throwThe, MonadExceptOf.throw, bind, Except.bind])
    have h4 : delaySamples fs + 3 < fs / 2 := by
      by_contra h4
      rw [ofFrequencies_error fs g h3 h4] at h
      cases h
    rw [ofFrequencies_ok fs g h3 h4] at h
    cases h
    push Not at h2
    exact ⟨g, rfl, h3, h2, h4, rfl⟩

theorem freq_range {range : List ℝ} {resolution : ℝ} {g : List ℝ}
    (h : FrequencyGrids.erbFrequencies range resolution 1000 = .ok g) :
    0 < resolution ∧ ∃ a b, range = [a, b] ∧ (∀ f, f ∈ g ↔ (∃ k : ℤ, FrequencyGrids.toErb f =
      FrequencyGrids.toErb 1000 + k * resolution) ∧ min a b ≤ f ∧ f ≤ max a b) := by
  by_cases hr : range.length ≠ 2 ∨ resolution ≤ 0
  · rw [FrequencyGrids.C105_erb_refused _ _ _ hr] at h
    cases h
  · push Not at hr
    obtain ⟨a, b, rfl⟩ := List.length_eq_two.mp hr.1
    obtain ⟨g', h1, h2, _⟩ := FrequencyGrids.C105_erb a b resolution 1000 hr.2
    rw [h1] at h
    cases h
    exact ⟨hr.2, a, b, rfl, h2⟩

/-- The facts about one band. -/
theorem band_facts {range : List ℝ} {resolution : ℝ} {fs : ℕ} {fb : Gammatone.Bank}
    (h : create range resolution (some fs) = .ok fb) (b : Band) (hb : b ∈ fb.bands) :
    b = bandOf fs b.freq ∧ 0 < fs ∧ b.freq ≤ ((fs / 2 : ℕ) : ℝ) ∧
      ((∀ f ∈ range, 0 ≤ f) → 0 ≤ b.freq) := by
  obtain ⟨g, hg, _, hr, hd, rfl⟩ := create_ok h
  obtain ⟨f, hf, rfl⟩ := List.mem_map.mp hb
  obtain ⟨_, x, y, rfl, hmem⟩ := freq_range hg
  have := (hmem f).mp hf
  refine ⟨rfl, by omega, ?_, fun h0 => ?_⟩
  · exact this.2.2.trans (max_le (hr x (by simp)) (hr y (by simp)))
  · exact (le_min (h0 x (by simp)) (h0 y (by simp))).trans this.2.1

/-! ### The filters -/

/-- The bands are those of the ERB grid in the range, and each of them filters with the gammatone
impulse response of order four: a carrier at the centre frequency whose envelope is `binom(n+3, 3)`
times a decaying exponential. -/
theorem C112_bands (range : List ℝ) (resolution : ℝ) (fs : ℕ) (fb : Gammatone.Bank)
    (h : create range resolution (some fs) = .ok fb) (h0 : ∀ f ∈ range, 0 ≤ f) :
    (∀ f, f ∈ fb.bands.map Band.freq ↔ (∃ k : ℤ, FrequencyGrids.toErb f =
      FrequencyGrids.toErb 1000 + k * resolution) ∧ (∃ a ∈ range, a ≤ f) ∧ ∃ a ∈ range, f ≤ a) ∧
    ∀ b ∈ fb.bands, 0 < decay fs b.freq ∧ decay fs b.freq < 1 ∧
      ∀ (x : List ℝ) (n : ℕ), n < x.length →
        (analyse b.coeff b.norm x).getD n 0 = ∑ m ∈ Finset.range (n + 1),
          2 * (1 - decay fs b.freq : ℝ) ^ 4 * ((n - m + 3).choose 3 : ℕ) *
          (decay fs b.freq : ℂ) ^ (n - m) *
          Complex.exp (2 * Real.pi * b.freq * (n - m : ℕ) / fs * Complex.I) * (x.getD m 0 : ℝ) := by
  obtain ⟨g, hg, _, hr, hd, hfb⟩ := create_ok h
  refine ⟨fun f => ?_, fun b hb => ?_⟩
  · obtain ⟨_, x, y, rfl, hmem⟩ := freq_range hg
    rw [hfb]
    dsimp only
    rw [List.map_map, show (Band.freq ∘ bandOf fs) = id from rfl, List.map_id, hmem f, min_le_iff,
      le_max_iff]
    simp
  · obtain ⟨e, hfs, _, hf⟩ := band_facts h b hb
    have hl := lam_lt_one fs b.freq hfs (hf h0)
    rw [lam_eq] at hl
    refine ⟨Real.exp_pos _, hl, fun x n hn => ?_⟩
    have ec : b.coeff = coefficient fs b.freq := by rw [e]; rfl
    have en : b.norm = 2 * (1 - decay fs b.freq) ^ 4 := by
      rw [e]
      show normalization (coefficient fs b.freq) = _
      unfold normalization
      rw [norm_coefficient, lam_eq]
      rfl
    rw [analyse_getD _ _ _ _ hn]
    refine Finset.sum_congr rfl fun m _ => ?_
    congr 1
    unfold tone
    rw [en, ec]
    unfold coefficient beta
    rw [mul_pow, lam_eq, ← Complex.exp_nat_mul]
    push_cast
    have : ((n - m : ℕ) : ℂ) * (Complex.I * (2 * Real.pi * b.freq / fs)) =
        2 * Real.pi * b.freq * (n - m : ℕ) / fs * Complex.I := by ring
    rw [this]
    ring

theorem sq_distance (l t : ℝ) :
    ‖1 - (l : ℂ) * Complex.exp (Complex.I * t)‖ ^ 2 = (1 - l) ^ 2 + 2 * l * (1 - Real.cos t) := by
  rw [mul_comm Complex.I, Complex.exp_mul_I, ← Complex.ofReal_cos, ← Complex.ofReal_sin,
    ← Complex.normSq_eq_norm_sq, Complex.normSq_apply]
  have e1 : (1 - (l : ℂ) * ((Real.cos t : ℂ) + (Real.sin t : ℂ) * Complex.I)).re = 1 - l * Real.cos t := by
    simp [-Complex.ofReal_cos, -Complex.ofReal_sin]
  have e2 : (1 - (l : ℂ) * ((Real.cos t : ℂ) + (Real.sin t : ℂ) * Complex.I)).im = -(l * Real.sin t) := by
    simp [-Complex.ofReal_cos, -Complex.ofReal_sin]
  rw [e1, e2]
  linear_combination l ^ 2 * Real.sin_sq_add_cos_sq t

/-- Frequency response: every band is stable, its response is 2 at the centre frequency and nowhere
larger (two, because half of a real signal lies at negative frequencies), with equality at the centre
frequency only. -/
theorem C112_response (range : List ℝ) (resolution : ℝ) (fs : ℕ) (fb : Gammatone.Bank)
    (h : create range resolution (some fs) = .ok fb) (h0 : ∀ f ∈ range, 0 ≤ f) (b : Band)
    (hb : b ∈ fb.bands) (f : ℝ) :
    ∃ H : ℂ, HasSum (fun n => ir b n * Complex.exp (-(2 * Real.pi * f / fs * n * Complex.I))) H ∧
      ‖H‖ ≤ 2 ∧ (‖H‖ = 2 ↔ Real.cos (2 * Real.pi * (f - b.freq) / fs) = 1) ∧
      (f = b.freq → H = 2) := by
  obtain ⟨e, hfs, _, hf⟩ := band_facts h b hb
  have hl := lam_lt_one fs b.freq hfs (hf h0)
  have hl0 := lam_pos fs b.freq
  have ec : b.coeff = coefficient fs b.freq := by rw [e]; rfl
  have en : b.norm = 2 * (1 - lam fs b.freq) ^ 4 := by
    rw [e]
    show normalization (coefficient fs b.freq) = _
    unfold normalization
    rw [norm_coefficient]
    rfl
  set w := Complex.exp (-(2 * Real.pi * f / fs * Complex.I)) with hw
  have ecw : b.coeff * w = lam fs b.freq *
      Complex.exp (Complex.I * ((2 * Real.pi * (b.freq - f) / fs : ℝ) : ℂ)) := by
    rw [ec, hw]
    unfold coefficient beta
    rw [mul_assoc, ← Complex.exp_add]
    congr 2
    push_cast
    ring
  have hn : ‖b.coeff * w‖ < 1 := by
    rw [ecw, norm_mul, mul_comm Complex.I, Complex.norm_exp_ofReal_mul_I, mul_one, Complex.norm_real,
      Real.norm_of_nonneg hl0.le]
    exact hl
  have hs := tone_hasSum b.coeff b.norm w hn
  have hsq := sq_distance (lam fs b.freq) (2 * Real.pi * (b.freq - f) / fs)
  rw [← ecw] at hsq
  have hcos : Real.cos (2 * Real.pi * (b.freq - f) / fs) = Real.cos (2 * Real.pi * (f - b.freq) / fs) := by
    rw [← Real.cos_neg]
    congr 1
    ring
  rw [hcos] at hsq
  have hc1 := Real.cos_le_one (2 * Real.pi * (f - b.freq) / fs)
  set D := ‖1 - b.coeff * w‖ with hD
  have hpos : 0 < 1 - lam fs b.freq := by linarith
  have hDge : 1 - lam fs b.freq ≤ D := by
    refine le_of_sq_le_sq ?_ (norm_nonneg _)
    rw [hsq]
    nlinarith
  have hDpos : 0 < D := hpos.trans_le hDge
  have hH : ‖(b.norm : ℂ) * (1 - b.coeff * w) ^ (-4 : ℤ)‖ = 2 * ((1 - lam fs b.freq) / D) ^ 4 := by
    rw [norm_mul, norm_zpow, ← hD, Complex.norm_real, en, Real.norm_of_nonneg (by positivity), zpow_neg,
      div_pow]
    norm_cast
    ring
  have hq0 : 0 < (1 - lam fs b.freq) / D := by positivity
  have hq1 : (1 - lam fs b.freq) / D ≤ 1 := by rw [div_le_one hDpos]; exact hDge
  refine ⟨(b.norm : ℂ) * (1 - b.coeff * w) ^ (-4 : ℤ), ?_, ?_, ?_, ?_⟩
  · convert hs using 1
    funext n
    rw [ir_eq, hw, ← Complex.exp_nat_mul]
    congr 2
    ring
  · rw [hH]
    have := pow_le_one₀ (n := 4) hq0.le hq1
    linarith
  · rw [hH]
    constructor
    · intro h2
      have h4 : ((1 - lam fs b.freq) / D) ^ 4 = 1 := by linarith
      have h5 : (1 - lam fs b.freq) / D = 1 := by
        rcases lt_or_eq_of_le hq1 with hlt | heq
        · exact absurd h4 (pow_lt_one₀ hq0.le hlt (by norm_num)).ne
        · exact heq
      have h6 : 1 - lam fs b.freq = D := by
        rwa [div_eq_one_iff_eq hDpos.ne'] at h5
      rw [← h6] at hsq
      have : 2 * lam fs b.freq * (1 - Real.cos (2 * Real.pi * (f - b.freq) / fs)) = 0 := by linarith
      rcases mul_eq_zero.mp this with h7 | h7
      · linarith
      · linarith
    · intro hc
      rw [hc, sub_self, mul_zero, add_zero] at hsq
      have : D = 1 - lam fs b.freq := by
        rw [← abs_of_pos hDpos, ← abs_of_pos hpos]
        exact (sq_eq_sq_iff_abs_eq_abs _ _).mp hsq
      rw [this, div_self hpos.ne']
      norm_num
  · rintro rfl
    have : b.coeff * w = lam fs b.freq := by
      rw [ecw, sub_self]
      simp
    rw [this, en, zpow_neg]
    have hne : (1 - (lam fs b.freq : ℂ)) ≠ 0 := by
      intro h1
      have : ((1 - lam fs b.freq : ℝ) : ℂ) = 0 := by push_cast; exact h1
      rw [Complex.ofReal_eq_zero] at this
      linarith
    push_cast
    rw [mul_assoc, show ((1 - (lam fs b.freq : ℂ)) ^ (4 : ℤ)) = (1 - (lam fs b.freq : ℂ)) ^ (4 : ℕ) by norm_cast,
      mul_inv_cancel₀ (pow_ne_zero _ hne), mul_one]

theorem delay_48000 : delaySamples 48000 = 192 := by
  unfold delaySamples OctaveBands.roundEven
  have e : (0.004 : ℝ) * (48000 : ℕ) = ((192 : ℤ) : ℝ) := by norm_num
  rw [e, Int.floor_intCast, if_pos (by norm_num)]
  rfl

/-- A filter bank with the range 500 Hz to 1000 Hz. -/
theorem sampleBank : ∃ fb, create [500, 1000] 1 (some 48000) = .ok fb ∧
    ∃ b ∈ fb.bands, b.freq = 1000 := by
  obtain ⟨g, hg, hmem, _⟩ := FrequencyGrids.C105_erb 500 1000 1 1000 one_pos
  have h1 : (1000 : ℝ) ∈ g := (hmem 1000).mpr ⟨⟨0, by simp⟩, by norm_num, by norm_num⟩
  have hne : g ≠ [] := List.ne_nil_of_mem h1
  refine ⟨⟨48000, g.map (bandOf 48000), computeGains 48000 (g.map (bandOf 48000))⟩, ?_,
    bandOf 48000 1000, ?_, rfl⟩
  · unfold create
    dsimp only
    rw [if_neg (by simp), if_neg, hg]
    · exact ofFrequencies_ok _ _ hne (by rw [delay_48000]; norm_num)
    · rintro ⟨f, hf, hlt⟩
      simp only [List.mem_cons, List.not_mem_nil, or_false] at hf
      rcases hf with rfl | rfl <;> norm_num at hlt
  · exact List.mem_map.mpr ⟨1000, h1, rfl⟩

example : ∃ fb, create [500, 1000] 1 (some 48000) = .ok fb ∧ ∀ b ∈ fb.bands, ∃ H : ℂ,
    HasSum (fun n => ir b n * Complex.exp (-(2 * Real.pi * (300 : ℝ) / (48000 : ℕ) * n * Complex.I))) H ∧
      ‖H‖ ≤ 2 := by
  obtain ⟨fb, h, _⟩ := sampleBank
  refine ⟨fb, h, fun b hb => ?_⟩
  obtain ⟨H, h1, h2, _⟩ := C112_response _ _ _ _ h (by simp) b hb 300
  exact ⟨H, h1, h2⟩

/-- Frequencies below 0 are accepted although the documentation asks for a positive range: a band
below -228.9 Hz is unstable, its impulse response grows without limit. -/
theorem C112_negative_frequencies_negation :
    ∃ range resolution fb, create range resolution (some 48000) = .ok fb ∧
      ∃ b ∈ fb.bands, Filter.Tendsto (fun n => ‖ir b n‖) Filter.atTop Filter.atTop := by
  have hpos : 0 < FrequencyGrids.toErb 1000 - FrequencyGrids.toErb (-5000) := by
    have := FrequencyGrids.toErb_strictMono (show (-5000 : ℝ) < 1000 by norm_num)
    linarith
  obtain ⟨g, hg, hmem, _⟩ := FrequencyGrids.C105_erb (-5000) 1000 _ 1000 hpos
  have h1 : (-5000 : ℝ) ∈ g := (hmem _).mpr ⟨⟨-1, by push_cast; ring⟩, by norm_num, by norm_num⟩
  have hne : g ≠ [] := List.ne_nil_of_mem h1
  refine ⟨[-5000, 1000], FrequencyGrids.toErb 1000 - FrequencyGrids.toErb (-5000),
    ⟨48000, g.map (bandOf 48000), computeGains 48000 (g.map (bandOf 48000))⟩,
    ?_, bandOf 48000 (-5000), List.mem_map.mpr ⟨_, h1, rfl⟩, ?_⟩
  · unfold create
    dsimp only
    rw [if_neg (by simp), if_neg, hg]
    · exact ofFrequencies_ok _ _ hne (by rw [delay_48000]; norm_num)
    · rintro ⟨f, hf, hlt⟩
      simp only [List.mem_cons, List.not_mem_nil, or_false] at hf
      rcases hf with rfl | rfl <;> norm_num at hlt
  · have hl : 1 < lam 48000 (-5000) := by
      rw [lam_eq]
      unfold decay
      rw [Real.one_lt_exp_iff]
      norm_num
    have e : ∀ n, ‖ir (bandOf 48000 (-5000)) n‖ =
        2 * (1 - lam 48000 (-5000)) ^ 4 * ((n + 3).choose 3 : ℕ) * lam 48000 (-5000) ^ n := by
      intro n
      rw [ir_eq]
      unfold tone bandOf normalization
      dsimp only
      rw [norm_mul, norm_mul, norm_pow, norm_coefficient, Complex.norm_real, Complex.norm_natCast,
        Real.norm_of_nonneg (by positivity)]
    simp only [e]
    have hk : 0 < 2 * (1 - lam 48000 (-5000)) ^ 4 := by
      have : 1 - lam 48000 (-5000) ≠ 0 := by linarith
      positivity
    refine Filter.tendsto_atTop_mono (fun n => ?_)
      ((tendsto_pow_atTop_atTop_of_one_lt hl).const_mul_atTop hk)
    rw [mul_right_comm (2 * (1 - lam 48000 (-5000)) ^ 4)]
    have h2 : (1 : ℝ) ≤ ((n + 3).choose 3 : ℕ) := by
      exact_mod_cast Nat.choose_pos (n := n + 3) (k := 3) (by omega)
    exact le_mul_of_one_le_right (mul_nonneg hk.le (pow_nonneg (lam_pos _ _).le _)) h2

end Verif.Props.C112

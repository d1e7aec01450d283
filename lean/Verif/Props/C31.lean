import Verif.Model.Normalize
import Verif.Lemmas.SignalData
import Verif.Props.C30
import Mathlib.Algebra.Order.BigOperators.Ring.Finset

/-!
# C31: normalisation reaches exactly the requested level
-/

namespace Verif.Level

open Verif.SignalData

/-- Root mean square of the given entries (not used by the code). -/
noncomputable def rmsOn (S : Finset (ℕ × ℕ)) (f : ℕ → ℕ → ℝ) : ℝ :=
  Real.sqrt ((∑ p ∈ S, (f p.1 p.2) ^ 2) / S.card)

theorem peakOn_ge (S : Finset (ℕ × ℕ)) (f : ℕ → ℕ → ℝ) (p : ℕ × ℕ) (hp : p ∈ S) :
    |f p.1 p.2| ≤ peakOn S f := by
  unfold peakOn
  rw [Finset.le_fold_max]
  exact Or.inr ⟨p, hp, le_rfl⟩

theorem peakOn_nonneg (S : Finset (ℕ × ℕ)) (f : ℕ → ℕ → ℝ) : 0 ≤ peakOn S f := by
  unfold peakOn
  rw [Finset.le_fold_max]
  exact Or.inl le_rfl

theorem peakOn_attained (S : Finset (ℕ × ℕ)) (f : ℕ → ℕ → ℝ) (h : peakOn S f ≠ 0) :
    ∃ p ∈ S, |f p.1 p.2| = peakOn S f := by
  have hpos : 0 < peakOn S f := lt_of_le_of_ne (peakOn_nonneg S f) (Ne.symm h)
  have h1 : peakOn S f ≤ S.fold max 0 fun p => |f p.1 p.2| := le_rfl
  rw [Finset.le_fold_max] at h1
  rcases h1 with h1 | ⟨p, hp, h1⟩
  · linarith
  · exact ⟨p, hp, le_antisymm (peakOn_ge S f p hp) h1⟩

theorem stdOn_nonneg (S : Finset (ℕ × ℕ)) (f : ℕ → ℕ → ℝ) : 0 ≤ stdOn S f := Real.sqrt_nonneg _

/-- Levels scale with the signal. -/
theorem levelOn_scale (peak : Bool) (S : Finset (ℕ × ℕ)) (f h : ℕ → ℕ → ℝ) (g : ℝ) (hg : 0 ≤ g)
    (hf : ∀ p ∈ S, h p.1 p.2 = f p.1 p.2 * g) : levelOn peak S h = levelOn peak S f * g := by
  unfold levelOn
  cases peak with
  | true =>
    simp only [if_true]
    apply le_antisymm
    · by_cases h0 : peakOn S h = 0
      · rw [h0]
        exact mul_nonneg (peakOn_nonneg S f) hg
      · obtain ⟨p, hp, hpeak⟩ := peakOn_attained S h h0
        rw [← hpeak, hf p hp, abs_mul, abs_of_nonneg hg]
        exact mul_le_mul_of_nonneg_right (peakOn_ge S f p hp) hg
    · by_cases h0 : peakOn S f = 0
      · rw [h0, zero_mul]
        exact peakOn_nonneg S h
      · obtain ⟨p, hp, hpeak⟩ := peakOn_attained S f h0
        have := peakOn_ge S h p hp
        rw [hf p hp, abs_mul, abs_of_nonneg hg, hpeak] at this
        exact this
  | false =>
    simp only [Bool.false_eq_true, if_false]
    unfold stdOn
    have hmean : meanOn S h = meanOn S f * g := by
      unfold meanOn
      rw [Finset.sum_congr rfl fun p hp => hf p hp, ← Finset.sum_mul]
      ring
    have hsum : ∑ p ∈ S, (h p.1 p.2 - meanOn S h) ^ 2 =
        (∑ p ∈ S, (f p.1 p.2 - meanOn S f) ^ 2) * g ^ 2 := by
      rw [Finset.sum_mul]
      refine Finset.sum_congr rfl fun p hp => ?_
      rw [hf p hp, hmean]
      ring
    rw [hsum, mul_div_right_comm, Real.sqrt_mul' _ (sq_nonneg g), Real.sqrt_sq hg]

theorem levelOn_nonneg (peak : Bool) (S : Finset (ℕ × ℕ)) (f : ℕ → ℕ → ℝ) :
    0 ≤ levelOn peak S f := by
  unfold levelOn
  cases peak
  · simpa using stdOn_nonneg S f
  · simpa using peakOn_nonneg S f

/-- The measured entries are the same for all channels of a group. -/
theorem cells_mem (A : Mat ℝ) (c : ℕ) (each : Bool) (p : ℕ × ℕ) (hp : p ∈ cells A c each) :
    cells A p.2 each = cells A c each := by
  unfold cells at *
  cases each
  · rfl
  · simp only [if_true, Finset.mem_product, Finset.mem_singleton] at hp ⊢
    rw [hp.2]

/-- The level (peak, or standard deviation) of the whole array or of every channel is the
requested one, for every array and every target level. -/
theorem C31_level_reached (A : Mat ℝ) (dbfs : ℝ) (peak each : Bool) (c : ℕ)
    (h : levelOn peak (cells A c each) A.val ≠ 0) :
    levelOn peak (cells A c each) (normalizeArray A dbfs peak each).val = 10 ^ (dbfs / 20) := by
  have hL : 0 < levelOn peak (cells A c each) A.val :=
    lt_of_le_of_ne (levelOn_nonneg _ _ _) (Ne.symm h)
  have hdb : fromDb dbfs true = 10 ^ (dbfs / 20) := by simp [fromDb, dbFactor]
  rw [levelOn_scale peak _ A.val _ (fromDb dbfs true / levelOn peak (cells A c each) A.val)
    (div_nonneg (fromDb_pos _ _).le hL.le) ?_, mul_div_cancel₀ _ h, hdb]
  intro p hp
  show A.val p.1 p.2 * (fromDb dbfs true / levelOn peak (cells A p.2 each) A.val) = _
  rw [cells_mem A c each p hp]

/-- The peak in plain words: no sample of the normalised channel (or signal) exceeds the
requested level and one sample reaches it. -/
theorem C31_peak_reached (A : Mat ℝ) (dbfs : ℝ) (each : Bool) (c : ℕ) (hc : c < A.cols)
    (hne : ∃ r < A.rows, A.val r c ≠ 0) :
    (∀ r < A.rows, |(normalizeArray A dbfs true each).val r c| ≤ 10 ^ (dbfs / 20)) ∧
    ∃ r < A.rows, ∃ c' < A.cols, (each = true → c' = c) ∧
      |(normalizeArray A dbfs true each).val r c'| = 10 ^ (dbfs / 20) := by
  have hcell : ∀ r < A.rows, (r, c) ∈ cells A c each := by
    intro r hr
    unfold cells
    cases each <;> simp [hr, hc]
  obtain ⟨r0, hr0, hx0⟩ := hne
  have h0 : levelOn true (cells A c each) A.val ≠ 0 := by
    have := peakOn_ge (cells A c each) A.val (r0, c) (hcell r0 hr0)
    have h1 : 0 < |A.val r0 c| := abs_pos.mpr hx0
    simp only [levelOn, if_true]
    intro h
    rw [h] at this
    exact absurd (lt_of_lt_of_le h1 this) (lt_irrefl _)
  have hlev := C31_level_reached A dbfs true each c h0
  simp only [levelOn, if_true] at hlev
  constructor
  · intro r hr
    rw [← hlev]
    exact peakOn_ge (cells A c each) _ (r, c) (hcell r hr)
  · have hpos : (10 : ℝ) ^ (dbfs / 20) ≠ 0 := by positivity
    obtain ⟨p, hp, h⟩ := peakOn_attained (cells A c each)
      (normalizeArray A dbfs true each).val (by rw [hlev]; exact hpos)
    rw [hlev] at h
    unfold cells at hp
    cases each with
    | true =>
      simp only [if_true, Finset.mem_product, Finset.mem_range, Finset.mem_singleton] at hp
      exact ⟨p.1, hp.1, p.2, by omega, fun _ => hp.2, h⟩
    | false =>
      simp only [Bool.false_eq_true, if_false, Finset.mem_product, Finset.mem_range] at hp
      exact ⟨p.1, hp.1, p.2, hp.2, by simp, h⟩

/-- The waveform is kept: every channel is multiplied by one positive number, the same for
all channels unless they are normalised separately. -/
theorem C31_shape_kept (A : Mat ℝ) (dbfs : ℝ) (peak each : Bool)
    (h : ∀ c < A.cols, levelOn peak (cells A c each) A.val ≠ 0) :
    ∃ g : ℕ → ℝ, (∀ c < A.cols, 0 < g c) ∧ (each = false → ∀ c c', g c = g c') ∧
      ∀ r c, (normalizeArray A dbfs peak each).val r c = g c * A.val r c := by
  refine ⟨fun c => fromDb dbfs true / levelOn peak (cells A c each) A.val, ?_, ?_, ?_⟩
  · intro c hc
    exact div_pos (fromDb_pos _ _) (lt_of_le_of_ne (levelOn_nonneg _ _ _) (Ne.symm (h c hc)))
  · intro he c c'
    subst he
    rfl
  · intro r c
    show A.val r c * _ = _
    ring

/-- Normalising twice is normalising once. -/
theorem C31_idempotent (A : Mat ℝ) (dbfs : ℝ) (peak each : Bool)
    (h : ∀ c < A.cols, levelOn peak (cells A c each) A.val ≠ 0) :
    (normalizeArray (normalizeArray A dbfs peak each) dbfs peak each).Same
      (normalizeArray A dbfs peak each) := by
  refine ⟨rfl, rfl, fun r hr c hc => ?_⟩
  show (normalizeArray A dbfs peak each).val r c * (fromDb dbfs true /
    levelOn peak (cells (normalizeArray A dbfs peak each) c each)
      (normalizeArray A dbfs peak each).val) = _
  have hcells : cells (normalizeArray A dbfs peak each) c each = cells A c each := rfl
  have hdb : fromDb dbfs true = 10 ^ (dbfs / 20) := by simp [fromDb, dbFactor]
  rw [hcells, C31_level_reached A dbfs peak each c (h c hc), hdb, div_self (by positivity), mul_one]

/-- The mean of the entries is what separates the RMS from the standard deviation. -/
theorem rms_sq (S : Finset (ℕ × ℕ)) (hS : S.Nonempty) (f : ℕ → ℕ → ℝ) :
    rmsOn S f ^ 2 = stdOn S f ^ 2 + meanOn S f ^ 2 := by
  have hn : (0 : ℝ) < S.card := by exact_mod_cast hS.card_pos
  unfold rmsOn stdOn
  rw [Real.sq_sqrt (div_nonneg (Finset.sum_nonneg fun _ _ => sq_nonneg _) hn.le),
    Real.sq_sqrt (div_nonneg (Finset.sum_nonneg fun _ _ => sq_nonneg _) hn.le)]
  have h1 : ∑ p ∈ S, (f p.1 p.2 - meanOn S f) ^ 2 =
      ∑ p ∈ S, f p.1 p.2 ^ 2 - 2 * meanOn S f * ∑ p ∈ S, f p.1 p.2 +
        S.card * meanOn S f ^ 2 := by
    have h2 : ∀ p ∈ S, (f p.1 p.2 - meanOn S f) ^ 2 =
        f p.1 p.2 ^ 2 - 2 * meanOn S f * f p.1 p.2 + meanOn S f ^ 2 := fun p _ => by ring
    rw [Finset.sum_congr rfl h2, Finset.sum_add_distrib, Finset.sum_sub_distrib, ← Finset.mul_sum,
      Finset.sum_const, nsmul_eq_mul]
  have h3 : ∑ p ∈ S, f p.1 p.2 = S.card * meanOn S f := by
    unfold meanOn
    field_simp
  rw [h1, h3]
  field_simp
  ring

/-- RMS normalisation of a signal without constant offset gives the requested RMS value.
For signals with an offset see `C31_rms_not_reached`. -/
theorem C31_rms_reached_partial (A : Mat ℝ) (dbfs : ℝ) (each : Bool) (c : ℕ) (hc : c < A.cols)
    (hr : 0 < A.rows) (hmean : meanOn (cells A c each) A.val = 0)
    (h : rmsOn (cells A c each) A.val ≠ 0) :
    rmsOn (cells A c each) (normalizeArray A dbfs false each).val = 10 ^ (dbfs / 20) := by
  have hS : (cells A c each).Nonempty :=
    ⟨(0, c), by unfold cells; cases each <;> simp [hr, hc]⟩
  have hrms : ∀ f : ℕ → ℕ → ℝ, meanOn (cells A c each) f = 0 →
      rmsOn (cells A c each) f = stdOn (cells A c each) f := by
    intro f hf
    have h1 := rms_sq _ hS f
    rw [hf] at h1
    have h2 : rmsOn (cells A c each) f ^ 2 = stdOn (cells A c each) f ^ 2 := by rw [h1]; ring
    exact (sq_eq_sq₀ (Real.sqrt_nonneg _) (Real.sqrt_nonneg _)).mp h2
  have hlev : levelOn false (cells A c each) A.val ≠ 0 := by
    simp only [levelOn, Bool.false_eq_true, if_false]
    rw [← hrms _ hmean]
    exact h
  have hmean' : meanOn (cells A c each) (normalizeArray A dbfs false each).val = 0 := by
    unfold meanOn at *
    have h1 : ∑ p ∈ cells A c each, (normalizeArray A dbfs false each).val p.1 p.2 =
        (∑ p ∈ cells A c each, A.val p.1 p.2) *
          (fromDb dbfs true / levelOn false (cells A c each) A.val) := by
      rw [Finset.sum_mul]
      refine Finset.sum_congr rfl fun p hp => ?_
      show A.val p.1 p.2 * (fromDb dbfs true / levelOn false (cells A p.2 each) A.val) = _
      rw [cells_mem A c each p hp]
    rw [h1, mul_div_right_comm, hmean, zero_mul]
  rw [hrms _ hmean']
  have := C31_level_reached A dbfs false each c hlev
  simpa only [levelOn, Bool.false_eq_true, if_false] using this

/-- With a constant offset the RMS value after RMS normalisation is always larger than
requested. -/
theorem C31_rms_not_reached (A : Mat ℝ) (dbfs : ℝ) (each : Bool) (c : ℕ) (hc : c < A.cols)
    (hr : 0 < A.rows) (hmean : meanOn (cells A c each) A.val ≠ 0)
    (h : levelOn false (cells A c each) A.val ≠ 0) :
    10 ^ (dbfs / 20) < rmsOn (cells A c each) (normalizeArray A dbfs false each).val := by
  have hS : (cells A c each).Nonempty :=
    ⟨(0, c), by unfold cells; cases each <;> simp [hr, hc]⟩
  have hlev := C31_level_reached A dbfs false each c h
  simp only [levelOn, Bool.false_eq_true, if_false] at hlev
  have hsq := rms_sq _ hS (normalizeArray A dbfs false each).val
  rw [hlev] at hsq
  have hm : meanOn (cells A c each) (normalizeArray A dbfs false each).val ≠ 0 := by
    unfold meanOn at *
    have h1 : ∑ p ∈ cells A c each, (normalizeArray A dbfs false each).val p.1 p.2 =
        (∑ p ∈ cells A c each, A.val p.1 p.2) *
          (fromDb dbfs true / levelOn false (cells A c each) A.val) := by
      rw [Finset.sum_mul]
      refine Finset.sum_congr rfl fun p hp => ?_
      show A.val p.1 p.2 * (fromDb dbfs true / levelOn false (cells A p.2 each) A.val) = _
      rw [cells_mem A c each p hp]
    rw [h1, mul_div_right_comm]
    exact mul_ne_zero hmean (div_ne_zero (fromDb_pos _ _).ne' h)
  have hlt : ((10 : ℝ) ^ (dbfs / 20)) ^ 2 <
      rmsOn (cells A c each) (normalizeArray A dbfs false each).val ^ 2 := by
    rw [hsq]
    have : 0 < meanOn (cells A c each) (normalizeArray A dbfs false each).val ^ 2 := by positivity
    linarith
  exact lt_of_pow_lt_pow_left₀ 2 (Real.sqrt_nonneg _) hlt

/-- The signal returned by `normalize` to a peak of at most 0 dBFS (or without amplitude
constraint) holds exactly the normalised samples. -/
theorem C31_signal (s : State ℝ) (dbfs : ℝ) (each : Bool) (h1 : 1 ≤ s.re.cols)
    (h2 : s.re.cols ≤ s.re.rows) (h3 : s.re.rows ≠ 1)
    (hb : s.constrain = false ∨ dbfs ≤ 0)
    (hne : ∀ c < s.re.cols, ∃ r < s.re.rows, s.re.val r c ≠ 0) :
    ∃ s', normalizeSignal s dbfs true each = .ok s' ∧ s'.HasShape s.re.rows s.re.cols ∧
      s'.constrain = s.constrain ∧ s'.scale = 1 ∧
      ∀ r < s.re.rows, ∀ c < s.re.cols,
        s'.sample r c = (normalizeArray s.re dbfs true each).val r c := by
  have hcopy : normalizeSignal s dbfs true each = .ok _ :=
    copyWith_ok s ⟨s.re.rows, s.re.cols, (normalizeArray s.re dbfs true each).val, none⟩ h2
      (by intro h; exact h3 h.1) ?_
  · refine ⟨_, hcopy, ⟨rfl, rfl⟩, rfl, rfl, fun r hr c hc => ?_⟩
    simp [State.sample, Input.reMat, hr, hc]
  · intro hcon
    rcases hb with hb | hb
    · rw [hb] at hcon
      exact absurd hcon (by simp)
    · refine ⟨h1, fun r hr c hc => ?_, fun f hf => by simp at hf⟩
      refine le_trans ((C31_peak_reached s.re dbfs each c hc (hne c hc)).1 r hr) ?_
      refine Real.rpow_le_one_of_one_le_of_nonpos (by norm_num) ?_
      linarith

/-- With the amplitude constraint (the default) a target above 0 dBFS is not reached: the
result has a peak of 1. -/
theorem C31_constrained_target_not_reached (s : State ℝ) (dbfs : ℝ) (h1 : 1 ≤ s.re.cols)
    (h2 : s.re.cols ≤ s.re.rows) (h3 : s.re.rows ≠ 1) (hcon : s.constrain = true)
    (hdb : 0 < dbfs) :
    ∃ s', normalizeSignal s dbfs true false = .ok s' ∧
      ∀ r < s.re.rows, ∀ c < s.re.cols, |s'.sample r c| < 10 ^ (dbfs / 20) := by
  set x : Input ℝ := ⟨s.re.rows, s.re.cols, (normalizeArray s.re dbfs true false).val, none⟩ with hx
  obtain ⟨s', hs', -, -, hscale, hval, -, -⟩ := setData_scaled
    ⟨⟨0, 0, fun _ _ => 0⟩, none, s.constrain, 1⟩ x h2 (by intro h; exact h3 h.1) h1
  refine ⟨s', hs', fun r hr c hc => ?_⟩
  have hgt : (1 : ℝ) < 10 ^ (dbfs / 20) := Real.one_lt_rpow (by norm_num) (by linarith)
  rw [hval r hr c hc, hscale, abs_mul]
  have hle := (C14_peak_is_largest x).1 r hr c hc
  by_cases hp : 1 < peak x
  · rw [if_pos ⟨hcon, hp⟩, abs_of_pos (by positivity)]
    have : 1 / peak x * |x.re r c| ≤ 1 := by
      rw [one_div, inv_mul_le_iff₀ (by linarith)]
      linarith
    linarith
  · rw [if_neg (by tauto), abs_one, one_mul]
    linarith

/-- Concrete case: a channel that is not silent. -/
example : ∃ r < (⟨3, 1, fun r _ => (r : ℝ)⟩ : Mat ℝ).rows,
    (⟨3, 1, fun r _ => (r : ℝ)⟩ : Mat ℝ).val r 0 ≠ 0 := ⟨1, by norm_num, by norm_num⟩

/-- Concrete case: samples 0 and 2 have mean 1 and standard deviation 1, so the hypotheses
of `C31_rms_not_reached` are met. -/
example : meanOn (cells ⟨2, 1, fun r _ => 2 * (r : ℝ)⟩ 0 true) (fun r _ => 2 * (r : ℝ)) = 1 ∧
    stdOn (cells ⟨2, 1, fun r _ => 2 * (r : ℝ)⟩ 0 true) (fun r _ => 2 * (r : ℝ)) = 1 := by
  have hcells : cells ⟨2, 1, fun r _ => 2 * (r : ℝ)⟩ 0 true = {(0, 0), (1, 0)} := by
    ext ⟨a, b⟩
    simp [cells]
    omega
  have hm : meanOn {(0, 0), (1, 0)} (fun r _ => 2 * (r : ℝ)) = 1 := by
    norm_num [meanOn]
  rw [hcells]
  refine ⟨hm, ?_⟩
  unfold stdOn
  rw [hm]
  norm_num

end Verif.Level

import Verif.Lemmas.Generators
import Mathlib.Analysis.SpecialFunctions.ExpDeriv
import Mathlib.Analysis.Calculus.Deriv.Pow
import Mathlib.Analysis.Complex.ExponentialBounds
import Mathlib.Analysis.SpecialFunctions.Trigonometric.Deriv

/-!
# C100: sweeps run through the requested frequencies
-/

namespace Verif.Generators

open Fade Waves

/-! ### Frequencies -/

/-- The linear chirp is a sine whose frequency grows linearly from the first frequency at the start to the
second one at the end; it starts with the requested phase. -/
theorem C100_linear (f1 f2 len phi : ℝ) (hlen : 0 < len) :
    ∃ phase : ℝ → ℝ, (∀ t, linearChirp f1 f2 len phi t = Real.sin (phase t)) ∧ phase 0 = phi ∧
      ∀ t, HasDerivAt phase (2 * Real.pi * (f1 + (f2 - f1) * (t / len))) t := by
  refine ⟨fun t => (f1 + (f2 - f1) / len / 2 * t) * 2 * Real.pi * t + phi, fun t => rfl, by simp, fun t => ?_⟩
  have h1 : HasDerivAt (fun t : ℝ => f1 + (f2 - f1) / len / 2 * t) ((f2 - f1) / len / 2) t := by
    simpa using ((hasDerivAt_id t).const_mul ((f2 - f1) / len / 2)).const_add f1
  have h2 := ((((h1.mul_const 2).mul_const Real.pi).mul (hasDerivAt_id t))).add_const phi
  refine h2.congr_deriv ?_
  simp only [id]
  field_simp
  ring

/-- The logarithmic chirp is a sine whose frequency grows exponentially from the first frequency at the
start to the second one at the end; it starts with the requested phase. -/
theorem C100_logarithmic_partial (f1 f2 len phi : ℝ) (hlen : 0 < len) (h1 : 0 < f1) (h2 : 0 < f2)
    (h12 : f1 ≠ f2) :
    ∃ phase : ℝ → ℝ, (∀ t, logChirp f1 f2 len phi t = some (Real.sin (phase t))) ∧ phase 0 = phi ∧
      ∀ t, HasDerivAt phase (2 * Real.pi * (f1 * (f2 / f1) ^ (t / len))) t := by
  set c := (Real.log f2 - Real.log f1) / len with hc
  have hc0 : c ≠ 0 := by
    intro h
    rw [hc, div_eq_zero_iff] at h
    rcases h with h | h
    · exact h12 (Real.log_injOn_pos h1 h2 (sub_eq_zero.1 h).symm)
    · exact hlen.ne' h
  refine ⟨fun t => 2 * Real.pi * f1 / c * (Real.exp (c * t) - 1) + phi, fun t => ?_, by simp, fun t => ?_⟩
  · unfold logChirp
    simp only [← hc, Real.log_exp]
    rw [if_neg hc0, ← Real.exp_mul]
  · have h3 : HasDerivAt (fun t : ℝ => Real.exp (c * t)) (Real.exp (c * t) * c) t := by
      have := ((hasDerivAt_id t).const_mul c).exp
      simpa using this
    have h4 := ((h3.sub_const 1).const_mul (2 * Real.pi * f1 / c)).add_const phi
    refine h4.congr_deriv ?_
    have h5 : (f2 / f1) ^ (t / len) = Real.exp (c * t) := by
      rw [Real.rpow_def_of_pos (div_pos h2 h1), Real.log_div h2.ne' h1.ne', hc]
      congr 1
      field_simp
    rw [h5]
    field_simp

/-- **Disagreement.** With equal frequencies every sample of the logarithmic chirp is `nan`. -/
theorem C100_logarithmic_equal (f len phi t : ℝ) : logChirp f f len phi t = none := by
  unfold logChirp
  simp

/-! ### The synchronized chirp -/

theorem roundHalf_nat (k : ℕ) : roundHalf k = k := by
  unfold roundHalf
  rw [Nat.floor_eq_iff (by positivity)]
  constructor
  · norm_num
  · norm_num

/-- The synchronized chirp: with a whole number `k ≥ 1` of cycles as sweep rate it is a sine whose frequency
grows exponentially from the first frequency at the start to the second one at its end, and a shift by
`k / f1 * log m` seconds turns it into the sine of the `m`-fold phase, for every `m ≥ 1`: the `m`-th harmonic
has the phase of the fundamental.  The duration differs from the requested one by at most half a step of
the sweep rate. -/
theorem C100_sync (f1 f2 len : ℝ) (fs : ℕ) (h1 : 0 < f1) (h12 : f1 < f2) (hlen : 0 < len)
    (hk : 1 ≤ roundHalf (f1 * len / Real.log (f2 / f1))) :
    ∃ (k : ℕ) (T : ℝ) (phase : ℝ → ℝ), 1 ≤ k ∧ T = k / f1 * Real.log (f2 / f1) ∧
      |T - len| ≤ Real.log (f2 / f1) / (2 * f1) ∧
      syncLogChirp f1 f2 len fs =
        .ok ((linspace 0 T (roundHalf (T * fs))).map fun t => some (Real.sin (phase t)), T) ∧
      phase 0 = 0 ∧ (∀ t, HasDerivAt phase (2 * Real.pi * (f1 * Real.exp (t * f1 / k))) t) ∧
      f1 * Real.exp (T * f1 / k) = f2 ∧
      ∀ m : ℕ, 1 ≤ m → ∀ t, Real.sin (phase (t + k / f1 * Real.log m)) = Real.sin (m * phase t) := by
  set q := Real.log (f2 / f1) with hq
  have hq0 : 0 < q := Real.log_pos ((one_lt_div h1).2 h12)
  set k := roundHalf (f1 * len / q) with hkdef
  have hk0 : (0 : ℝ) < k := by exact_mod_cast hk
  have hT : (k : ℝ) / f1 * q * f1 / q = k := by field_simp
  have hL : ((k : ℝ) / f1)⁻¹ = f1 / k := by rw [inv_div]
  refine ⟨k, k / f1 * q, fun t => 2 * Real.pi * k * (Real.exp (t * f1 / k) - 1), hk, rfl, ?_, ?_, by simp, ?_, ?_, ?_⟩
  · have ha : (0 : ℝ) ≤ f1 * len / q + 0.5 := by positivity
    have l1 : (k : ℝ) ≤ f1 * len / q + 0.5 := Nat.floor_le ha
    have l2 : f1 * len / q + 0.5 < k + 1 := Nat.lt_floor_add_one _
    have e : (k : ℝ) / f1 * q - len = (k - f1 * len / q) * (q / f1) := by field_simp
    rw [e, abs_mul, abs_of_pos (div_pos hq0 h1)]
    have : |(k : ℝ) - f1 * len / q| ≤ 1 / 2 := by
      rw [abs_le]
      constructor <;> norm_num at l1 l2 <;> linarith
    calc |(k : ℝ) - f1 * len / q| * (q / f1) ≤ 1 / 2 * (q / f1) :=
          mul_le_mul_of_nonneg_right this (div_pos hq0 h1).le
      _ = q / (2 * f1) := by field_simp
  · unfold syncLogChirp
    simp only [← hq, ← hkdef]
    rw [if_neg hq0.ne', hT, roundHalf_nat]
    congr 2
    refine List.map_congr_left fun t _ => ?_
    congr 2
    have : t / ((k : ℝ) / f1) = t * f1 / k := by rw [div_div_eq_mul_div]
    rw [this]
    field_simp
  · intro t
    have h3 : HasDerivAt (fun t : ℝ => Real.exp (t * f1 / k)) (Real.exp (t * f1 / k) * (f1 / k)) t := by
      have := (((hasDerivAt_id t).mul_const f1).div_const (k : ℝ)).exp
      simpa using this
    refine ((h3.sub_const 1).const_mul (2 * Real.pi * k)).congr_deriv ?_
    field_simp
  · have : (k : ℝ) / f1 * q * f1 / k = q := by field_simp
    rw [this, hq, Real.exp_log (div_pos (h1.trans h12) h1)]
    field_simp
  · intro m hm t
    have hm0 : (0 : ℝ) < m := by exact_mod_cast hm
    have e : Real.exp ((t + k / f1 * Real.log m) * f1 / k) = m * Real.exp (t * f1 / k) := by
      rw [show (t + k / f1 * Real.log m) * f1 / k = Real.log m + t * f1 / k by field_simp; ring, Real.exp_add,
        Real.exp_log hm0]
    simp only [e]
    rw [show 2 * Real.pi * (k : ℝ) * (m * Real.exp (t * f1 / k) - 1) =
      m * (2 * Real.pi * k * (Real.exp (t * f1 / k) - 1)) + ((k * (m - 1) : ℕ) : ℝ) * (2 * Real.pi) by
        rw [Nat.cast_mul, Nat.cast_sub hm]
        push_cast
        ring]
    exact Real.sin_add_nat_mul_two_pi _ _

/-- **Disagreement.** The documented purpose of the adjusted duration is that the chirp ends with phase 0.
It ends with the phase `2 π k (f2 / f1 - 1)` instead; from 4 Hz to 5 Hz in `log(5/4)/4` seconds the last
sample is 1. -/
theorem C100_sync_end (fs : ℕ) (h2 : 2 ≤ roundHalf (Real.log (5 / 4) / 4 * fs)) :
    ∃ td T, syncLogChirp 4 5 (Real.log (5 / 4) / 4) fs = .ok (td, T) ∧
      td.getLast? = some (some 1) := by
  have hq0 : 0 < Real.log (5 / 4) := Real.log_pos (by norm_num)
  have hr : roundHalf (4 * (Real.log (5 / 4) / 4) / Real.log (5 / 4)) = 1 := by
    rw [show 4 * (Real.log (5 / 4) / 4) / Real.log (5 / 4) = ((1 : ℕ) : ℝ) by push_cast; field_simp, roundHalf_nat]
  unfold syncLogChirp
  simp only [hr]
  rw [if_neg hq0.ne']
  refine ⟨_, _, rfl, ?_⟩
  have hT : ((1 : ℕ) : ℝ) / 4 * Real.log (5 / 4) = Real.log (5 / 4) / 4 := by push_cast; ring
  rw [hT]
  have hk : roundHalf (Real.log (5 / 4) / 4 * 4 / Real.log (5 / 4)) = 1 := by
    rw [show Real.log (5 / 4) / 4 * 4 / Real.log (5 / 4) = ((1 : ℕ) : ℝ) by push_cast; field_simp, roundHalf_nat]
  rw [hk]
  generalize hl : roundHalf (Real.log (5 / 4) / 4 * fs) = l at *
  obtain ⟨j, rfl⟩ : ∃ j, l = j + 2 := ⟨l - 2, by omega⟩
  rw [List.getLast?_map]
  unfold linspace
  rw [List.getLast?_map, List.getLast?_range, if_neg (by omega)]
  simp only [Option.map_some]
  congr 2
  have hj : ((j + 2 - 1 : ℕ) : ℝ) ≠ 0 := by
    exact_mod_cast (by omega : j + 2 - 1 ≠ 0)
  have e : (0 : ℝ) + ((j + 2 - 1 : ℕ) : ℝ) * ((Real.log (5 / 4) / 4 - 0) / ((j + 2 - 1 : ℕ) : ℝ)) =
      Real.log (5 / 4) / 4 := by
    field_simp
    ring
  rw [e, show Real.log (5 / 4) / 4 / (((1 : ℕ) : ℝ) / 4) = Real.log (5 / 4) by push_cast; field_simp,
    Real.exp_log (by norm_num),
    show 2 * Real.pi * 4 * (((1 : ℕ) : ℝ) / 4) * (5 / 4 - 1) = Real.pi / 2 by push_cast; ring,
    Real.sin_pi_div_two]

/-! ### The returned signal -/

theorem finish_length (x : List (Option ℝ)) (len db : ℝ) (fade : Option FadeType) (fs total : ℕ)
    (y : List (Option ℝ)) (h : finish x len db fade fs total = .ok y) : y.length = total := by
  unfold finish at h
  simp only [bind, Except.bind, pure, Except.pure] at h
  cases h1 : normVec x db with
  | error e => rw [h1] at h; cases h
  | ok v =>
    rw [h1] at h
    simp only at h
    split at h
    · cases h
      simp
    · split at h
      · cases h
      · cases h
        simp

/-- Every successful call returns the rounded number of samples plus the padding. -/
theorem C100_length (fs : ℕ) (type : ChirpType) (range : Option (ℝ × ℝ)) (len db : ℝ) (fade : Option FadeType)
    (phi pad : ℝ) (y : List (Option ℝ)) (T : Option ℝ)
    (h : chirp fs type range len db fade phi pad = .ok (y, T)) :
    y.length = roundHalf (fs * len) + ⌊pad * fs⌋₊ := by
  have hp : (if pad ≠ 0 then ⌊pad * fs⌋₊ else 0) = ⌊pad * fs⌋₊ := by
    split_ifs with h
    · rfl
    · rw [not_not.1 h]
      simp
  unfold chirp at h
  simp only [hp] at h
  have key : ∀ (x : List (Option ℝ)) (T' : Option ℝ),
      (finish x len db fade fs (roundHalf (fs * len) + ⌊pad * fs⌋₊)).map (fun y => (y, T')) = .ok (y, T) →
      y.length = roundHalf (fs * len) + ⌊pad * fs⌋₊ := by
    intro x T' h'
    cases h2 : finish x len db fade fs (roundHalf (fs * len) + ⌊pad * fs⌋₊) with
    | error e => rw [h2] at h'; cases h'
    | ok z =>
      rw [h2] at h'
      cases h'
      exact finish_length _ _ _ _ _ _ _ h2
  generalize chirpRange fs range = r at h
  by_cases h1 : range.isSome = true ∧ ¬ (0 < r.1 ∧ r.2 ≤ (fs / 2 : ℕ))
  · rw [if_pos h1] at h
    cases h
  rw [if_neg h1] at h
  by_cases h2 : pad ≠ 0 ∧ ¬ 0 < pad
  · rw [if_pos h2] at h
    cases h
  rw [if_neg h2] at h
  cases type with
  | linear => exact key _ _ h
  | logarithmic => exact key _ _ h
  | syncLog =>
    simp only at h
    split at h
    · cases h
    · exact key _ _ h

/-- A linear or logarithmic chirp over a given range: the sweep, from the lower to the upper frequency, at
the times `i * length / (samples - 1)`, scaled to the requested peak, faded at both ends and followed by the
padding. -/
theorem C100_chirp (fs : ℕ) (type : ChirpType) (a b len db : ℝ) (fade : Option FadeType) (phi pad : ℝ)
    (hab : 0 < min a b) (hmax : max a b ≤ (fs / 2 : ℕ)) (hlen : 0 < len) (hpad : 0 ≤ pad) (g : ℝ → ℝ)
    (hg : type = .linear ∧ g = linearChirp (min a b) (max a b) len phi ∨
      type = .logarithmic ∧ ∀ t, logChirp (min a b) (max a b) len phi t = some (g t))
    (hfade : fade = none ∨ fade = some .noFade ∨ 2 ≤ ⌊0.05 * len * fs⌋₊) (P : ℝ) (hP0 : P ≠ 0)
    (hP : IsPeak ((List.range (roundHalf (fs * len))).map fun i : ℕ =>
      g (i * (len / (roundHalf (fs * len) - 1 : ℕ)))) P) :
    ∃ e, Envelope (roundHalf (fs * len)) ⌊0.05 * len * fs⌋₊ e ∧
      (fade = none ∨ fade = some .noFade → ∀ i, e i = 1) ∧
      chirp fs type (some (a, b)) len db fade phi pad =
        .ok ((List.range (roundHalf (fs * len) + ⌊pad * fs⌋₊)).map fun i : ℕ =>
          some (if i < roundHalf (fs * len) then
            10 ^ (db / 20) / P * g (i * (len / (roundHalf (fs * len) - 1 : ℕ))) * e i else 0), none) := by
  have hp : (if pad ≠ 0 then ⌊pad * fs⌋₊ else 0) = ⌊pad * fs⌋₊ := by
    split_ifs with h
    · rfl
    · rw [not_not.1 h]
      simp
  unfold chirp
  simp only [chirpRange, Option.isSome_some, true_and, hp]
  rw [if_neg (not_not.2 ⟨hab, hmax⟩), if_neg (fun h => h.2 (lt_of_le_of_ne hpad (Ne.symm h.1)))]
  set l := roundHalf (fs * len) with hl
  set x : List ℝ := (List.range l).map fun i : ℕ => g (i * (len / (l - 1 : ℕ))) with hx
  have hxl : x.length = l := by simp [hx]
  have hfade' : fade = none ∨ fade = some .noFade ∨
      0 < len ∧ 2 ≤ ⌊0.05 * len * fs⌋₊ ∧ ⌊0.05 * len * fs⌋₊ < x.length := by
    rcases hfade with h | h | h
    · exact .inl h
    · exact .inr (.inl h)
    · exact .inr (.inr ⟨hlen, h, by rw [hxl]; exact fade_fits len hlen fs h⟩)
  obtain ⟨e, h1, h2, h3⟩ := finish_value x P hP hP0 len db fade fs (l + ⌊pad * fs⌋₊) hfade'
  refine ⟨e, by rwa [hxl] at h1, h2, ?_⟩
  have hlin : ∀ F : ℝ → Option ℝ, (∀ t, F t = some (g t)) → (linspace 0 len l).map F = x.map some := by
    intro F hF
    rw [hx, linspace, List.map_map, List.map_map]
    refine List.map_congr_left fun i _ => ?_
    simp only [Function.comp, hF]
    rw [zero_add, sub_zero]
  have hfin : finish (x.map some) len db fade fs (l + ⌊pad * fs⌋₊) =
      .ok ((List.range (l + ⌊pad * fs⌋₊)).map fun i : ℕ =>
          some (if i < l then 10 ^ (db / 20) / P * g (i * (len / (l - 1 : ℕ))) * e i else 0)) := by
    rw [h3, hxl]
    congr 1
    refine List.map_congr_left fun i _ => ?_
    by_cases hi : i < l
    · rw [if_pos hi, if_pos hi, List.getD_eq_getElem _ _ (by omega)]
      simp [hx, Level.fromDb, Level.dbFactor]
    · rw [if_neg hi, if_neg hi]
  rcases hg with ⟨rfl, rfl⟩ | ⟨rfl, hg⟩
  · simp only
    rw [hlin _ fun t => rfl, hfin]
    rfl
  · simp only
    rw [hlin _ hg, hfin]
    rfl

/-- **Disagreement.** The times of the samples include the end: neighbouring samples are further apart than
the sampling period, so that the signal sweeps to frequencies above the requested ones (beyond half the
sampling rate, if that was requested) when it is played at its sampling rate. -/
theorem C100_time_step (fs n : ℕ) (hfs : 0 < fs) (hn : 2 ≤ n) :
    (1 : ℝ) / fs < ((n : ℝ) / fs) / (roundHalf (fs * ((n : ℝ) / fs)) - 1 : ℕ) := by
  have hfs' : (0 : ℝ) < fs := by exact_mod_cast hfs
  rw [show (fs : ℝ) * ((n : ℝ) / fs) = n by field_simp, roundHalf_nat]
  have h1 : (0 : ℝ) < ((n - 1 : ℕ) : ℝ) := by exact_mod_cast (by omega : 0 < n - 1)
  have h2 : ((n - 1 : ℕ) : ℝ) < n := by exact_mod_cast (by omega : n - 1 < n)
  rw [div_right_comm]
  exact div_lt_div_of_pos_right ((one_lt_div h1).2 h2) hfs'

/-- Ranges outside the allowed one and negative paddings are refused. -/
theorem C100_refused (fs : ℕ) (type : ChirpType) (a b len db : ℝ) (fade : Option FadeType) (phi pad : ℝ)
    (h : a ≤ 0 ∨ b ≤ 0 ∨ (fs / 2 : ℕ) < a ∨ (fs / 2 : ℕ) < b ∨ pad < 0) :
    chirp fs type (some (a, b)) len db fade phi pad = .error .assertionError := by
  unfold chirp
  simp only [chirpRange, Option.isSome_some, true_and]
  by_cases h1 : ¬ (0 < min a b ∧ max a b ≤ (fs / 2 : ℕ))
  · rw [if_pos h1]
  · rw [if_neg h1]
    obtain ⟨h2, h3⟩ := not_not.1 h1
    rw [lt_min_iff] at h2
    rw [max_le_iff] at h3
    rw [if_pos]
    rcases h with h | h | h | h | h
    · exact absurd h2.1 (not_lt.2 h)
    · exact absurd h2.2 (not_lt.2 h)
    · exact absurd h3.1 (not_le.2 h)
    · exact absurd h3.2 (not_le.2 h)
    · exact ⟨h.ne, not_lt.2 h.le⟩

/-- **Disagreement.** The synchronized chirp ignores the phase offset. -/
theorem C100_sync_phase (fs : ℕ) (range : Option (ℝ × ℝ)) (len db : ℝ) (fade : Option FadeType)
    (phi psi pad : ℝ) :
    chirp fs .syncLog range len db fade phi pad = chirp fs .syncLog range len db fade psi pad := rfl

/-- **Disagreement.** A synchronized chirp that would be shorter than half a step of the sweep rate fails
with ValueError. -/
theorem C100_sync_short (fs : ℕ) (a b len db : ℝ) (fade : Option FadeType) (phi : ℝ) (ha : 0 < a) (hab : a < b)
    (hb : b ≤ (fs / 2 : ℕ)) (h : roundHalf (a * len / Real.log (b / a)) = 0) :
    chirp fs .syncLog (some (a, b)) len db fade phi 0 = .error .valueError := by
  have hq0 : 0 < Real.log (b / a) := Real.log_pos ((one_lt_div ha).2 hab)
  have hr : roundHalf 0 = 0 := by
    have := roundHalf_nat 0
    simpa using this
  unfold chirp
  simp only [chirpRange, min_eq_left hab.le, max_eq_right hab.le]
  rw [if_neg (fun h => h.2 ⟨ha, hb⟩), if_neg (by simp)]
  unfold syncLogChirp
  simp only
  rw [if_neg hq0.ne']
  simp only [h, Nat.cast_zero, zero_div, zero_mul, hr]
  simp [linspace, finish, normVec, bind, Except.bind, Except.map]

/-- **Disagreement.** The synchronized chirp can be longer than requested and is then cut off: from 1 Hz to
`e` Hz in half a second at 8 Hz, the call returns four samples, half a second, of a chirp whose duration is
reported as one second. -/
theorem C100_sync_truncated : ∃ y, chirp 8 .syncLog (some (1, Real.exp 1)) (1 / 2) 0 none 0 0 =
    .ok (y, some 1) ∧ y.length = 4 := by
  have he : Real.exp 1 ≤ 4 := (Real.exp_one_lt_d9.trans (by norm_num)).le
  have he1 : (1 : ℝ) ≤ Real.exp 1 := Real.one_le_exp (by norm_num)
  have hr : roundHalf (1 * (1 / 2) / Real.log (Real.exp 1 / 1)) = 1 := by
    rw [div_one, Real.log_exp]
    unfold roundHalf
    norm_num
  have hr1 : roundHalf 1 = 1 := by simpa using roundHalf_nat 1
  have hr8 : roundHalf (1 * ((8 : ℕ) : ℝ)) = 8 := by
    rw [one_mul, roundHalf_nat]
  have hs : ∃ td : List ℝ, syncLogChirp 1 (Real.exp 1) (1 / 2) 8 = .ok (td.map some, 1) ∧
      td.length = 8 ∧ ∃ P, IsPeak td P ∧ P ≠ 0 := by
    unfold syncLogChirp
    simp only [hr]
    rw [if_neg (by rw [div_one, Real.log_exp]; norm_num)]
    simp only [div_one, Real.log_exp, Nat.cast_one, mul_one, hr1, one_mul]
    set td : List ℝ := (linspace 0 1 8).map fun t => Real.sin (2 * Real.pi * (Real.exp t - 1)) with htd
    have hlen : td.length = 8 := by simp [htd, linspace]
    have hne : td ≠ [] := by
      intro h
      rw [h] at hlen
      cases hlen
    obtain ⟨P, -, hP⟩ := peakVec_spec td hne
    refine ⟨td, ?_, hlen, P, hP, ?_⟩
    · rw [roundHalf_nat, htd, List.map_map]
      rfl
    · intro h0
      have h1 : Real.sin (2 * Real.pi * (Real.exp (1 / 7) - 1)) ∈ td := by
        rw [htd]
        refine List.mem_map.2 ⟨1 / 7, ?_, rfl⟩
        unfold linspace
        exact List.mem_map.2 ⟨1, by decide, by norm_num⟩
      have h2 := hP.1 _ h1
      rw [h0] at h2
      have h3 : 0 < Real.sin (2 * Real.pi * (Real.exp (1 / 7) - 1)) := by
        have hpi := Real.pi_pos
        have l1 : (1 : ℝ) < Real.exp (1 / 7) := Real.one_lt_exp_iff.2 (by norm_num)
        have l2 : Real.exp (1 / 7) < 3 / 2 := by
          have : Real.exp (1 / 7) ^ 7 = Real.exp 1 := by
            rw [← Real.exp_nat_mul]
            norm_num
          by_contra h
          have : (3 / 2 : ℝ) ^ 7 ≤ Real.exp (1 / 7) ^ 7 := pow_le_pow_left₀ (by norm_num) (not_lt.1 h) 7
          have h9 := Real.exp_one_lt_d9
          norm_num at this
          linarith
        refine Real.sin_pos_of_pos_of_lt_pi ?_ ?_
        · have : 0 < Real.exp (1 / 7) - 1 := by linarith
          positivity
        · nlinarith
      rw [abs_of_pos h3] at h2
      linarith
  obtain ⟨td, h1, h2, P, hP, hP0⟩ := hs
  obtain ⟨e, -, -, h3⟩ := finish_value td P hP hP0 (1 / 2) 0 none 8 4 (.inl rfl)
  have hl : roundHalf (((8 : ℕ) : ℝ) * (1 / 2)) + 0 = 4 := by
    rw [show ((8 : ℕ) : ℝ) * (1 / 2) = ((4 : ℕ) : ℝ) by norm_num, roundHalf_nat]
  unfold chirp
  simp only [chirpRange, min_eq_left he1, max_eq_right he1]
  rw [if_neg (fun h => h.2 ⟨by norm_num, by norm_num; exact he⟩), if_neg (by simp)]
  simp only [h1, ne_eq, not_true_eq_false, if_false, hl, h3]
  exact ⟨_, rfl, by simp⟩

/-- **Disagreement.** A sweep can be silent at all its samples, so that the level cannot be met: because the
sample times include the end, the constant sweep at `(l - 1)/(2 length)`, which is below half the sampling
rate, meets the zeros of the sine only.  In exact arithmetic the result is undefined; the code scales rounding
errors up to the requested level. -/
theorem C100_silent (h l : ℕ) (hh : 0 < h) (hl : 2 ≤ l) (db : ℝ) :
    ∃ len f : ℝ, roundHalf ((2 * h : ℕ) * len) = l ∧ 0 < f ∧ f < h ∧
      chirp (2 * h) .linear (some (f, f)) len db none 0 0 = .ok (List.replicate l none, none) := by
  have hh' : (0 : ℝ) < h := by exact_mod_cast hh
  have hl' : (0 : ℝ) < l := by exact_mod_cast (by omega : 0 < l)
  have hl1 : (0 : ℝ) < ((l - 1 : ℕ) : ℝ) := by exact_mod_cast (by omega : 0 < l - 1)
  have hl2 : ((l - 1 : ℕ) : ℝ) < l := by exact_mod_cast (by omega : l - 1 < l)
  have hlen : roundHalf ((2 * h : ℕ) * ((l : ℝ) / (2 * h))) = l := by
    rw [show (((2 * h : ℕ) : ℝ) * ((l : ℝ) / (2 * h))) = l by push_cast; field_simp, roundHalf_nat]
  have hf : ((l - 1 : ℕ) : ℝ) * h / l < h := by
    rw [div_lt_iff₀ hl', mul_comm]
    exact mul_lt_mul_of_pos_left hl2 hh'
  refine ⟨(l : ℝ) / (2 * h), ((l - 1 : ℕ) : ℝ) * h / l, hlen, by positivity, hf, ?_⟩
  unfold chirp
  simp only [chirpRange, min_self, max_self]
  rw [if_neg (fun h' => h'.2 ⟨by positivity, by
    rw [Nat.mul_div_cancel_left h (by norm_num)]; exact hf.le⟩), if_neg (by simp)]
  simp only [ne_eq, not_true_eq_false, if_false, add_zero, hlen]
  have hz : (linspace 0 ((l : ℝ) / (2 * h)) l).map (fun t => some (linearChirp (((l - 1 : ℕ) : ℝ) * h / l)
      (((l - 1 : ℕ) : ℝ) * h / l) ((l : ℝ) / (2 * h)) 0 t)) = List.replicate l (some 0) := by
    unfold linspace
    rw [List.map_map]
    apply List.ext_getElem
    · simp
    · intro i h1 h2
      simp only [List.getElem_map, List.getElem_range, List.getElem_replicate, Function.comp_apply, linearChirp]
      congr 1
      refine Eq.trans ?_ (Real.sin_nat_mul_pi i)
      congr 1
      field_simp
      ring
  rw [hz]
  unfold finish
  rw [normVec_nan _ db (by simp; omega) (.inr fun v hv => List.eq_of_mem_replicate hv)]
  simp only [bind, Except.bind, pure, Except.pure, Except.map, List.length_replicate]
  congr 2
  apply List.ext_getElem
  · simp
  · intro i h1 h2
    simp only [List.getElem_map, List.getElem_range, List.getElem_replicate]
    rw [List.getD_eq_getElem _ _ (by simpa using h2)]
    simp

/-! ### Examples -/

/-- A cosine sweep of one second meets the hypotheses: its first sample is 1. -/
example : linearChirp 20 20000 1 (Real.pi / 2) 0 = 1 := by
  simp [linearChirp]

example : 1 ≤ roundHalf (1 * 1 / Real.log (Real.exp 1 / 1)) := by
  rw [div_one, Real.log_exp, show (1 * 1 / 1 : ℝ) = ((1 : ℕ) : ℝ) by norm_num, roundHalf_nat]

end Verif.Generators

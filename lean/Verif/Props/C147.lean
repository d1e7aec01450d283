import Verif.Model.SignalRatios
import Mathlib.Tactic.FieldSimp
import Mathlib.Tactic.Linarith
import Mathlib.Tactic.Ring

/-!
# C147: signal-to-noise and signal-to-distortion ratios of signals
-/

namespace Verif.C147

open Finset Verif.Ratios Verif.Distances

/-! ## Specification -/

/-- Mean power of `n` samples. -/
noncomputable def power (n : ℕ) (x : ℕ → ℝ) : ℝ := (∑ i ∈ range n, x i ^ 2) / n

/-- Mean value of `n` samples. -/
noncomputable def mean (n : ℕ) (x : ℕ → ℝ) : ℝ := (∑ i ∈ range n, x i) / n

/-- Power ratio in decibels. -/
noncomputable def dB (p q : ℝ) : ℝ := 10 * Real.logb 10 (p / q)

/-- The same signal with one channel repeated `k` times. -/
def repeated (s : Sig) (k : ℕ) : Sig := ⟨s.fs, s.A.rows, k, fun r _ => s.A.val r 0⟩

/-- Every channel multiplied by its own gain. -/
def gained (g : ℕ → ℝ) (s : Sig) : Sig := ⟨s.fs, s.A.rows, s.A.cols, fun r c => g c * s.A.val r c⟩

/-- Every channel with its own offset. -/
def offset (d : ℕ → ℝ) (s : Sig) : Sig := ⟨s.fs, s.A.rows, s.A.cols, fun r c => s.A.val r c + d c⟩

/-! ## Levels -/

theorem sum_dev (n : ℕ) (hn : 0 < n) (x : ℕ → ℝ) :
    (∑ i ∈ range n, (x i - mean n x) ^ 2) / n = power n x - mean n x ^ 2 := by
  have hn' : (n : ℝ) ≠ 0 := by positivity
  have h : ∑ i ∈ range n, (x i - mean n x) ^ 2 =
      ∑ i ∈ range n, x i ^ 2 - 2 * mean n x * ∑ i ∈ range n, x i + n * mean n x ^ 2 := by
    have e : ∀ i ∈ range n, (x i - mean n x) ^ 2 =
        x i ^ 2 - 2 * mean n x * x i + mean n x ^ 2 := fun i _ => by ring
    rw [sum_congr rfl e, sum_add_distrib, sum_sub_distrib, ← mul_sum, sum_const, card_range,
      nsmul_eq_mul]
  have hs : ∑ i ∈ range n, x i = n * mean n x := by
    unfold mean
    field_simp
  rw [h, hs]
  unfold power
  field_simp
  ring

theorem rms_sq (n : ℕ) (hn : 0 < n) (x : ℕ → ℝ) : rms n x ^ 2 = power n x - mean n x ^ 2 := by
  unfold rms
  rw [Real.sq_sqrt (div_nonneg (sum_nonneg fun i _ => sq_nonneg _) (Nat.cast_nonneg n))]
  exact sum_dev n hn x

theorem rms_nonneg (n : ℕ) (x : ℕ → ℝ) : 0 ≤ rms n x := Real.sqrt_nonneg _

theorem rms_gain (n : ℕ) (g : ℝ) (x : ℕ → ℝ) : rms n (fun i => g * x i) = |g| * rms n x := by
  unfold rms
  rw [← Real.sqrt_sq_eq_abs, ← Real.sqrt_mul (sq_nonneg g)]
  congr 1
  rw [← mul_div_assoc, mul_sum]
  congr 1
  refine sum_congr rfl fun i _ => ?_
  rw [← mul_sum, mul_div_assoc]
  ring

theorem rms_offset (n : ℕ) (d : ℝ) (x : ℕ → ℝ) : rms n (fun i => x i + d) = rms n x := by
  rcases Nat.eq_zero_or_pos n with rfl | hn
  · simp [rms]
  have hn' : (n : ℝ) ≠ 0 := by positivity
  unfold rms
  congr 2
  refine sum_congr rfl fun i _ => ?_
  rw [sum_add_distrib, sum_const, card_range, nsmul_eq_mul, add_div, mul_div_cancel_left₀ _ hn']
  ring

theorem ratio_sq (a b v : ℝ) (ha : 0 ≤ a) (hb : 0 ≤ b) (h : ratio a b = some v) :
    0 < a ∧ 0 < b ∧ v = dB (a ^ 2) (b ^ 2) := by
  unfold ratio at h
  split_ifs at h with h0
  push Not at h0
  injection h with h
  have ha' : 0 < a := lt_of_le_of_ne ha h0.1.symm
  have hb' : 0 < b := lt_of_le_of_ne hb h0.2.symm
  refine ⟨ha', hb', ?_⟩
  rw [← h]
  unfold dB
  rw [← div_pow, Real.logb_pow]
  push_cast
  ring

/-! ## SNR -/

/-- `snr` accepts two signals exactly if the rates match and the noise has one channel or as many
as the signal; it returns one value per channel of the signal.  The lengths need not match. -/
theorem C147_snr_accepted (s n : Sig) :
    ((∃ v, snr s n = .ok v) ↔ s.fs = n.fs ∧ (n.A.cols = 1 ∨ s.A.cols = n.A.cols)) ∧
      (∀ v, snr s n = .ok v → v.length = s.A.cols) ∧
      ∀ e, snr s n = .error e → e = .assertionError := by
  unfold snr
  by_cases h1 : s.fs = n.fs <;> by_cases h2 : n.A.cols = 1 <;>
    by_cases h3 : s.A.cols = n.A.cols <;>
    simp [h1, h2, h3]

theorem snr_ok (s n : Sig) (v : List (Option ℝ)) (h : snr s n = .ok v) :
    ¬ s.fs ≠ n.fs ∧ ¬ (n.A.cols ≠ 1 ∧ s.A.cols ≠ n.A.cols) ∧
      (List.range s.A.cols).map (fun (c : ℕ) => ratio (rms s.A.rows fun r => s.A.val r c)
        (rms n.A.rows fun r => n.A.val r (if n.A.cols = 1 then 0 else c))) = v := by
  unfold snr at h
  by_cases h1 : s.fs ≠ n.fs
  · rw [if_pos h1] at h
    cases h
  by_cases h2 : n.A.cols ≠ 1 ∧ s.A.cols ≠ n.A.cols
  · rw [if_neg h1, if_pos h2] at h
    cases h
  rw [if_neg h1, if_neg h2] at h
  injection h with h
  exact ⟨h1, h2, h⟩

theorem sdr_ok (t m : Sig) (v : List (Option ℝ)) (h : siSdr t m = .ok v) :
    m.A.rows = t.A.rows ∧
      (List.range m.A.cols).map (fun (c : ℕ) => sisdr t.A.rows
        (fun r => t.A.val r (if t.A.cols = 1 then 0 else c)) fun r => m.A.val r c) = v := by
  unfold siSdr at h
  by_cases h1 : m.fs ≠ t.fs
  · rw [if_pos h1] at h
    cases h
  by_cases h2 : t.A.cols ≠ 1 ∧ m.A.cols ≠ t.A.cols
  · rw [if_neg h1, if_pos h2] at h
    cases h
  by_cases h3 : m.A.rows = t.A.rows
  · rw [if_neg h1, if_neg h2, if_neg (by simp [h3])] at h
    injection h with h
    exact ⟨h3, h⟩
  · rw [if_neg h1, if_neg h2, if_pos h3] at h
    cases h

theorem snr_get (s n : Sig) (v : List (Option ℝ)) (h : snr s n = .ok v) (c : ℕ) (hc : c < s.A.cols) :
    v[c]? = some (ratio (rms s.A.rows fun r => s.A.val r c)
      (rms n.A.rows fun r => n.A.val r (if n.A.cols = 1 then 0 else c))) := by
  rw [← (snr_ok s n v h).2.2]
  simp [hc]

/-- The value of a channel is the ratio of the variances: the powers without the mean values.  A
value is there exactly if neither of the two is constant. -/
theorem C147_snr_value (s n : Sig) (v : List (Option ℝ)) (h : snr s n = .ok v)
    (hs : 0 < s.A.rows) (hn : 0 < n.A.rows) (c : ℕ) (hc : c < s.A.cols) :
    let x := fun r => s.A.val r c
    let y := fun r => n.A.val r (if n.A.cols = 1 then 0 else c)
    let p := power s.A.rows x - mean s.A.rows x ^ 2
    let q := power n.A.rows y - mean n.A.rows y ^ 2
    0 ≤ p ∧ 0 ≤ q ∧ v[c]? = some (if p = 0 ∨ q = 0 then none else some (dB p q)) := by
  intro x y p q
  have e1 : p = rms s.A.rows x ^ 2 := (rms_sq _ hs x).symm
  have e2 : q = rms n.A.rows y ^ 2 := (rms_sq _ hn y).symm
  refine ⟨e1 ▸ sq_nonneg _, e2 ▸ sq_nonneg _, ?_⟩
  rw [snr_get s n v h c hc]
  congr 1
  by_cases h0 : rms s.A.rows x = 0 ∨ rms n.A.rows y = 0
  · have h0' : p = 0 ∨ q = 0 := by
      rcases h0 with h0 | h0
      · left; rw [e1, h0]; norm_num
      · right; rw [e2, h0]; norm_num
    rw [if_pos h0']
    unfold ratio
    exact if_pos h0
  · have hr : ratio (rms s.A.rows x) (rms n.A.rows y) =
        some (20 * Real.logb 10 (rms s.A.rows x / rms n.A.rows y)) := if_neg h0
    have := ratio_sq _ _ _ (rms_nonneg _ _) (rms_nonneg _ _) hr
    have h0' : ¬ (p = 0 ∨ q = 0) := by
      rw [e1, e2]
      push Not
      exact ⟨pow_ne_zero 2 this.1.ne', pow_ne_zero 2 this.2.1.ne'⟩
    rw [if_neg h0']
    show ratio (rms s.A.rows x) (rms n.A.rows y) = _
    rw [hr, this.2.2, e1, e2]

/-- For channels without offset it is the ratio of the powers (missing: channels with an offset,
see the next theorem). -/
theorem C147_snr_power_partial (s n : Sig) (v : List (Option ℝ)) (h : snr s n = .ok v)
    (hs : 0 < s.A.rows) (hn : 0 < n.A.rows) (c : ℕ) (hc : c < s.A.cols) :
    let x := fun r => s.A.val r c
    let y := fun r => n.A.val r (if n.A.cols = 1 then 0 else c)
    mean s.A.rows x = 0 → mean n.A.rows y = 0 → power s.A.rows x ≠ 0 → power n.A.rows y ≠ 0 →
      v[c]? = some (some (dB (power s.A.rows x) (power n.A.rows y))) := by
  intro x y hx hy hp hq
  obtain ⟨-, -, h3⟩ := C147_snr_value s n v h hs hn c hc
  have e1 : mean s.A.rows (fun r => s.A.val r c) = 0 := hx
  have e2 : mean n.A.rows (fun r => n.A.val r (if n.A.cols = 1 then 0 else c)) = 0 := hy
  rw [e1, e2] at h3
  rw [h3, if_neg]
  · norm_num
    exact rfl
  · push Not
    constructor
    · simpa using hp
    · simpa using hq

/-- Offsets of the signal and of the noise do not change the result. -/
theorem C147_snr_offset (s n : Sig) (d e : ℕ → ℝ) :
    snr (offset d s) (offset e n) = snr s n := by
  unfold snr offset
  simp only [rms_offset]

/-- Hence with an offset the result is not the ratio of the powers: for every signal without
offset, every noise and every offset that is not zero the ratio of the powers is larger. -/
theorem C147_snr_offset_wrong (s n : Sig) (v : List (Option ℝ)) (h : snr s n = .ok v)
    (hs : 0 < s.A.rows) (hn : 0 < n.A.rows) (c : ℕ) (hc : c < s.A.cols) (d : ℝ) (hd : d ≠ 0)
    (hx : mean s.A.rows (fun r => s.A.val r c) = 0)
    (hy : mean n.A.rows (fun r => n.A.val r (if n.A.cols = 1 then 0 else c)) = 0)
    (hp : power s.A.rows (fun r => s.A.val r c) ≠ 0)
    (hq : power n.A.rows (fun r => n.A.val r (if n.A.cols = 1 then 0 else c)) ≠ 0) :
    ∃ w, snr (offset (fun _ => d) s) n = .ok v ∧ v[c]? = some (some w) ∧
      w < dB (power s.A.rows fun r => s.A.val r c + d)
        (power n.A.rows fun r => n.A.val r (if n.A.cols = 1 then 0 else c)) := by
  have h0 : snr (offset (fun _ => d) s) n = snr s n := by
    have := C147_snr_offset s n (fun _ => d) (fun _ => 0)
    simpa [offset] using this
  refine ⟨_, h0.trans h, C147_snr_power_partial s n v h hs hn c hc hx hy hp hq, ?_⟩
  have hn' : (s.A.rows : ℝ) ≠ 0 := by positivity
  have hnn : ∀ m x, 0 ≤ power m x := fun m x =>
    div_nonneg (sum_nonneg fun i _ => sq_nonneg _) (Nat.cast_nonneg m)
  have hp' := lt_of_le_of_ne (hnn _ _) hp.symm
  have hq' := lt_of_le_of_ne (hnn _ _) hq.symm
  have hsum : ∑ r ∈ range s.A.rows, s.A.val r c = 0 := by
    have := hx
    unfold mean at this
    exact (div_eq_zero_iff.mp this).resolve_right hn'
  have e : power s.A.rows (fun r => s.A.val r c + d) =
      power s.A.rows (fun r => s.A.val r c) + d ^ 2 := by
    unfold power
    have e' : ∀ r ∈ range s.A.rows, (s.A.val r c + d) ^ 2 =
        s.A.val r c ^ 2 + 2 * d * s.A.val r c + d ^ 2 := fun r _ => by ring
    rw [sum_congr rfl e', sum_add_distrib, sum_add_distrib, ← mul_sum, hsum, sum_const, card_range,
      nsmul_eq_mul]
    field_simp
    ring
  rw [e]
  unfold dB
  have hd2 : 0 < d ^ 2 := by positivity
  have := Real.logb_lt_logb (by norm_num : (1 : ℝ) < 10) (div_pos hp' hq')
    (div_lt_div_of_pos_right (lt_add_of_pos_right _ hd2) hq')
  linarith

/-- Gains of the signal and of the noise add their levels. -/
theorem C147_snr_gain (s n : Sig) (g k : ℝ) (hg : g ≠ 0) (hk : k ≠ 0) (v : List (Option ℝ))
    (h : snr s n = .ok v) :
    snr (gained (fun _ => g) s) (gained (fun _ => k) n) =
      .ok (v.map fun o => o.map fun x => x + (20 * Real.logb 10 |g| - 20 * Real.logb 10 |k|)) := by
  obtain ⟨h1, h2, h⟩ := snr_ok s n v h
  unfold snr gained
  dsimp only
  rw [if_neg h1, if_neg h2, ← h, List.map_map]
  congr 1
  refine List.map_congr_left fun c _ => ?_
  simp only [Function.comp, rms_gain]
  generalize rms s.A.rows (fun r => s.A.val r c) = a
  generalize rms n.A.rows (fun r => n.A.val r (if n.A.cols = 1 then 0 else c)) = b
  have hg' : |g| ≠ 0 := abs_ne_zero.mpr hg
  have hk' : |k| ≠ 0 := abs_ne_zero.mpr hk
  unfold ratio
  by_cases h0 : a = 0 ∨ b = 0
  · have h0' : |g| * a = 0 ∨ |k| * b = 0 := by
      rcases h0 with h0 | h0 <;> simp [h0]
    rw [if_pos h0, if_pos h0']
    rfl
  · have h0' : ¬ (|g| * a = 0 ∨ |k| * b = 0) := by
      push Not at h0 ⊢
      exact ⟨mul_ne_zero hg' h0.1, mul_ne_zero hk' h0.2⟩
    rw [if_neg h0, if_neg h0']
    push Not at h0
    rw [Option.map_some, mul_div_mul_comm, Real.logb_mul (div_ne_zero hg' hk')
      (div_ne_zero h0.1 h0.2), Real.logb_div hg' hk']
    congr 1
    ring

/-- Signal and noise exchanged change the sign. -/
theorem C147_snr_swap (s n : Sig) (hc : s.A.cols = n.A.cols) (v : List (Option ℝ))
    (h : snr s n = .ok v) : snr n s = .ok (v.map fun o => o.map fun x => -x) := by
  obtain ⟨h1, h2, h⟩ := snr_ok s n v h
  unfold snr
  rw [if_neg (by push Not at h1 ⊢; exact h1.symm), if_neg (by simp [hc]), ← h, List.map_map, hc]
  congr 1
  refine List.map_congr_left fun c hcc => ?_
  have hcc' : c < n.A.cols := List.mem_range.mp hcc
  have hi : (if n.A.cols = 1 then 0 else c) = c := by
    split_ifs <;> omega
  simp only [Function.comp, hi]
  generalize rms s.A.rows (fun r => s.A.val r c) = a
  generalize rms n.A.rows (fun r => n.A.val r c) = b
  unfold ratio
  by_cases h0 : a = 0 ∨ b = 0
  · rw [if_pos h0, if_pos h0.symm]
    rfl
  · rw [if_neg h0, if_neg fun h => h0 h.symm, Option.map_some, ← inv_div, Real.logb_inv]
    congr 1
    ring

/-- A single channel of noise counts for all the channels. -/
theorem C147_snr_single_noise (s n : Sig) (h : n.A.cols = 1) :
    snr s n = snr s (repeated n s.A.cols) := by
  unfold snr repeated
  simp [h]

/-! ## SI-SDR -/

/-- `si_sdr` accepts two signals exactly if rates and lengths match and the target has one channel
or as many as the modified signal; it returns one value per channel of the modified signal. -/
theorem C147_sdr_accepted (t m : Sig) :
    ((∃ v, siSdr t m = .ok v) ↔
      t.fs = m.fs ∧ t.A.rows = m.A.rows ∧ (t.A.cols = 1 ∨ t.A.cols = m.A.cols)) ∧
      (∀ v, siSdr t m = .ok v → v.length = m.A.cols) ∧
      ∀ e, siSdr t m = .error e → e = .assertionError := by
  unfold siSdr
  by_cases h1 : m.fs = t.fs
  · by_cases h2 : t.A.cols ≠ 1 ∧ m.A.cols ≠ t.A.cols
    · rw [if_neg (by simp [h1]), if_pos h2]
      refine ⟨⟨fun ⟨v, h⟩ => (by cases h), fun h => ?_⟩, fun v h => (by cases h), fun e h => ?_⟩
      · rcases h.2.2 with h | h
        · exact absurd h h2.1
        · exact absurd h.symm h2.2
      · injection h with h
        exact h.symm
    · by_cases h3 : m.A.rows = t.A.rows
      · rw [if_neg (by simp [h1]), if_neg h2, if_neg (by simp [h3])]
        refine ⟨⟨fun _ => ⟨h1.symm, h3.symm, ?_⟩, fun _ => ⟨_, rfl⟩⟩, fun v h => ?_,
          fun e h => (by cases h)⟩
        · by_contra hc
          push Not at hc
          exact h2 ⟨hc.1, fun h => hc.2 h.symm⟩
        · injection h with h
          rw [← h]
          simp
      · rw [if_neg (by simp [h1]), if_neg h2, if_pos h3]
        refine ⟨⟨fun ⟨v, h⟩ => (by cases h), fun h => absurd h.2.1.symm h3⟩, fun v h => (by cases h),
          fun e h => ?_⟩
        injection h with h
        exact h.symm
  · rw [if_pos h1]
    refine ⟨⟨fun ⟨v, h⟩ => (by cases h), fun h => absurd h.1.symm h1⟩, fun v h => (by cases h),
      fun e h => ?_⟩
    injection h with h
    exact h.symm

/-- Closed form of the ratio: it depends on the three inner products only. -/
theorem sisdr_closed (n : ℕ) (s t : ℕ → ℝ) :
    sisdr n s t = if dot n s t = 0 ∨ dot n s s * dot n t t = dot n s t ^ 2 then none
      else some (dB (dot n s t ^ 2) (dot n s s * dot n t t - dot n s t ^ 2)) := by
  unfold sisdr
  by_cases h0 : dot n s s = 0
  · have hs : ∀ i ∈ range n, s i = 0 := by
      unfold dot at h0
      intro i hi
      have := (sum_eq_zero_iff_of_nonneg fun i _ => mul_self_nonneg (s i)).mp h0 i hi
      exact mul_self_eq_zero.mp this
    have hst : dot n s t = 0 := by
      unfold dot
      exact sum_eq_zero fun i hi => by rw [hs i hi, zero_mul]
    rw [if_pos h0, if_pos (Or.inl hst)]
  rw [if_neg h0]
  dsimp only
  set α := dot n s t / dot n s s with hα
  have hmul : α * dot n s s = dot n s t := div_mul_cancel₀ _ h0
  have hnum : (∑ i ∈ range n, (α * s i) ^ 2) = dot n s t ^ 2 / dot n s s := by
    have : ∑ i ∈ range n, (α * s i) ^ 2 = α ^ 2 * dot n s s := by
      unfold dot
      rw [mul_sum]
      exact sum_congr rfl fun i _ => by ring
    rw [this, hα]
    field_simp
  have hden : ∑ i ∈ range n, (α * s i - t i) ^ 2 =
      (dot n s s * dot n t t - dot n s t ^ 2) / dot n s s := by
    have : ∑ i ∈ range n, (α * s i - t i) ^ 2 = α ^ 2 * dot n s s - 2 * α * dot n s t
        + dot n t t := by
      unfold dot
      rw [mul_sum, mul_sum, ← sum_sub_distrib, ← sum_add_distrib]
      exact sum_congr rfl fun i _ => by ring
    rw [this, hα]
    field_simp
    ring
  rw [hnum, hden]
  have hz : (dot n s t ^ 2 / dot n s s = 0 ∨
      (dot n s s * dot n t t - dot n s t ^ 2) / dot n s s = 0) ↔
      (dot n s t = 0 ∨ dot n s s * dot n t t = dot n s t ^ 2) := by
    rw [div_eq_zero_iff, div_eq_zero_iff, sub_eq_zero, pow_eq_zero_iff (two_ne_zero)]
    simp [h0]
  simp only [hz]
  split_ifs
  · rfl
  · unfold dB
    rw [div_div_div_cancel_right₀ h0]

theorem dot_comm (n : ℕ) (s t : ℕ → ℝ) : dot n s t = dot n t s :=
  sum_congr rfl fun _ _ => mul_comm _ _

/-- Every channel of the modified signal is compared with its channel of the target or with the
only one, and the value is that of the squared correlation `c²` of the two: `c² / (1 - c²)`.  A
value is missing exactly if the channels are orthogonal or multiples of one another. -/
theorem C147_sdr_value (t m : Sig) (v : List (Option ℝ)) (h : siSdr t m = .ok v) (c : ℕ)
    (hc : c < m.A.cols) :
    let x := fun r => t.A.val r (if t.A.cols = 1 then 0 else c)
    let y := fun r => m.A.val r c
    let n := m.A.rows
    v[c]? = some (if dot n x y = 0 ∨ dot n x x * dot n y y = dot n x y ^ 2 then none
      else some (dB (dot n x y ^ 2) (dot n x x * dot n y y - dot n x y ^ 2))) := by
  intro x y n
  obtain ⟨h3, h⟩ := sdr_ok t m v h
  rw [← h]
  simp only [List.getElem?_map, List.getElem?_range hc, Option.map_some, ← h3]
  rw [sisdr_closed]

/-- Target and modified signal can be exchanged. -/
theorem C147_sdr_swap (t m : Sig) (hc : t.A.cols = m.A.cols) : siSdr t m = siSdr m t := by
  unfold siSdr
  by_cases h1 : m.fs = t.fs
  · by_cases h3 : m.A.rows = t.A.rows
    · rw [if_neg (by simp [h1]), if_neg (by simp [hc]), if_neg (by simp [h3]), if_neg (by simp [h1]),
        if_neg (by simp [hc]), if_neg (by simp [h3]), hc]
      congr 1
      refine List.map_congr_left fun c hcc => ?_
      have hcc' : c < m.A.cols := List.mem_range.mp hcc
      have hi : (if m.A.cols = 1 then 0 else c) = c := by
        split_ifs <;> omega
      rw [hi, sisdr_closed, sisdr_closed, h3, dot_comm _ (fun r => m.A.val r c) (fun r => t.A.val r c),
        mul_comm (dot _ (fun r => m.A.val r c) _)]
    · rw [if_neg (by simp [h1]), if_neg (by simp [hc]), if_pos h3, if_neg (by simp [h1]),
        if_neg (by simp [hc]), if_pos fun h => h3 h.symm]
  · rw [if_pos h1, if_pos fun h => h1 h.symm]

/-- A single channel of the target counts for all the channels. -/
theorem C147_sdr_single_target (t m : Sig) (h : t.A.cols = 1) :
    siSdr t m = siSdr (repeated t m.A.cols) m := by
  unfold siSdr repeated
  simp [h]

/-- The ratio of target and distortion: for a modified signal `a t + e` with a distortion `e`
orthogonal to the target, the value is the ratio of the energies of `a t` and of `e`. -/
theorem C147_sdr_distortion (t m : Sig) (v : List (Option ℝ)) (h : siSdr t m = .ok v) (c : ℕ)
    (hc : c < m.A.cols) (a : ℝ) (e : ℕ → ℝ) (ha : a ≠ 0)
    (hm : ∀ r < m.A.rows, m.A.val r c = a * t.A.val r (if t.A.cols = 1 then 0 else c) + e r)
    (ho : ∑ r ∈ range m.A.rows, t.A.val r (if t.A.cols = 1 then 0 else c) * e r = 0)
    (ht : ∑ r ∈ range m.A.rows, t.A.val r (if t.A.cols = 1 then 0 else c) ^ 2 ≠ 0)
    (he : ∑ r ∈ range m.A.rows, e r ^ 2 ≠ 0) :
    v[c]? = some (some (dB
      (∑ r ∈ range m.A.rows, (a * t.A.val r (if t.A.cols = 1 then 0 else c)) ^ 2)
      (∑ r ∈ range m.A.rows, e r ^ 2))) := by
  have hv := C147_sdr_value t m v h c hc
  dsimp only at hv
  rw [hv]
  set x := fun r => t.A.val r (if t.A.cols = 1 then 0 else c) with hx
  set n := m.A.rows
  have ho' : ∑ r ∈ range n, x r * e r = 0 := ho
  have ht' : dot n x x ≠ 0 := by
    intro h0
    apply ht
    rw [← h0]
    exact sum_congr rfl fun i _ => by rw [hx]; ring
  have h1 : dot n x (fun r => m.A.val r c) = a * dot n x x := by
    unfold dot
    rw [mul_sum, ← add_zero (∑ i ∈ range n, a * (x i * x i)), ← ho', ← sum_add_distrib]
    refine sum_congr rfl fun i hi => ?_
    simp only [hm i (mem_range.mp hi)]
    show x i * (a * x i + e i) = _
    ring
  have h2 : dot n (fun r => m.A.val r c) (fun r => m.A.val r c) =
      a ^ 2 * dot n x x + ∑ r ∈ range n, e r ^ 2 := by
    unfold dot
    have : ∑ r ∈ range n, 2 * a * (x r * e r) = 0 := by rw [← mul_sum, ho', mul_zero]
    rw [mul_sum, ← add_zero (∑ i ∈ range n, a ^ 2 * (x i * x i)), ← this, ← sum_add_distrib,
      ← sum_add_distrib]
    refine sum_congr rfl fun i hi => ?_
    simp only [hm i (mem_range.mp hi)]
    show (a * x i + e i) * (a * x i + e i) = _
    ring
  have h3 : (∑ r ∈ range n, (a * t.A.val r (if t.A.cols = 1 then 0 else c)) ^ 2) =
      a ^ 2 * dot n x x := by
    unfold dot
    rw [mul_sum]
    exact sum_congr rfl fun i _ => by rw [hx]; ring
  have h4 : dot n x x * dot n (fun r => m.A.val r c) (fun r => m.A.val r c) -
      dot n x (fun r => m.A.val r c) ^ 2 = dot n x x * ∑ r ∈ range n, e r ^ 2 := by
    rw [h1, h2]
    ring
  rw [if_neg]
  · rw [h3, h4, h1]
    unfold dB
    congr 4
    rw [mul_pow, sq (dot n x x), ← mul_assoc, mul_comm (dot n x x) (∑ r ∈ range n, e r ^ 2),
      mul_div_mul_right _ _ ht']
  · push Not
    refine ⟨by rw [h1]; exact mul_ne_zero ha ht', fun h0 => ?_⟩
    rw [← sub_eq_zero, h4] at h0
    exact mul_ne_zero ht' he h0

/-- Gains of the channels do not matter. -/
theorem C147_sdr_gain (t m : Sig) (g k : ℕ → ℝ) (hg : ∀ c, g c ≠ 0)
    (hk : ∀ c, k c ≠ 0) : siSdr (gained g t) (gained k m) = siSdr t m := by
  have key : ∀ (n : ℕ) (x y : ℕ → ℝ) (a b : ℝ), a ≠ 0 → b ≠ 0 →
      sisdr n (fun i => a * x i) (fun i => b * y i) = sisdr n x y := by
    intro n x y a b ha hb
    have d : ∀ (u w : ℕ → ℝ) (p q : ℝ), dot n (fun i => p * u i) (fun i => q * w i) =
        p * q * dot n u w := by
      intro u w p q
      unfold dot
      rw [mul_sum]
      exact sum_congr rfl fun i _ => by ring
    rw [sisdr_closed, sisdr_closed, d, d, d]
    have hab : (a * b) ^ 2 ≠ 0 := pow_ne_zero 2 (mul_ne_zero ha hb)
    have e1 : a * a * dot n x x * (b * b * dot n y y) = (a * b) ^ 2 * (dot n x x * dot n y y) := by
      ring
    have e2 : (a * b * dot n x y) ^ 2 = (a * b) ^ 2 * dot n x y ^ 2 := by ring
    rw [e1, e2, ← mul_sub]
    have hz : (a * b * dot n x y = 0 ∨
        (a * b) ^ 2 * (dot n x x * dot n y y) = (a * b) ^ 2 * dot n x y ^ 2) ↔
        (dot n x y = 0 ∨ dot n x x * dot n y y = dot n x y ^ 2) := by
      rw [mul_right_inj' hab, mul_eq_zero]
      simp [ha, hb]
    simp only [hz]
    unfold dB
    rw [mul_div_mul_left _ _ hab]
  unfold siSdr gained
  dsimp only
  simp only [key _ _ _ _ _ (hg _) (hk _)]

/-! ## Examples -/

/-- A signal with two channels and different offsets. -/
def sigA : Sig := ⟨8000, 2, 2, fun r c => if r = 0 then 1 + c else -1 + c⟩

/-- Noise with one channel. -/
noncomputable def sigB : Sig := ⟨8000, 2, 1, fun r _ => if r = 0 then 1 / 10 else -1 / 10⟩

/-- A target orthogonal to nothing. -/
def sigC : Sig := ⟨8000, 2, 1, fun r _ => if r = 0 then 1 else 0⟩

example : (∃ v, snr sigA sigB = .ok v) ∧ mean 2 (fun r => sigA.A.val r 0) = 0 ∧
    mean 2 (fun r => sigB.A.val r 0) = 0 ∧ power 2 (fun r => sigA.A.val r 0) ≠ 0 ∧
    power 2 (fun r => sigB.A.val r 0) ≠ 0 := by
  refine ⟨(C147_snr_accepted _ _).1.mpr ⟨rfl, Or.inl rfl⟩, ?_, ?_, ?_, ?_⟩ <;>
    norm_num [mean, power, sigA, sigB, sum_range_succ]

/-- The distortion `(0, -1)` of the first channel of `sigA` with respect to `sigC`. -/
example : (∃ v, siSdr sigC sigA = .ok v) ∧
    (∀ r < 2, sigA.A.val r 0 = 1 * sigC.A.val r 0 + (if r = 0 then 0 else -1 : ℝ)) ∧
    ∑ r ∈ range 2, sigC.A.val r 0 * (if r = 0 then 0 else -1 : ℝ) = 0 ∧
    ∑ r ∈ range 2, sigC.A.val r 0 ^ 2 ≠ 0 ∧
    ∑ r ∈ range 2, (if r = 0 then 0 else -1 : ℝ) ^ 2 ≠ 0 := by
  refine ⟨(C147_sdr_accepted _ _).1.mpr ⟨rfl, rfl, Or.inl rfl⟩, ?_, ?_, ?_, ?_⟩
  · intro r hr
    rcases r with _ | r <;> norm_num [sigA, sigC]
  · norm_num [sigC, sum_range_succ]
  · norm_num [sigC, sum_range_succ]
  · norm_num [sum_range_succ]

end Verif.C147

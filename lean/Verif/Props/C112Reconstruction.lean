import Verif.Props.C112
import Mathlib.Topology.Algebra.InfiniteSum.NatInt

/-!
# C112: reconstruction with gammatone filter banks
-/

namespace Verif.Props.C112

open Gammatone SignalData

/-! ### Delays and phase factors -/

/-- `tone` of a band of a bank does not vanish. -/
theorem tone_ne_zero (fs : ℕ) (f : ℝ) (hfs : 0 < fs) (hf : 0 ≤ f) (n : ℕ) :
    tone (coefficient fs f) (normalization (coefficient fs f)) n ≠ 0 := by
  have hl := lam_lt_one fs f hfs hf
  have h1 : normalization (coefficient fs f) ≠ 0 := by
    unfold normalization
    rw [norm_coefficient]
    have : 1 - lam fs f ≠ 0 := by linarith
    positivity
  have h2 : coefficient fs f ≠ 0 := by
    rw [← norm_pos_iff, norm_coefficient]
    exact lam_pos fs f
  unfold tone
  refine mul_ne_zero (mul_ne_zero (by exact_mod_cast h1) ?_) (pow_ne_zero _ h2)
  exact_mod_cast (Nat.choose_pos (n := n + 3) (k := 3) (by omega)).ne'

/-- Every band has the same delay, the number of samples in 4 ms, whatever its centre frequency; the
phase factors have magnitude 1. -/
theorem C112_delays (range : List ℝ) (resolution : ℝ) (fs : ℕ) (fb : Gammatone.Bank)
    (h : create range resolution (some fs) = .ok fb) (h0 : ∀ f ∈ range, 0 ≤ f) :
    ∃ D : ℕ, |(D : ℝ) - 0.004 * fs| ≤ 1 / 2 ∧
      ∀ b ∈ fb.bands, b.delay = D ∧ ‖b.phase‖ = 1 := by
  refine ⟨delaySamples fs, ?_, fun b hb => ?_⟩
  · unfold delaySamples
    have hx : (0 : ℝ) ≤ 0.004 * fs := by positivity
    have h1 := Int.floor_le (0.004 * (fs : ℝ))
    have h2 := Int.lt_floor_add_one (0.004 * (fs : ℝ))
    have h3 : 0 ≤ ⌊0.004 * (fs : ℝ)⌋ := Int.floor_nonneg.mpr hx
    have key : 0 ≤ OctaveBands.roundEven (0.004 * fs) ∧
        |(OctaveBands.roundEven (0.004 * fs) : ℝ) - 0.004 * fs| ≤ 1 / 2 := by
      unfold OctaveBands.roundEven
      split_ifs with a b c
      · exact ⟨h3, by rw [abs_le]; constructor <;> linarith⟩
      · refine ⟨by omega, ?_⟩
        push_cast
        rw [abs_le]
        constructor <;> linarith
      · refine ⟨h3, ?_⟩
        rw [abs_le]
        constructor <;> linarith
      · refine ⟨by omega, ?_⟩
        push_cast
        rw [abs_le]
        constructor <;> linarith
    have e : (((OctaveBands.roundEven (0.004 * (fs : ℝ))).toNat : ℕ) : ℝ) =
        (OctaveBands.roundEven (0.004 * (fs : ℝ)) : ℝ) := by
      exact_mod_cast Int.toNat_of_nonneg key.1
    rw [e]
    exact key.2
  · obtain ⟨e, hfs, _, hf⟩ := band_facts h b hb
    refine ⟨by rw [e]; rfl, ?_⟩
    rw [e]
    show ‖Complex.I / (-_ / _)‖ = 1
    have hn := norm_ne_zero_iff.mpr (tone_ne_zero fs b.freq hfs (hf h0) (fs / 2 - 1 - (delaySamples fs + 3)))
    rw [norm_div, norm_div, norm_neg, Complex.norm_I, Complex.norm_real, norm_norm, div_self hn, div_one]

/-- The delays are meant to bring the maximum of the envelopes of the impulse responses to 4 ms.
They never do: the sample of the impulse response that is moved to 4 ms is the first one, and the
next one is larger.  (The impulse in the search comes three samples after the last sample that is
searched.) -/
theorem C112_envelopes_negation (range : List ℝ) (resolution : ℝ) (fs : ℕ) (fb : Gammatone.Bank)
    (h : create range resolution (some fs) = .ok fb) (h0 : ∀ f ∈ range, 0 ≤ f) (hfs : 160 ≤ fs)
    (b : Band) (hb : b ∈ fb.bands) :
    ∃ D : ℕ, |(D : ℝ) - 0.004 * fs| ≤ 1 / 2 ∧ ∃ n ≤ D,
      ‖ir b (D - b.delay).toNat‖ < ‖ir b n‖ := by
  obtain ⟨D, hD, hall⟩ := C112_delays range resolution fs fb h h0
  obtain ⟨e, hfs0, hny, hf⟩ := band_facts h b hb
  have hfs' : (160 : ℝ) ≤ fs := by exact_mod_cast hfs
  refine ⟨D, hD, 1, ?_, ?_⟩
  · by_contra hlt
    have : D = 0 := by omega
    rw [this, abs_le] at hD
    norm_num at hD
    linarith [hD.1]
  · rw [(hall b hb).1, sub_self, Int.toNat_zero, ir_eq, ir_eq]
    have hl := lam_lt_one fs b.freq hfs0 (hf h0)
    have ec : b.coeff = coefficient fs b.freq := by rw [e]; rfl
    have en : b.norm = 2 * (1 - lam fs b.freq) ^ 4 := by
      rw [e]
      show normalization (coefficient fs b.freq) = _
      unfold normalization
      rw [norm_coefficient]
      rfl
    unfold tone
    rw [en, ec]
    rw [norm_mul, norm_mul, norm_mul, norm_mul, norm_pow, norm_pow, norm_coefficient,
      Complex.norm_natCast, Complex.norm_natCast, Complex.norm_real]
    have hp : 0 < ‖2 * (1 - lam fs b.freq) ^ 4‖ := by
      rw [norm_pos_iff]
      have : 1 - lam fs b.freq ≠ 0 := by linarith
      positivity
    have h4 : 1 < 4 * lam fs b.freq := by
      have : Real.exp (-(2 * Real.log 2)) < lam fs b.freq := by
        rw [lam_eq]
        unfold decay
        rw [Real.exp_lt_exp, neg_lt_neg_iff]
        have h2 := Real.log_two_gt_d9
        have hfr : b.freq ≤ fs / 2 := by
          refine hny.trans ?_
          have : (2 * (fs / 2 : ℕ) : ℝ) ≤ fs := by exact_mod_cast Nat.mul_div_le fs 2
          linarith
        rw [div_lt_iff₀ (by linarith)]
        have h5 : 6.4 * (24.7 + b.freq / 9.265) ≤ 6.4 * (24.7 + fs / 2 / 9.265) := by
          have : b.freq / 9.265 ≤ fs / 2 / 9.265 := by
            apply div_le_div_of_nonneg_right hfr (by norm_num)
          linarith
        refine h5.trans_lt ?_
        have h6 : (1.386 : ℝ) * fs ≤ 2 * Real.log 2 * fs := by
          apply mul_le_mul_of_nonneg_right _ (by linarith)
          linarith
        refine lt_of_lt_of_le ?_ h6
        have h7 : (fs : ℝ) / 2 / 9.265 = fs * (1 / 18.53) := by ring
        rw [h7]
        have h8 : (1 / 18.53 : ℝ) < 0.054 := by norm_num
        nlinarith
      rw [show -(2 * Real.log 2) = Real.log (1 / 4) by
        rw [one_div, Real.log_inv, show (4 : ℝ) = 2 ^ 2 by norm_num, Real.log_pow]; push_cast; ring,
        Real.exp_log (by norm_num)] at this
      linarith
    have e1 : (((0 + 3).choose 3 : ℕ) : ℝ) = 1 := by norm_num
    have e2 : (((1 + 3).choose 3 : ℕ) : ℝ) = 4 := by norm_num [Nat.choose]
    rw [e1, e2, pow_zero, pow_one, mul_one, mul_one, mul_assoc]
    exact lt_mul_of_one_lt_right hp h4

example : ∃ fb, create [500, 1000] 1 (some 48000) = .ok fb ∧ ∃ b ∈ fb.bands, b.freq = 1000 ∧
    ∃ D : ℕ, |(D : ℝ) - 0.004 * (48000 : ℕ)| ≤ 1 / 2 ∧ ∃ n ≤ D,
      ‖ir b (D - b.delay).toNat‖ < ‖ir b n‖ := by
  obtain ⟨fb, h, b, hb, hf⟩ := sampleBank
  exact ⟨fb, h, b, hb, hf, C112_envelopes_negation _ _ _ fb h (by simp) (by norm_num) b hb⟩

/-! ### Gains -/

/-- Impulse response of a band after phase shift, delay and taking the real part, in an infinitely
long signal. -/
noncomputable def corrected (b : Band) (n : ℕ) : ℝ :=
  if (n : ℤ) < b.delay then 0 else (ir b (n - b.delay).toNat * b.phase).re

/-- The matrix from which the gains are found contains the frequency responses of the corrected bands
at the centre frequencies. -/
theorem C112_matrix (range : List ℝ) (resolution : ℝ) (fs : ℕ) (fb : Gammatone.Bank)
    (h : create range resolution (some fs) = .ok fb) (h0 : ∀ f ∈ range, 0 ≤ f) (b : Band)
    (hb : b ∈ fb.bands) (f : ℝ) :
    HasSum (fun n => (corrected b n : ℂ) * Complex.exp (-(2 * Real.pi * f / fs * n * Complex.I)))
      (entry fs f b) := by
  obtain ⟨e, hfs, _, hf⟩ := band_facts h b hb
  obtain ⟨D, _, hall⟩ := C112_delays range resolution fs fb h h0
  have hD := (hall b hb).1
  have hl := lam_lt_one fs b.freq hfs (hf h0)
  have ec : ‖b.coeff‖ < 1 := by
    rw [show b.coeff = coefficient fs b.freq by rw [e]; rfl, norm_coefficient]
    exact hl
  set z := point fs f with hz
  have hzn : ‖z‖ = 1 := by
    rw [hz]
    unfold point
    rw [show 2 * Complex.I * Real.pi * f / fs = ((2 * Real.pi * f / fs : ℝ) : ℂ) * Complex.I by
      push_cast; ring, Complex.norm_exp_ofReal_mul_I]
  have hterm : ∀ u : ℂ, ‖u‖ = 1 → HasSum (fun n => ir b n * b.phase * u⁻¹ ^ (n + D))
      (Gammatone.corrected b u) := by
    intro u hu
    have hs := (tone_hasSum b.coeff b.norm u⁻¹ (by rw [norm_mul, norm_inv, hu]; simpa using ec)).mul_left
      (b.phase * u⁻¹ ^ D)
    have e1 : (fun n => ir b n * b.phase * u⁻¹ ^ (n + D)) =
        fun n => b.phase * u⁻¹ ^ D * (tone b.coeff b.norm n * u⁻¹ ^ n) := by
      funext n
      rw [ir_eq, pow_add]
      ring
    have e2 : Gammatone.corrected b u =
        b.phase * u⁻¹ ^ D * (b.norm * (1 - b.coeff * u⁻¹) ^ (-4 : ℤ)) := by
      unfold Gammatone.corrected
      rw [hD, zpow_neg u, zpow_natCast, inv_pow, div_eq_mul_inv]
      ring
    rw [e1, e2]
    exact hs
  have hp := hterm z hzn
  have hq := hterm ((starRingEnd ℂ) z) (by rw [RCLike.norm_conj, hzn])
  have hq' : HasSum (fun n => (starRingEnd ℂ) (ir b n * b.phase) * z⁻¹ ^ (n + D))
      ((starRingEnd ℂ) (Gammatone.corrected b ((starRingEnd ℂ) z))) := by
    have hs := hq.star
    have e1 : (fun n => (starRingEnd ℂ) (ir b n * b.phase) * z⁻¹ ^ (n + D)) =
        fun n => star (ir b n * b.phase * ((starRingEnd ℂ) z)⁻¹ ^ (n + D)) := by
      funext n
      show _ = (starRingEnd ℂ) (ir b n * b.phase * ((starRingEnd ℂ) z)⁻¹ ^ (n + D))
      rw [map_mul _ (ir b n * b.phase), map_pow, map_inv₀, Complex.conj_conj]
    rw [e1]
    exact hs
  have hsum := (hp.add hq').div_const 2
  have hfun : (fun n => (corrected b (n + D) : ℂ) *
      Complex.exp (-(2 * Real.pi * f / fs * ((n + D : ℕ) : ℂ) * Complex.I))) =
      fun n => (ir b n * b.phase * z⁻¹ ^ (n + D) +
        (starRingEnd ℂ) (ir b n * b.phase) * z⁻¹ ^ (n + D)) / 2 := by
    funext n
    have hx : Complex.exp (-(2 * Real.pi * f / fs * ((n + D : ℕ) : ℂ) * Complex.I)) = z⁻¹ ^ (n + D) := by
      rw [hz]
      unfold point
      rw [← Complex.exp_neg, ← Complex.exp_nat_mul]
      congr 1
      ring
    rw [hx]
    unfold corrected
    rw [hD, if_neg (by push_cast; omega), show (((n + D : ℕ) : ℤ) - (D : ℤ)).toNat = n by omega,
      Complex.re_eq_add_conj]
    ring
  rw [← hfun] at hsum
  have := (hasSum_nat_add_iff (f := fun n => (corrected b n : ℂ) *
    Complex.exp (-(2 * Real.pi * f / fs * n * Complex.I))) D).mp hsum
  rw [Finset.sum_eq_zero, add_zero] at this
  · exact this
  · intro n hn
    have := Finset.mem_range.mp hn
    unfold corrected
    rw [hD, if_pos (by exact_mod_cast this)]
    simp

/-- The response of a band to its own centre frequency does not vanish below half the sampling rate. -/
theorem entry_ne_zero (range : List ℝ) (resolution : ℝ) (fs : ℕ) (fb : Gammatone.Bank)
    (h : create range resolution (some fs) = .ok fb) (h0 : ∀ f ∈ range, 0 ≤ f) (b : Band)
    (hb : b ∈ fb.bands) (hc : Real.cos (4 * Real.pi * b.freq / fs) ≠ 1) :
    entry fs b.freq b ≠ 0 := by
  obtain ⟨e, hfs, _, hf⟩ := band_facts h b hb
  obtain ⟨D, _, hall⟩ := C112_delays range resolution fs fb h h0
  have hl := lam_lt_one fs b.freq hfs (hf h0)
  have ec : ‖b.coeff‖ < 1 := by
    rw [show b.coeff = coefficient fs b.freq by rw [e]; rfl, norm_coefficient]
    exact hl
  have val : ∀ (f : ℝ) (H : ℂ), HasSum (fun n => ir b n * Complex.exp (-(2 * Real.pi * f / fs * n * Complex.I))) H →
      ‖Gammatone.corrected b (point fs f)‖ = ‖H‖ := by
    intro f H hH
    have hpn : ‖point fs f‖ = 1 := by
      unfold point
      rw [show 2 * Complex.I * Real.pi * f / fs = ((2 * Real.pi * f / fs : ℝ) : ℂ) * Complex.I by
        push_cast; ring, Complex.norm_exp_ofReal_mul_I]
    have hs := tone_hasSum b.coeff b.norm (point fs f)⁻¹ (by
      rw [norm_mul, norm_inv, hpn]; simpa using ec)
    have e1 : (fun n => ir b n * Complex.exp (-(2 * Real.pi * f / fs * n * Complex.I))) =
        fun n => tone b.coeff b.norm n * (point fs f)⁻¹ ^ n := by
      funext n
      rw [ir_eq]
      unfold point
      rw [← Complex.exp_neg, ← Complex.exp_nat_mul]
      congr 2
      ring
    rw [e1] at hH
    rw [hH.unique hs]
    unfold Gammatone.corrected
    rw [norm_mul, norm_mul, norm_mul b.phase, (hall b hb).2, norm_zpow _ (-b.delay), hpn, one_zpow,
      mul_one, mul_one, mul_comm, div_eq_mul_inv, norm_mul]
  obtain ⟨H1, s1, _, _, v1⟩ := C112_response range resolution fs fb h h0 b hb b.freq
  obtain ⟨H2, s2, l2, i2, _⟩ := C112_response range resolution fs fb h h0 b hb (-b.freq)
  have n1 := val _ _ s1
  have n2 := val _ _ s2
  rw [v1 rfl] at n1
  have hlt : ‖H2‖ < 2 := by
    refine lt_of_le_of_ne l2 fun heq => hc ?_
    have := i2.mp heq
    rw [← this, ← Real.cos_neg]
    congr 1
    ring
  have ep : (starRingEnd ℂ) (point fs b.freq) = point fs (-b.freq) := by
    unfold point
    rw [← Complex.exp_conj]
    congr 1
    have : (starRingEnd ℂ) 2 = 2 := Complex.conj_ofNat 2
    simp [this]
  intro hz
  unfold entry at hz
  rw [ep, div_eq_zero_iff] at hz
  rcases hz with hz | hz
  · have := congrArg norm (eq_neg_of_add_eq_zero_left hz)
    rw [norm_neg, RCLike.norm_conj, n1, n2] at this
    norm_num at this
    linarith
  · norm_num at hz

theorem gainStep_length (fs : ℕ) (bands : List Band) (gains : List ℝ) (h : gains.length = bands.length) :
    (gainStep fs bands gains).length = bands.length := by
  unfold gainStep
  rw [List.length_zipWith, h, min_self]

theorem computeGains_length (fs : ℕ) (bands : List Band) : (computeGains fs bands).length = bands.length := by
  unfold computeGains
  generalize 100 = k
  induction k with
  | zero => simp
  | succ k ih => rw [Function.iterate_succ_apply']; exact gainStep_length fs bands _ ih

/-- Gains: if the hundred rounds end at gains (different from 0) that a further round leaves as they
are, then the magnitude of the sum of all bands is 1 at every centre frequency.  Whether they do is
proved for a single band only (next theorem). -/
theorem C112_gains_partial (fs : ℕ) (bands : List Band) (i : ℕ) (hi : i < bands.length)
    (hfix : gainStep fs bands (computeGains fs bands) = computeGains fs bands)
    (hne : (computeGains fs bands).getD i 0 ≠ 0) :
    ‖(List.zipWith (fun b (g : ℝ) => entry fs (bands.getD i ⟨0, 0, 0, 0, 0⟩).freq b * g) bands
      (computeGains fs bands)).sum‖ = 1 := by
  have hlen := computeGains_length fs bands
  have h1 := congrArg (fun l => l.getD i 0) hfix
  unfold gainStep at h1
  rw [List.getD_eq_getElem _ _ (by rw [List.length_zipWith, hlen, min_self]; exact hi),
    List.getElem_zipWith] at h1
  rw [List.getD_eq_getElem _ _ (by rw [hlen]; exact hi)] at h1 hne
  rw [List.getD_eq_getElem _ _ hi]
  set v := ‖(List.zipWith (fun b (g : ℝ) => entry fs bands[i].freq b * g) bands
      (computeGains fs bands)).sum‖ with hv
  by_cases hv0 : v = 0
  · rw [hv0, div_zero] at h1
    exact absurd h1.symm hne
  · rw [div_eq_iff hv0] at h1
    have := mul_left_cancel₀ hne (h1.symm.trans (mul_one _).symm)
    exact this

/-- With a single band the magnitude is 1 at its centre frequency. -/
theorem C112_gain_single (range : List ℝ) (resolution : ℝ) (fs : ℕ) (fb : Gammatone.Bank)
    (h : create range resolution (some fs) = .ok fb) (h0 : ∀ f ∈ range, 0 ≤ f) (b : Band)
    (hb : fb.bands = [b]) (hc : Real.cos (4 * Real.pi * b.freq / fs) ≠ 1) :
    ∃ g : ℝ, 0 < g ∧ fb.gains = [g] ∧ ‖entry fs b.freq b * g‖ = 1 := by
  have hne := entry_ne_zero range resolution fs fb h h0 b (by rw [hb]; simp) hc
  obtain ⟨g, _, _, _, _, rfl⟩ := create_ok h
  dsimp only at hb ⊢
  rw [hb]
  have hpos : 0 < ‖entry fs b.freq b‖ := norm_pos_iff.mpr hne
  have hstep : ∀ v : ℝ, 0 < v → gainStep fs [b] [v] = [‖entry fs b.freq b‖⁻¹] := by
    intro v hv
    unfold gainStep
    simp only [List.zipWith_cons_cons, List.zipWith_nil_left, List.sum_cons, List.sum_nil, add_zero, norm_mul,
      Complex.norm_real, Real.norm_of_nonneg hv.le]
    rw [div_mul_cancel_right₀ hv.ne']
  refine ⟨‖entry fs b.freq b‖⁻¹, by positivity, ?_, ?_⟩
  · unfold computeGains
    have : ∀ k, (gainStep fs [b])^[k + 1] (List.replicate [b].length 1) = [‖entry fs b.freq b‖⁻¹] := by
      intro k
      induction k with
      | zero => exact hstep 1 one_pos
      | succ k ih =>
        rw [Function.iterate_succ_apply', ih]
        exact hstep _ (by positivity)
    exact this 99
  · rw [norm_mul, Complex.norm_real, norm_inv, norm_norm, mul_inv_cancel₀ hpos.ne']

/-! ### Reconstruction -/

/-- Stands for elements beyond the end of a list. -/
def noBand : Band := ⟨0, 0, 0, 0, 0⟩

/-- Stands for elements beyond the end of a list. -/
def noSignal : State ℝ := ⟨⟨0, 0, fun _ _ => 0⟩, none, false, 1⟩

theorem zipWith_sum {α β : Type} (F : α → β → ℝ) (l : List α) (m : List β) (a : α) (b : β)
    (h : l.length = m.length) :
    (List.zipWith F l m).sum = ∑ j ∈ Finset.range m.length, F (l.getD j a) (m.getD j b) := by
  induction l generalizing m with
  | nil =>
    have : m = [] := List.length_eq_zero_iff.mp (by simpa using h.symm)
    simp [this]
  | cons x l ih =>
    cases m with
    | nil => simp at h
    | cons y m =>
      rw [List.zipWith_cons_cons, List.sum_cons, ih m (by simpa using h), List.length_cons,
        Finset.sum_range_succ']
      simp [add_comm]

theorem setData_row (s : State ℝ) (N : ℕ) (y : ℕ → ℕ → ℝ) (hs : s.constrain = false) (hN : 1 < N) :
    setData s ⟨1, N, y, none⟩ = .ok ⟨⟨N, 1, fun r c => y c r⟩, none, false, 1⟩ := by
  have e : standardForm (⟨1, N, y, none⟩ : Input ℝ) = .ok ⟨N, 1, fun r c => y c r, none⟩ := by
    unfold standardForm
    rw [if_neg (by simp; omega)]
    simp only [if_true, Input.T, Option.map_none]
    rw [if_neg (by omega)]
  unfold setData
  rw [e, hs]
  rfl

theorem setData_wide (s : State ℝ) (C N : ℕ) (y : ℕ → ℕ → ℝ) (hs : s.constrain = false) (hC : 1 < C)
    (hN : C < N) : setData s ⟨C, N, y, none⟩ = .ok ⟨⟨N, C, fun r c => y c r⟩, none, false, 1⟩ := by
  have e : standardForm (⟨C, N, y, none⟩ : Input ℝ) = .ok ⟨N, C, fun r c => y c r, none⟩ := by
    unfold standardForm
    rw [if_neg (by simp; omega)]
    simp only [Input.T, Option.map_none, show ¬ C = 1 by omega, if_false, gt_iff_lt, hN, if_true]
  unfold setData
  rw [e, hs]
  rfl

/-- What `reconstruct` computes from bands of `N` samples and `C` channels (fewer channels than
samples, more than one band or channel, amplitude not constrained): every band is multiplied by its
phase factor and shifted **circularly** by its delay, and the real parts are added with the gains.
The result is a real signal of the same shape. -/
theorem C112_reconstruct (fb : Gammatone.Bank) (signal : List (State ℝ)) (N C : ℕ)
    (hg : fb.gains.length = fb.bands.length) (hl : signal.length = fb.bands.length)
    (hs : ∀ s ∈ signal, s.re.rows = N ∧ s.re.cols = C ∧ s.im ≠ none ∧ s.constrain = false)
    (hC : 1 ≤ C) (hN : C < N) (h1 : 1 ≤ signal.length) (h2 : 2 ≤ C ∨ 2 ≤ signal.length) :
    ∃ out, reconstruct fb signal = .ok out ∧ out.re.rows = N ∧ out.re.cols = C ∧ out.im = none ∧
      ∀ n < N, ∀ ch < C, out.re.val n ch = ∑ j ∈ Finset.range signal.length,
        fb.gains.getD j 0 * (sample (signal.getD j noSignal)
          ((n - (fb.bands.getD j noBand).delay) % N).toNat ch * (fb.bands.getD j noBand).phase).re := by
  have him : ¬ ∃ s ∈ signal, s.im = none := by
    rintro ⟨s, h, e⟩
    exact (hs s h).2.2.1 e
  have hy : ∀ n ch, (List.zipWith (fun (b : Band × ℝ) s => processed b.1 b.2 s n ch)
      (fb.bands.zip fb.gains) signal).sum +
      ((signal.drop fb.bands.length).map fun s => (sample s n ch).re).sum =
      ∑ j ∈ Finset.range signal.length,
        fb.gains.getD j 0 * (sample (signal.getD j noSignal)
          ((n - (fb.bands.getD j noBand).delay) % N).toNat ch * (fb.bands.getD j noBand).phase).re := by
    intro n ch
    rw [← hl, List.drop_length, List.map_nil, List.sum_nil, add_zero,
      zipWith_sum _ _ _ (noBand, 0) noSignal (by rw [List.length_zip, hg, min_self, hl])]
    refine Finset.sum_congr rfl fun j hj => ?_
    have hj' := Finset.mem_range.mp hj
    have hr : (signal.getD j noSignal).re.rows = N := by
      rw [List.getD_eq_getElem _ _ hj']
      exact (hs _ (List.getElem_mem hj')).1
    rw [List.getD_eq_getElem (fb.bands.zip fb.gains) _ (by rw [List.length_zip, hg, min_self, ← hl]; exact hj'),
      List.getElem_zip, List.getD_eq_getElem fb.bands _ (by omega),
      List.getD_eq_getElem fb.gains _ (by omega)]
    unfold processed
    rw [hr, mul_comm]
  unfold reconstruct
  rw [if_neg him]
  cases signal with
  | nil => simp at h1
  | cons s0 rest =>
    obtain ⟨r0, c0, _, k0⟩ := hs s0 (by simp)
    dsimp only
    rw [r0, c0, if_neg (by rintro ⟨a, b, _⟩; omega), if_neg (by omega)]
    by_cases hc : C = 1
    · rw [if_pos hc, setData_row s0 N _ k0 (by omega)]
      refine ⟨_, rfl, rfl, hc.symm, rfl, fun n _ ch hch => ?_⟩
      have : ch = 0 := by omega
      rw [this]
      exact hy n 0
    · rw [if_neg hc, setData_wide s0 C N _ k0 (by omega) hN]
      exact ⟨_, rfl, rfl, rfl, rfl, fun n _ ch _ => hy n ch⟩

/-- Bands without imaginary data, no bands, a single band with a single channel, or fewer bands than
filters are refused.  A single band is what a bank with one filter makes of a signal with one channel. -/
theorem C112_reconstruct_refused (fb : Gammatone.Bank) (hfb : fb.bands ≠ []) (signal : List (State ℝ))
    (h : (∃ s ∈ signal, s.im = none) ∨ signal = [] ∨ signal.length < fb.bands.length ∨
      ∃ s, signal = [s] ∧ s.re.cols = 1) :
    ∃ e, reconstruct fb signal = .error e := by
  unfold reconstruct
  by_cases h1 : ∃ s ∈ signal, s.im = none
  · rw [if_pos h1]; exact ⟨_, rfl⟩
  rw [if_neg h1]
  rcases h with h | h | h | ⟨s, h, hc⟩
  · exact absurd h h1
  · subst h; exact ⟨_, rfl⟩
  · cases signal with
    | nil => exact ⟨_, rfl⟩
    | cons s0 rest =>
      dsimp only
      split_ifs with h2
      · exact ⟨_, rfl⟩
      · exact ⟨_, rfl⟩
  · subst h
    dsimp only
    rw [if_pos ⟨hc, Or.inl rfl, hfb⟩]
    exact ⟨_, rfl⟩

/-- The bands a filter makes of the channels of a real signal. -/
noncomputable def bandState (b : Band) (N C : ℕ) (x : ℕ → List ℝ) : State ℝ :=
  ⟨⟨N, C, fun n ch => ((analyse b.coeff b.norm (x ch)).getD n 0).re⟩,
    some ⟨N, C, fun n ch => ((analyse b.coeff b.norm (x ch)).getD n 0).im⟩, false, 1⟩

theorem sample_bandState (b : Band) (N C : ℕ) (x : ℕ → List ℝ) (n ch : ℕ) :
    sample (bandState b N C x) n ch = (analyse b.coeff b.norm (x ch)).getD n 0 := by
  unfold sample bandState
  exact Complex.re_add_im _

theorem bank_lengths {range : List ℝ} {resolution : ℝ} {fs : ℕ} {fb : Gammatone.Bank}
    (h : create range resolution (some fs) = .ok fb) :
    fb.gains.length = fb.bands.length ∧ 1 ≤ fb.bands.length := by
  obtain ⟨g, _, hg, _, _, hfb⟩ := create_ok h
  have hb : fb.bands = g.map (bandOf fs) := by rw [hfb]
  have hc : fb.gains = computeGains fs (g.map (bandOf fs)) := by rw [hfb]
  rw [hb, hc, computeGains_length]
  refine ⟨rfl, ?_⟩
  rw [List.length_map]
  exact List.length_pos_of_ne_nil hg

/-- Analysis and reconstruction of a signal: from 4 ms on the output is the signal filtered with the
sum of the corrected impulse responses, whose response at the centre frequencies is the one the gains
are made for (`C112_matrix`).  The first 4 ms contain the last 4 ms of the bands. -/
theorem C112_analysis_reconstruction (range : List ℝ) (resolution : ℝ) (fs : ℕ) (fb : Gammatone.Bank)
    (h : create range resolution (some fs) = .ok fb) (h0 : ∀ f ∈ range, 0 ≤ f) (N C : ℕ)
    (x : ℕ → List ℝ) (hx : ∀ ch < C, (x ch).length = N) (hC : 1 ≤ C) (hN : C < N)
    (h2 : 2 ≤ C ∨ 2 ≤ fb.bands.length) :
    ∃ D : ℕ, |(D : ℝ) - 0.004 * fs| ≤ 1 / 2 ∧
    ∃ out, reconstruct fb (fb.bands.map fun b => bandState b N C x) = .ok out ∧
      out.re.rows = N ∧ out.re.cols = C ∧ out.im = none ∧
      ∀ ch < C, (∀ n < N, D ≤ n → out.re.val n ch = ∑ m ∈ Finset.range (n + 1),
        (∑ j ∈ Finset.range fb.bands.length,
          fb.gains.getD j 0 * corrected (fb.bands.getD j noBand) (n - m)) * (x ch).getD m 0) ∧
        ∀ n < D, D ≤ N → out.re.val n ch = ∑ j ∈ Finset.range fb.bands.length,
          fb.gains.getD j 0 * ((analyse (fb.bands.getD j noBand).coeff (fb.bands.getD j noBand).norm
            (x ch)).getD (N - D + n) 0 * (fb.bands.getD j noBand).phase).re := by
  obtain ⟨D, hD, hall⟩ := C112_delays range resolution fs fb h h0
  have hgl := (bank_lengths h).1
  have hne := (bank_lengths h).2
  obtain ⟨out, ho, r, c, i, hv⟩ := C112_reconstruct fb (fb.bands.map fun b => bandState b N C x) N C
    hgl (by simp) (by
      intro s hs
      obtain ⟨b, _, rfl⟩ := List.mem_map.mp hs
      exact ⟨rfl, rfl, by simp [bandState], rfl⟩) hC hN (by simpa using hne) (by simpa using h2)
  rw [List.length_map] at hv
  have hv' : ∀ n < N, ∀ ch < C, out.re.val n ch = ∑ j ∈ Finset.range fb.bands.length,
      fb.gains.getD j 0 * ((analyse (fb.bands.getD j noBand).coeff (fb.bands.getD j noBand).norm
            (x ch)).getD (((n : ℤ) - D) % N).toNat 0 * (fb.bands.getD j noBand).phase).re := by
    intro n hn ch hch
    rw [hv n hn ch hch]
    refine Finset.sum_congr rfl fun j hj => ?_
    have hj' := Finset.mem_range.mp hj
    rw [List.getD_eq_getElem fb.bands _ hj', List.getD_eq_getElem (fb.bands.map _) _ (by simpa using hj'),
      List.getElem_map, sample_bandState, (hall _ (List.getElem_mem hj')).1]
  refine ⟨D, hD, out, ho, r, c, i, fun ch hch => ⟨fun n hn hDn => ?_, fun n hn hDN => ?_⟩⟩
  · rw [hv' n hn ch hch]
    have hmod : (((n : ℤ) - D) % N).toNat = n - D := by
      rw [Int.emod_eq_of_lt (by omega) (by omega)]
      omega
    simp only [hmod, Finset.sum_mul]
    rw [Finset.sum_comm]
    refine Finset.sum_congr rfl fun j hj => ?_
    have hj' := Finset.mem_range.mp hj
    have hd : (fb.bands.getD j noBand).delay = D := by
      rw [List.getD_eq_getElem fb.bands _ hj']
      exact (hall _ (List.getElem_mem hj')).1
    rw [analyse_getD _ _ _ _ (by rw [hx ch hch]; omega), Finset.sum_mul, Complex.re_sum, Finset.mul_sum]
    rw [← Finset.sum_subset (Finset.range_mono (show n - D + 1 ≤ n + 1 by omega))]
    · refine Finset.sum_congr rfl fun m hm => ?_
      have hm' := Finset.mem_range.mp hm
      unfold corrected
      rw [hd, if_neg (by omega), ir_eq, show (((n - m : ℕ) : ℤ) - D).toNat = n - D - m by omega,
        mul_right_comm, Complex.re_mul_ofReal]
      ring
    · intro m hm hm'
      rw [Finset.mem_range] at hm hm'
      unfold corrected
      rw [hd, if_pos (by omega), mul_zero, zero_mul]
  · rw [hv' n (by omega) ch hch]
    have hmod : (((n : ℤ) - D) % N).toNat = N - D + n := by
      rw [show (n : ℤ) - D = (N - D + n) + N * (-1) by ring, Int.add_mul_emod_self_left,
        Int.emod_eq_of_lt (by omega) (by omega)]
      omega
    simp only [hmod]

/-! ### A bank with one filter -/

/-- A filter bank with one band at 1000 Hz. -/
theorem singleBank : ∃ fb, create [1000, 1000] 1 (some 48000) = .ok fb ∧
    fb.bands = [bandOf 48000 1000] := by
  obtain ⟨g, hg, hmem, hasc⟩ := FrequencyGrids.C105_erb 1000 1000 1 1000 one_pos
  have h1 : (1000 : ℝ) ∈ g := (hmem 1000).mpr ⟨⟨0, by simp⟩, by norm_num, by norm_num⟩
  have hall : ∀ f ∈ g, f = 1000 := by
    intro f hf
    have := ((hmem f).mp hf).2
    rw [min_self, max_self] at this
    linarith [this.1, this.2]
  have hg1 : g = [1000] := by
    match g, h1, hall, hasc with
    | [a], _, hall, _ => rw [hall a (by simp)]
    | a :: b :: l, _, hall, hasc =>
      have := hasc 0 1 (by norm_num) (by simp)
      simp only [List.getD_cons_zero, List.getD_cons_succ] at this
      rw [hall a (by simp), hall b (by simp)] at this
      exact absurd this (lt_irrefl _)
  refine ⟨⟨48000, g.map (bandOf 48000), computeGains 48000 (g.map (bandOf 48000))⟩, ?_, by rw [hg1]; rfl⟩
  unfold create
  dsimp only
  rw [if_neg (by simp), if_neg, hg]
  · exact ofFrequencies_ok _ _ (List.ne_nil_of_mem h1) (by rw [delay_48000]; norm_num)
  · rintro ⟨f, hf, hlt⟩
    simp only [List.mem_cons, List.not_mem_nil, or_false, or_self] at hf
    rw [hf] at hlt
    norm_num at hlt

theorem cos_single : Real.cos (4 * Real.pi * (1000 : ℝ) / (48000 : ℕ)) ≠ 1 := by
  have hp := Real.pi_pos
  have e : 4 * Real.pi * (1000 : ℝ) / (48000 : ℕ) = Real.pi / 12 := by push_cast; ring
  rw [e]
  have := Real.cos_lt_cos_of_nonneg_of_le_pi (x := 0) (y := Real.pi / 12) le_rfl (by linarith) (by positivity)
  rw [Real.cos_zero] at this
  exact this.ne

example : ∃ fb b, create [1000, 1000] 1 (some 48000) = .ok fb ∧ fb.bands = [b] ∧
    ∃ g : ℝ, 0 < g ∧ fb.gains = [g] ∧ ‖entry 48000 b.freq b * g‖ = 1 := by
  obtain ⟨fb, h, hb⟩ := singleBank
  exact ⟨fb, _, h, hb, C112_gain_single _ _ _ fb h (by simp) _ hb cos_single⟩

/-- The signal that is silent except for one sample. -/
def spike (N p : ℕ) : List ℝ := (List.range N).map fun (n : ℕ) => if n = p then 1 else 0

/-- The reconstruction is not causal: with this bank there is a signal of two channels that is silent
in its first 900 samples and whose reconstruction is not silent at sample 191 (3.98 ms), because the
end of the bands is moved to the beginning. -/
theorem C112_wraps_negation : ∃ fb out, ∃ p : ℕ, create [1000, 1000] 1 (some 48000) = .ok fb ∧
    reconstruct fb (fb.bands.map fun b => bandState b 1000 2 fun _ => spike 1000 p) = .ok out ∧
    900 ≤ p ∧ out.re.val 191 0 ≠ 0 := by
  obtain ⟨fb, h, hb⟩ := singleBank
  obtain ⟨g, hg, hgs, _⟩ := C112_gain_single _ _ _ fb h (by simp) _ hb cos_single
  have hval : ∀ p : ℕ, p < 1000 → 900 ≤ p → ∃ out,
      reconstruct fb (fb.bands.map fun b => bandState b 1000 2 fun _ => spike 1000 p) = .ok out ∧
      out.re.val 191 0 = g * (tone (bandOf 48000 1000).coeff (bandOf 48000 1000).norm (999 - p) *
        (bandOf 48000 1000).phase).re := by
    intro p hp hp9
    obtain ⟨D, hD, out, ho, _, _, _, hv⟩ := C112_analysis_reconstruction _ _ _ fb h (by simp) 1000 2
      (fun _ => spike 1000 p) (by simp [spike]) (by norm_num) (by norm_num) (Or.inl le_rfl)
    have hD' : D = 192 := by
      rw [abs_le] at hD
      norm_num at hD
      have h1 : (191 : ℝ) < D := by linarith [hD.1]
      have h2 : (D : ℝ) < 193 := by linarith [hD.2]
      have h1' : 191 < D := by exact_mod_cast h1
      have h2' : D < 193 := by exact_mod_cast h2
      omega
    refine ⟨out, ho, ?_⟩
    have := (hv 0 (by norm_num)).2 191 (by omega) (by omega)
    rw [this, hb, hgs, hD']
    rw [show [bandOf 48000 1000].length = 1 from rfl, Finset.sum_range_one, List.getD_cons_zero,
      List.getD_cons_zero]
    unfold spike
    rw [analyse_dirac _ _ _ _ _ (by omega), if_neg (by omega)]
  have hf : (bandOf 48000 1000).phase ≠ 0 := by
    obtain ⟨D, _, hall⟩ := C112_delays _ _ _ fb h (by simp)
    have := (hall (bandOf 48000 1000) (by rw [hb]; simp)).2
    intro h0
    rw [h0] at this
    simp at this
  have hc : (bandOf 48000 1000).coeff = coefficient 48000 1000 := rfl
  have hn : (bandOf 48000 1000).norm ≠ 0 := by
    intro h0
    have := tone_ne_zero 48000 1000 (by norm_num) (by norm_num) 0
    unfold tone at this
    rw [show normalization (coefficient 48000 1000) = (bandOf 48000 1000).norm from rfl, h0] at this
    simp at this
  -- one of the two first samples has a real part
  have hor : (tone (bandOf 48000 1000).coeff (bandOf 48000 1000).norm 0 * (bandOf 48000 1000).phase).re ≠ 0 ∨
      (tone (bandOf 48000 1000).coeff (bandOf 48000 1000).norm 1 * (bandOf 48000 1000).phase).re ≠ 0 := by
    by_contra hcon
    push Not at hcon
    obtain ⟨a, b⟩ := hcon
    have hsin : Real.sin (Real.pi / 24) ≠ 0 := by
      refine (Real.sin_pos_of_pos_of_lt_pi (by positivity) ?_).ne'
      linarith [Real.pi_pos]
    set q := (bandOf 48000 1000).phase
    set v := (bandOf 48000 1000).norm
    have ec : (bandOf 48000 1000).coeff = ((lam 48000 1000 * Real.cos (Real.pi / 24) : ℝ) : ℂ) +
        ((lam 48000 1000 * Real.sin (Real.pi / 24) : ℝ) : ℂ) * Complex.I := by
      rw [hc]
      unfold coefficient beta
      rw [mul_comm Complex.I, Complex.exp_mul_I,
        show 2 * Real.pi * 1000 / ((48000 : ℕ) : ℝ) = Real.pi / 24 by push_cast; ring,
        ← Complex.ofReal_cos, ← Complex.ofReal_sin]
      push_cast
      ring
    unfold tone at a b
    rw [ec] at a b
    simp only [pow_zero, pow_one, Nat.zero_add, Nat.choose_self, Nat.cast_one, mul_one] at a b
    rw [Complex.re_ofReal_mul] at a
    have hq : q.re = 0 := (mul_eq_zero.mp a).resolve_left hn
    have e4 : ((((1 + 3).choose 3 : ℕ) : ℂ)) = ((4 : ℝ) : ℂ) := by norm_num [Nat.choose]
    rw [e4, ← Complex.ofReal_mul, mul_assoc, Complex.re_ofReal_mul] at b
    have hb2 := (mul_eq_zero.mp b).resolve_left (mul_ne_zero hn (by norm_num))
    rw [Complex.mul_re, Complex.add_re, Complex.add_im, Complex.re_ofReal_mul, Complex.im_ofReal_mul,
      Complex.ofReal_re, Complex.ofReal_im, Complex.I_re, Complex.I_im, hq] at hb2
    have hb3 : lam 48000 1000 * Real.sin (Real.pi / 24) * q.im = 0 := by linarith
    rcases mul_eq_zero.mp hb3 with h3 | h3
    · exact mul_ne_zero (lam_pos 48000 1000).ne' hsin h3
    · exact hf (Complex.ext hq h3)
  rcases hor with hor | hor
  · obtain ⟨out, ho, hv⟩ := hval 999 (by norm_num) (by norm_num)
    exact ⟨fb, out, 999, h, ho, by norm_num, by rw [hv]; exact mul_ne_zero hg.ne' hor⟩
  · obtain ⟨out, ho, hv⟩ := hval 998 (by norm_num) (by norm_num)
    exact ⟨fb, out, 998, h, ho, by norm_num, by rw [hv]; exact mul_ne_zero hg.ne' hor⟩

end Verif.Props.C112

import Verif.Props.C99
import Mathlib.Analysis.Convex.SpecificFunctions.Deriv

/-!
# C99: no wave is silent

"Whenever the cutoff lies above the frequency, two samples are enough: every wave with every phase has a sample
other than zero, so that the requested peak level is reached."
-/

namespace Verif.Generators

open Finset

theorem loopSum_first (cond : ℕ → Prop) : ∀ (fuel k : ℕ) (acc : ℝ),
    ∃ m, (∀ n < m, cond (k + n)) ∧ (0 < fuel → cond k → 0 < m) ∧
      ∀ t : ℕ → ℝ, loopSum cond t fuel k acc = acc + ∑ j ∈ range m, t (k + j) := by
  intro fuel
  induction fuel with
  | zero => intro k acc; exact ⟨0, by simp, by simp, fun t => by simp [loopSum]⟩
  | succ fuel ih =>
    intro k acc
    by_cases hc : cond k
    · obtain ⟨m, h1, -, h3⟩ := ih (k + 1) acc
      refine ⟨m + 1, fun n hn => ?_, fun _ _ => by omega, fun t => ?_⟩
      · rcases n with _ | n
        · exact hc
        · have := h1 n (by omega)
          rwa [show k + (n + 1) = k + 1 + n by omega]
      · rw [loopSum, if_pos hc]
        have hacc : ∀ (t : ℕ → ℝ) (fuel k : ℕ) (acc d : ℝ),
            loopSum cond t fuel k (acc + d) = loopSum cond t fuel k acc + d := by
          intro t fuel
          induction fuel with
          | zero => intro k acc d; rfl
          | succ fuel ih =>
            intro k acc d
            simp only [loopSum]
            split_ifs
            · rw [add_right_comm, ih]
            · rfl
        rw [hacc, h3, sum_range_succ', add_zero]
        have hsum : ∑ j ∈ range m, t (k + (j + 1)) = ∑ j ∈ range m, t (k + 1 + j) :=
          sum_congr rfl fun j _ => by rw [show k + (j + 1) = k + 1 + j by omega]
        rw [hsum]
        ring
    · refine ⟨0, by simp, fun _ h => absurd h hc, fun t => ?_⟩
      rw [loopSum, if_neg hc]
      simp

/-- Sums with alternating signs of falling positive numbers. -/
theorem alternating_pos (m : ℕ) : ∀ (a : ℕ → ℝ), (∀ j < m, 0 < a j) → (∀ j, j + 1 < m → a (j + 1) < a j) → 0 < m →
    0 < ∑ j ∈ range m, (-1) ^ j * a j ∧ ∑ j ∈ range m, (-1) ^ j * a j ≤ a 0 := by
  induction m with
  | zero => intro a _ _ h; omega
  | succ m ih =>
    intro a hp ha _
    have hs : ∑ j ∈ range (m + 1), (-1 : ℝ) ^ j * a j = a 0 - ∑ j ∈ range m, (-1) ^ j * a (j + 1) := by
      rw [sum_range_succ', sub_eq_add_neg, ← sum_neg_distrib, pow_zero, one_mul, add_comm]
      congr 1
      exact sum_congr rfl fun j _ => by rw [pow_succ]; ring
    rw [hs]
    rcases Nat.eq_zero_or_pos m with h0 | h0
    · subst h0
      simpa using hp 0 (by omega)
    · obtain ⟨h1, h2⟩ := ih (fun j => a (j + 1)) (fun j hj => hp (j + 1) (by omega))
        (fun j hj => ha (j + 1) (by omega)) h0
      have h3 := ha 0 (by omega)
      simp only [Nat.zero_add] at h2 h3
      constructor <;> linarith

theorem sinc_lt (p q theta : ℝ) (hp : 0 < p) (hpq : p < q) (ht : 0 < theta) (hq : q * theta < Real.pi) :
    Real.sin (q * theta) / q < Real.sin (p * theta) / p := by
  have hq0 : 0 < q := hp.trans hpq
  have hx : q * theta ∈ Set.Icc 0 Real.pi := ⟨by positivity, hq.le⟩
  have hy : (0 : ℝ) ∈ Set.Icc 0 Real.pi := ⟨le_rfl, Real.pi_pos.le⟩
  have hxy : q * theta ≠ 0 := by positivity
  have ha : 0 < p / q := by positivity
  have hb : 0 < 1 - p / q := by rw [sub_pos, div_lt_one hq0]; exact hpq
  have h := strictConcaveOn_sin_Icc.2 hx hy hxy ha hb (by ring)
  simp only [smul_eq_mul, Real.sin_zero, mul_zero, add_zero] at h
  rw [show p / q * (q * theta) = p * theta by field_simp] at h
  rw [lt_div_iff₀ hp]
  calc Real.sin (q * theta) / q * p = p / q * Real.sin (q * theta) := by ring
    _ < _ := h

theorem sin_pos_of (p theta : ℝ) (hp : 0 < p) (ht : 0 < theta) (h : p * theta < Real.pi) :
    0 < Real.sin (p * theta) := Real.sin_pos_of_pos_of_lt_pi (by positivity) h

/-- A sum of sines with the same phase: one of two samples differs from zero. -/
theorem two_samples (m : ℕ) (c p : ℕ → ℝ) (theta phi : ℝ) (h0 : ∑ j ∈ range m, c j ≠ 0)
    (h1 : ∑ j ∈ range m, c j * Real.sin (p j * theta) ≠ 0) :
    ∑ j ∈ range m, c j * Real.sin (p j * theta * (0 : ℕ) + phi) ≠ 0 ∨
      ∑ j ∈ range m, c j * Real.sin (p j * theta * (1 : ℕ) + phi) ≠ 0 := by
  by_cases hs : Real.sin phi = 0
  · right
    have : ∑ j ∈ range m, c j * Real.sin (p j * theta * (1 : ℕ) + phi) =
        (∑ j ∈ range m, c j * Real.sin (p j * theta)) * Real.cos phi := by
      rw [sum_mul]
      refine sum_congr rfl fun j _ => ?_
      rw [Nat.cast_one, mul_one, Real.sin_add, hs]
      ring
    rw [this]
    refine mul_ne_zero h1 fun hc => ?_
    have := Real.sin_sq_add_cos_sq phi
    rw [hs, hc] at this
    norm_num at this
  · left
    have : ∑ j ∈ range m, c j * Real.sin (p j * theta * (0 : ℕ) + phi) = (∑ j ∈ range m, c j) * Real.sin phi := by
      rw [sum_mul]
      refine sum_congr rfl fun j _ => ?_
      rw [Nat.cast_zero, mul_zero, zero_add]
    rw [this]
    exact mul_ne_zero h0 hs

/-- Every wave with a harmonic below the cutoff has a sample other than zero among the first two. -/
theorem C99_audible (mode : WaveForm) (f : ℝ) (fs : ℕ) (cutoff phi : ℝ) (hf : 0 < f) (hc : f < cutoff)
    (hfs : cutoff ≤ (fs / 2 : ℕ)) :
    wave mode f fs cutoff phi 0 ≠ 0 ∨ wave mode f fs cutoff phi 1 ≠ 0 := by
  have h2 : ((fs / 2 : ℕ) : ℝ) ≤ fs / 2 := by
    have := Nat.cast_div_le (α := ℝ) (m := fs) (n := 2)
    simpa using this
  have hfs0 : (0 : ℝ) < fs := by linarith
  have hpi := Real.pi_pos
  obtain ⟨theta, hth⟩ : ∃ theta : ℝ, theta = 2 * Real.pi * f / fs := ⟨_, rfl⟩
  have ht0 : 0 < theta := by rw [hth]; positivity
  have hlt : ∀ p : ℝ, p * f < cutoff → p * theta < Real.pi := by
    intro p hp
    rw [hth, show p * (2 * Real.pi * f / fs) = Real.pi * (2 * (p * f) / fs) by ring]
    have : 2 * (p * f) / fs < 1 := by rw [div_lt_one hfs0]; linarith
    nlinarith
  have hcut0 : 0 < cutoff := hf.trans hc
  cases mode with
  | harmonic =>
    have := two_samples 1 (fun _ => 1) (fun _ => 1) theta phi (by simp)
      (by simpa using (sin_pos_of 1 theta one_pos ht0 (hlt 1 (by simpa using hc))).ne')
    simpa [wave, hth] using this
  | square =>
    obtain ⟨m, h1, h3, h4⟩ := loopSum_first (fun k => (2 * (k : ℝ) - 1) * f < cutoff)
      (⌈cutoff / f⌉₊ + 1) 1 0
    have hm : 0 < m := h3 (by omega) (by norm_num; exact hc)
    have hodd : ∀ j : ℕ, 2 * (((1 + j : ℕ)) : ℝ) - 1 = 2 * (j : ℝ) + 1 := fun j => by push_cast; ring
    have hpj : ∀ j < m, (2 * (j : ℝ) + 1) * theta < Real.pi := fun j hj => by
      have := h1 j hj
      rw [hodd] at this
      exact hlt _ this
    have hw : ∀ n : ℕ, wave .square f fs cutoff phi n =
        (∑ j ∈ range m, 1 / (2 * (j : ℝ) + 1) * Real.sin ((2 * (j : ℝ) + 1) * theta * n + phi)) * (4 / Real.pi) := by
      intro n
      simp only [wave]
      rw [h4, zero_add]
      congr 1
      refine sum_congr rfl fun j _ => ?_
      rw [hodd, hth, show Real.pi * 2 * (2 * (j : ℝ) + 1) * f / fs * n + phi =
        (2 * (j : ℝ) + 1) * (2 * Real.pi * f / fs) * n + phi by ring]
      ring
    rw [hw, hw]
    have hne : (4 / Real.pi) ≠ 0 := by positivity
    have h := two_samples m (fun j => 1 / (2 * (j : ℝ) + 1)) (fun j => 2 * (j : ℝ) + 1) theta phi
      (sum_pos (fun j _ => by positivity) ⟨0, mem_range.2 hm⟩).ne'
      (sum_pos (fun j hj => mul_pos (by positivity)
        (sin_pos_of _ theta (by positivity) ht0 (hpj j (mem_range.1 hj)))) ⟨0, mem_range.2 hm⟩).ne'
    exact h.imp (fun h => mul_ne_zero h hne) fun h => mul_ne_zero h hne
  | sawtooth =>
    obtain ⟨m, h1, h3, h4⟩ := loopSum_first (fun k => (k : ℝ) * f < cutoff) (⌈cutoff / f⌉₊ + 1) 1 0
    have hm : 0 < m := h3 (by omega) (by simpa using hc)
    have hpj : ∀ j < m, ((j : ℝ) + 1) * theta < Real.pi := fun j hj => by
      have := h1 j hj
      refine hlt _ ?_
      push_cast at this
      linarith
    have hw : ∀ n : ℕ, wave .sawtooth f fs cutoff phi n =
        (∑ j ∈ range m, (-1) ^ j * (1 / ((j : ℝ) + 1)) * Real.sin (((j : ℝ) + 1) * theta * n + phi)) *
          (2 / Real.pi) := by
      intro n
      simp only [wave]
      rw [h4, zero_add, mul_neg, ← neg_mul, ← sum_neg_distrib]
      congr 1
      refine sum_congr rfl fun j _ => ?_
      push_cast
      rw [hth, show Real.pi * 2 * (1 + (j : ℝ)) * f / fs * n + phi =
        ((j : ℝ) + 1) * (2 * Real.pi * f / fs) * n + phi by ring, pow_add, add_comm (1 : ℝ)]
      ring
    rw [hw, hw]
    have hne : (2 / Real.pi) ≠ 0 := by positivity
    have h := two_samples m (fun j => (-1) ^ j * (1 / ((j : ℝ) + 1))) (fun j => (j : ℝ) + 1) theta phi
      (alternating_pos m _ (fun j _ => by positivity) (fun j _ => by
        push_cast
        exact one_div_lt_one_div_of_lt (by positivity) (by linarith)) hm).1.ne'
      (by
        have := (alternating_pos m (fun j => Real.sin (((j : ℝ) + 1) * theta) / ((j : ℝ) + 1))
          (fun j hj => div_pos (sin_pos_of _ theta (by positivity) ht0 (hpj j hj)) (by positivity))
          (fun j hj => by
            have := hpj (j + 1) hj
            push_cast at this ⊢
            exact sinc_lt _ _ theta (by positivity) (by linarith) ht0 this) hm).1
        refine ne_of_gt (lt_of_lt_of_eq this (sum_congr rfl fun j _ => by ring)))
    exact h.imp (fun h => mul_ne_zero h hne) fun h => mul_ne_zero h hne
  | triangle =>
    obtain ⟨m, h1, h3, h4⟩ := loopSum_first (fun k => (2 * (k : ℝ) - 1) * f < cutoff)
      (⌈cutoff / f⌉₊ + 1) 1 0
    have hm : 0 < m := h3 (by omega) (by norm_num; exact hc)
    have hodd : ∀ j : ℕ, 2 * (((1 + j : ℕ)) : ℝ) - 1 = 2 * (j : ℝ) + 1 := fun j => by push_cast; ring
    have hpj : ∀ j < m, (2 * (j : ℝ) + 1) * theta < Real.pi := fun j hj => by
      have := h1 j hj
      rw [hodd] at this
      exact hlt _ this
    have hw : ∀ n : ℕ, wave .triangle f fs cutoff phi n =
        (∑ j ∈ range m, (-1) ^ j * (1 / (2 * (j : ℝ) + 1) ^ 2) * Real.sin ((2 * (j : ℝ) + 1) * theta * n + phi)) *
          (8 / Real.pi ^ 2) := by
      intro n
      simp only [wave]
      rw [h4, zero_add, neg_div, mul_neg, ← neg_mul, ← sum_neg_distrib]
      congr 1
      refine sum_congr rfl fun j _ => ?_
      rw [hodd, hth, show Real.pi * 2 * (2 * (j : ℝ) + 1) * f / fs * n + phi =
        (2 * (j : ℝ) + 1) * (2 * Real.pi * f / fs) * n + phi by ring, pow_add]
      ring
    rw [hw, hw]
    have hne : (8 / Real.pi ^ 2) ≠ 0 := by positivity
    have h := two_samples m (fun j => (-1) ^ j * (1 / (2 * (j : ℝ) + 1) ^ 2)) (fun j => 2 * (j : ℝ) + 1) theta phi
      (alternating_pos m _ (fun j _ => by positivity) (fun j _ => by
        push_cast
        refine one_div_lt_one_div_of_lt (by positivity) ?_
        gcongr
        linarith) hm).1.ne'
      (by
        have := (alternating_pos m (fun j => Real.sin ((2 * (j : ℝ) + 1) * theta) / (2 * (j : ℝ) + 1) *
            (1 / (2 * (j : ℝ) + 1)))
          (fun j hj => mul_pos (div_pos (sin_pos_of _ theta (by positivity) ht0 (hpj j hj)) (by positivity))
            (by positivity))
          (fun j hj => by
            have h5 := hpj (j + 1) hj
            have h6 := hpj j (by omega)
            push_cast at h5 ⊢
            refine mul_lt_mul (sinc_lt _ _ theta (by positivity) (by linarith) ht0 h5)
              (one_div_le_one_div_of_le (by positivity) (by linarith)) (by positivity)
              (div_pos (sin_pos_of _ theta (by positivity) ht0 h6) (by positivity)).le) hm).1
        refine ne_of_gt (lt_of_lt_of_eq this (sum_congr rfl fun j _ => ?_))
        have : (2 * (j : ℝ) + 1) ≠ 0 := by positivity
        field_simp)
    exact h.imp (fun h => mul_ne_zero h hne) fun h => mul_ne_zero h hne

/-- The requested level is reached by every wave of at least two samples with every phase. -/
theorem C99_level (f : ℝ) (fs : ℕ) (len : ℝ) (mode : WaveForm) (cutoff : Option ℝ) (db phi : ℝ)
    (pad : ℝ) (hf : 0 < f) (hfs : f < (fs / 2 : ℕ)) (hlen : 0 < len) (hpad : 0 ≤ pad)
    (hc : ∀ c, cutoff = some c → f < c ∧ c ≤ (fs / 2 : ℕ)) (hl : 2 ≤ roundHalf (fs * len)) :
    ∃ y : List ℝ, oscillator f fs len mode cutoff db phi none pad = .ok (y.map some) ∧
      y.length = roundHalf (fs * len) + ⌊pad * fs⌋₊ ∧ IsPeak y (10 ^ (db / 20)) := by
  refine C99_peak_level f fs len mode cutoff db phi pad hf hfs hlen hpad
    (fun c h => ⟨hf.trans (hc c h).1, (hc c h).2⟩) ?_
  have hcut : f < cutoff.getD (fs / 2 : ℕ) ∧ cutoff.getD (fs / 2 : ℕ) ≤ (fs / 2 : ℕ) := by
    cases cutoff with
    | none => exact ⟨hfs, le_rfl⟩
    | some c => exact hc c rfl
  rcases C99_audible mode f fs _ phi hf hcut.1 hcut.2 with h | h
  · exact ⟨0, by omega, h⟩
  · exact ⟨1, by omega, h⟩

/-- A square wave of 1 kHz with the default cutoff, one second long. -/
example : (2 : ℕ) ≤ roundHalf ((48000 : ℕ) * (1 : ℝ)) ∧ (1000 : ℝ) < ((48000 / 2 : ℕ) : ℝ) := by
  constructor
  · unfold roundHalf
    exact Nat.le_floor (by norm_num)
  · norm_num

end Verif.Generators

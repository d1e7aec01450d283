import Verif.Model.SVF
import Verif.Lemmas.Channels
import Mathlib.Analysis.SpecialFunctions.Trigonometric.Basic
import Mathlib.Tactic.Ring
import Mathlib.Tactic.FieldSimp
import Mathlib.Tactic.LinearCombination
import Mathlib.Tactic.Linarith
import Mathlib.Tactic.NormNum
import Mathlib.Tactic.Positivity
import Mathlib.Algebra.BigOperators.Group.List.Basic

/-!
# C04: state variable filter, reconstruction of the input and losslessness of the allpass
-/

namespace Verif.SVF

/-- Sum of squares of a list of samples. -/
def energy {K : Type} [Semiring K] (xs : List K) : K := (xs.map (fun x => x ^ 2)).sum

section Algebra
variable {K : Type} [Field K]

theorem step_sum (g R : K) (hD : 1 + R * g + g ^ 2 ≠ 0) (s : K × K) (x : K) :
    (step g R s x).1.high + R * (step g R s x).1.band + (step g R s x).1.low = x := by
  simp only [step, intermediate]
  field_simp
  ring

/-- One-sample energy balance. -/
theorem step_energy (g R : K) (hg : g ≠ 0) (hD : 1 + R * g + g ^ 2 ≠ 0) (s : K × K) (x : K) :
    (step g R s x).1.allpass ^ 2
      + R / g * ((step g R s x).2.1 ^ 2 + (step g R s x).2.2 ^ 2)
      = x ^ 2 + R / g * (s.1 ^ 2 + s.2 ^ 2) := by
  simp only [step]
  generalize hyh : (x - (R + g) * s.1 - s.2) * intermediate g R = yh
  have hx : x = yh * (1 + R * g + g ^ 2) + (R + g) * s.1 + s.2 := by
    rw [← hyh, intermediate]
    field_simp
    ring
  rw [hx]
  field_simp
  ring

/-- **C04**, recombination: after every history of calls and for every sample on an
existing channel, highpass + resonance * bandpass + lowpass of the returned values is
the input sample. -/
theorem C04_recombination (g R : K) (hD : 1 + R * g + g ^ 2 ≠ 0) (h : List (Op K)) (x : K)
    (ch : ℕ) (hch : ch < nChannels (dropZeroChannels h)) :
    ∃ y, (filter g R).answer h x ch = .ok y ∧ y.high + R * y.band + y.low = x := by
  unfold filter
  rw [RTFilter.positiveChannels_answer, Column.lift_answer, if_pos hch]
  exact ⟨_, rfl, step_sum g R hD _ x⟩

/-- **C04**, errors: on a channel that does not exist the call raises IndexError. -/
theorem C04_bad_channel (g R : K) (h : List (Op K)) (x : K)
    (ch : ℕ) (hch : nChannels (dropZeroChannels h) ≤ ch) :
    (filter g R).answer h x ch = .error .indexError := by
  unfold filter
  rw [RTFilter.positiveChannels_answer, Column.lift_answer, if_neg (by omega)]

/-- The state and the outputs (most recent first) after a sequence of inputs (oldest
first) on one channel, starting from an arbitrary state. -/
def run (g R : K) : (K × K) → List K → List (Outputs K) × (K × K)
  | s, [] => ([], s)
  | s, x :: xs => ((step g R s x).1 :: (run g R (step g R s x).2 xs).1,
      (run g R (step g R s x).2 xs).2)

/-- **C04**, energy balance: for every starting state and every input sequence, the
energy of the allpass output plus `resonance / g` times the finally stored energy is
the input energy plus `resonance / g` times the initially stored energy. -/
theorem C04_allpass_energy_balance (g R : K) (hg : g ≠ 0) (hD : 1 + R * g + g ^ 2 ≠ 0)
    (s : K × K) (xs : List K) :
    energy ((run g R s xs).1.map Outputs.allpass)
      + R / g * ((run g R s xs).2.1 ^ 2 + (run g R s xs).2.2 ^ 2)
      = energy xs + R / g * (s.1 ^ 2 + s.2 ^ 2) := by
  induction xs generalizing s with
  | nil => simp [run, energy]
  | cons x xs ih =>
    have h1 := ih (step g R s x).2
    have h2 := step_energy g R hg hD s x
    simp only [run, energy, List.map_cons, List.sum_cons] at *
    linear_combination h1 + h2

end Algebra

section Order
variable {K : Type} [Field K] [LinearOrder K] [IsStrictOrderedRing K]

/-- The denominator of the filter never vanishes for the admissible parameters. -/
theorem denominator_pos (g R : K) (hg : 0 < g) (hR : 0 ≤ R) : 0 < 1 + R * g + g ^ 2 := by
  positivity

/-- **C04**, consequence: from rest the allpass output of every input sequence never
carries more energy than the input. -/
theorem C04_allpass_energy_bound (g R : K) (hg : 0 < g) (hR : 0 ≤ R) (xs : List K) :
    energy ((run g R (0, 0) xs).1.map Outputs.allpass) ≤ energy xs := by
  have h := C04_allpass_energy_balance g R hg.ne' (denominator_pos g R hg hR).ne' (0, 0) xs
  have : 0 ≤ R / g * ((run g R (0, 0) xs).2.1 ^ 2 + (run g R (0, 0) xs).2.2 ^ 2) := by
    positivity
  simp only at h
  linarith [h]

/-- **C04**, the same for the object and every history of calls: since the last reset
or channel change, the allpass values returned on a channel never carry more energy than
the samples sent to that channel. -/
theorem C04_allpass_energy_history (g R : K) (hg : 0 < g) (hR : 0 ≤ R) (h : List (Op K))
    (ch : ℕ) :
    energy (((filter g R).log ch (dropZeroChannels h)).map fun p => p.2.allpass)
      ≤ energy (pastInputs ch (dropZeroChannels h)) := by
  unfold filter
  rw [RTFilter.positiveChannels_log, Column.lift_log]
  generalize pastInputs ch (dropZeroChannels h) = xs
  have key : energy ((xs.zip ((⟨K × K, (0, 0), step g R⟩ : Column K (Outputs K)).outs xs)).map
        fun p => p.2.allpass)
      + R / g * (((⟨K × K, (0, 0), step g R⟩ : Column K (Outputs K)).colAfter xs).1 ^ 2
        + ((⟨K × K, (0, 0), step g R⟩ : Column K (Outputs K)).colAfter xs).2 ^ 2)
      = energy xs := by
    induction xs with
    | nil => simp [energy, Column.outs, Column.colAfter]
    | cons x xs ih =>
      have h2 := step_energy g R hg.ne' (denominator_pos g R hg hR).ne'
        ((⟨K × K, (0, 0), step g R⟩ : Column K (Outputs K)).colAfter xs) x
      simp only [energy, List.map_cons, List.sum_cons, Column.outs, Column.colAfter,
        List.zip_cons_cons, Column.out] at *
      linear_combination ih + h2
  rw [← key]
  have : 0 ≤ R / g * (((⟨K × K, (0, 0), step g R⟩ : Column K (Outputs K)).colAfter xs).1 ^ 2
        + ((⟨K × K, (0, 0), step g R⟩ : Column K (Outputs K)).colAfter xs).2 ^ 2) := by
    positivity
  linarith

/-- **C04**, free decay: with zero input and non-negative resonance the stored energy
never grows, from every state and for every number of samples. -/
theorem C04_free_decay (g R : K) (hg : 0 < g) (hR : 0 ≤ R) (s : K × K) (n : ℕ) :
    (run g R s (List.replicate n 0)).2.1 ^ 2 + (run g R s (List.replicate n 0)).2.2 ^ 2
      ≤ s.1 ^ 2 + s.2 ^ 2 := by
  induction n generalizing s with
  | zero => simp [run]
  | succ n ih =>
    rw [List.replicate_succ]
    refine (ih (step g R s 0).2).trans ?_
    have hD := (denominator_pos g R hg hR).ne'
    have key : (step g R s 0).2.1 ^ 2 + (step g R s 0).2.2 ^ 2
        = s.1 ^ 2 + s.2 ^ 2 - 4 * g * R * (step g R s 0).1.band ^ 2 := by
      simp only [step]
      generalize hyh : (0 - (R + g) * s.1 - s.2) * intermediate g R = yh
      have hx : 0 = yh * (1 + R * g + g ^ 2) + (R + g) * s.1 + s.2 := by
        rw [← hyh, intermediate]
        field_simp
        ring
      have hs : s.2 = - (yh * (1 + R * g + g ^ 2) + (R + g) * s.1) := by
        linear_combination -hx
      rw [hs]
      ring
    have : 0 ≤ 4 * g * R * (step g R s 0).1.band ^ 2 := by positivity
    rw [key]; linarith

end Order

/-- **C04**, accepted parameters: every cutoff accepted by `set_parameters` yields
`g > 0` (so that the hypotheses above are met for every resonance `≥ 0`), and every
cutoff outside `]0, fs // 2[` is rejected. -/
theorem C04_parameters (fs : ℕ) (f : ℝ) :
    (0 < f ∧ f < ((fs / 2 : ℕ) : ℝ) → ∃ g, gain fs f = .ok g ∧ 0 < g) ∧
    (¬ (0 < f ∧ f < ((fs / 2 : ℕ) : ℝ)) → gain fs f = .error .assertionError) := by
  refine ⟨fun h => ⟨_, if_pos h, ?_⟩, fun h => if_neg h⟩
  have hdiv : ((fs / 2 : ℕ) : ℝ) ≤ (fs : ℝ) / 2 := by
    have := @Nat.cast_div_le ℝ _ _ _ fs 2
    simpa using this
  have hfs : (0 : ℝ) < fs := by linarith [h.1, h.2]
  apply Real.tan_pos_of_pos_of_lt_pi_div_two
  · have := Real.pi_pos; have := h.1; positivity
  · rw [div_lt_iff₀ hfs]
    nlinarith [Real.pi_pos, h.2]

/-- A concrete filter with feedback and non-trivial outputs meeting all hypotheses. -/
example : (1 + (1 : ℚ) * 1 + 1 ^ 2 ≠ 0) ∧
    (filter (1 : ℚ) 1).answer [.setChannels 2, .setChannels 0, .sample 3 1, .sample 3 0] 9 1
      = .ok ⟨5, 1, 3, 3⟩ := by
  refine ⟨by norm_num, ?_⟩
  simp [RTFilter.answer, RTFilter.after, RTFilter.exec, filter, RTFilter.positiveChannels,
    Column.lift, step, intermediate]
  norm_num

end Verif.SVF

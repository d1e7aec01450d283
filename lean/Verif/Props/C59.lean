import Verif.Model.Rhythm
import Mathlib.Tactic.FieldSimp
import Mathlib.Tactic.Ring
import Mathlib.Tactic.NormNum
import Mathlib.Tactic.Linarith
import Mathlib.Algebra.Order.Field.Rat

/-!
# C59: musical rhythms

"For every documented note and every tempo, the time period is the duration of the note in seconds
(a quarter lasts `60 / bpm` seconds) and the frequency is its inverse; an unknown note raises."

False of the code in two ways: the tempo is inverted (the result is only right at 60 bpm), and the
text `'32th'` contains the digit `3` that marks triplets.
-/

namespace Verif.Rhythm

/-! ## Specification: durations in quarter notes -/

/-- The documented durations. -/
inductive Duration
  | whole | half | quarter | eighth | sixteenth | thirtySecond | quintuplet
  deriving DecidableEq

/-- Their names. -/
def Duration.name : Duration → String
  | .whole => "whole"
  | .half => "half"
  | .quarter => "quarter"
  | .eighth => "eighth"
  | .sixteenth => "sixteenth"
  | .thirtySecond => "32th"
  | .quintuplet => "quintuplet"

/-- Their length in quarter notes. -/
def Duration.quarters : Duration → ℚ
  | .whole => 4
  | .half => 2
  | .quarter => 1
  | .eighth => 1 / 2
  | .sixteenth => 1 / 4
  | .thirtySecond => 1 / 8
  | .quintuplet => 1 / 5

/-- Documented suffixes. -/
inductive Suffix
  | plain | triplet | dotted
  deriving DecidableEq

/-- Text of the suffix. -/
def Suffix.text : Suffix → String
  | .plain => ""
  | .triplet => " 3"
  | .dotted => " dotted"

/-- A triplet has two thirds of the duration, a dotted note one and a half. -/
def Suffix.times : Suffix → ℚ
  | .plain => 1
  | .triplet => 2 / 3
  | .dotted => 3 / 2

/-- The note as written by the user. -/
def note (d : Duration) (s : Suffix) : List Char := d.name.toList ++ s.text.toList

theorem factor_note (d : Duration) (s : Suffix) :
    factor (note d s) = if d = .thirtySecond ∧ s ≠ .triplet then d.quarters * s.times * (2 / 3)
      else d.quarters * s.times := by
  cases d <;> cases s <;> decide +kernel

/-- Seconds a note lasts at a tempo of `bpm` quarter notes per minute. -/
def seconds (d : Duration) (s : Suffix) (bpm : ℚ) : ℚ := 60 / bpm * (d.quarters * s.times)

theorem quarters_pos (d : Duration) (s : Suffix) : 0 < d.quarters * s.times := by
  cases d <;> cases s <;> decide +kernel

theorem frequency_note (d : Duration) (s : Suffix) (bpm : ℚ) (hb : 0 < bpm)
    (hd : d ≠ .thirtySecond ∨ s = .triplet) :
    frequency (note d s) bpm = .ok (60 / bpm / (d.quarters * s.times)) := by
  have hf := factor_note d s
  rw [if_neg (by tauto)] at hf
  unfold frequency
  rw [hf, if_neg (quarters_pos d s).ne', if_neg hb.ne']

/-- Whatever the text of the note and the tempo, an accepted period is the inverse of the
frequency, and the two functions accept the same notes. -/
theorem C59_inverse (n : List Char) (bpm : ℚ) :
    (∀ f, frequency n bpm = .ok f → ∃ T, period n bpm = .ok T ∧ f * T = 1) ∧
    (∀ e, frequency n bpm = .error e → period n bpm = .error e) := by
  constructor
  · intro f h
    refine ⟨1 / f, by simp only [period, h], ?_⟩
    unfold frequency at h
    split_ifs at h with h1 h2
    cases h
    have h3 : (60 : ℚ) / bpm / factor n ≠ 0 :=
      div_ne_zero (div_ne_zero (by norm_num) h2) h1
    exact mul_one_div_cancel h3
  · intro e h
    simp only [period, h]

/-- A text that names none of the durations raises ValueError at every tempo. -/
theorem C59_unknown_raises (n : List Char) (bpm : ℚ)
    (h : ∀ d : Duration, ¬ d.name.toList <:+: n) : frequency n bpm = .error .valueError := by
  have k : ∀ d : Duration, has n d.name = false := fun d => decide_eq_false (h d)
  have k1 := k .whole
  have k2 := k .half
  have k3 := k .quarter
  have k4 := k .eighth
  have k5 := k .sixteenth
  have k6 := k .thirtySecond
  have k7 := k .quintuplet
  simp only [Duration.name] at k1 k2 k3 k4 k5 k6 k7
  have hf : factor n = 0 := by
    unfold factor
    simp only [k1, k2, k3, k4, k5, k6, k7, Bool.false_eq_true, if_false, zero_mul, ite_self]
  unfold frequency
  rw [if_pos hf]

example : ∀ d : Duration, ¬ d.name.toList <:+: "crotchet".toList := by
  intro d; cases d <;> decide +kernel

/-- At 60 quarter notes per minute, and for every documented note except plain and dotted
`'32th'`, the period is the duration of the note in seconds (missing: every other tempo and the
excepted notes, see the two theorems below). -/
theorem C59_sixty_partial (d : Duration) (s : Suffix) (hd : d ≠ .thirtySecond ∨ s = .triplet) :
    period (note d s) 60 = .ok (seconds d s 60) := by
  unfold period
  rw [frequency_note d s 60 (by norm_num) hd]
  have := (quarters_pos d s).ne'
  simp only [seconds, Except.ok.injEq]
  generalize d.quarters * s.times = q at *
  field_simp

/-- At every other positive tempo the period of each of those notes is wrong: the tempo enters
the wrong way round, doubling the tempo doubles the period. -/
theorem C59_tempo_inverted (d : Duration) (s : Suffix) (bpm : ℚ) (hb : 0 < bpm) (h60 : bpm ≠ 60)
    (hd : d ≠ .thirtySecond ∨ s = .triplet) :
    ∃ T, period (note d s) bpm = .ok T ∧ T ≠ seconds d s bpm ∧
      period (note d s) (2 * bpm) = .ok (2 * T) := by
  have hq := quarters_pos d s
  have h1 := frequency_note d s bpm hb hd
  have h2 := frequency_note d s (2 * bpm) (by linarith) hd
  refine ⟨1 / (60 / bpm / (d.quarters * s.times)), by simp only [period, h1], ?_, ?_⟩
  · unfold seconds
    generalize d.quarters * s.times = q at *
    intro h
    have hb' := hb.ne'
    have hq' := hq.ne'
    have h3 : bpm * bpm = 60 * 60 := by
      field_simp at h
      linarith
    exact h60 (by nlinarith [mul_self_eq_mul_self_iff.mp h3 |>.resolve_right (by linarith)])
  · simp only [period, h2, Except.ok.injEq]
    generalize d.quarters * s.times = q at *
    have hb' := hb.ne'
    have hq' := hq.ne'
    field_simp

example : period (note .quarter .plain) 120 = .ok 2 ∧ seconds .quarter .plain 120 = 1 / 2 := by
  decide +kernel

/-- `'32th'` contains the digit of the triplets: the plain and the dotted note are shortened to two
thirds, and `'32th'` and `'32th 3'` are the same note. -/
theorem C59_thirty_second_is_triplet (bpm : ℚ) :
    frequency (note .thirtySecond .plain) bpm = frequency (note .thirtySecond .triplet) bpm ∧
    period (note .thirtySecond .plain) 60 ≠ .ok (seconds .thirtySecond .plain 60) ∧
    period (note .thirtySecond .dotted) 60 ≠ .ok (seconds .thirtySecond .dotted 60) := by
  refine ⟨?_, by decide +kernel, by decide +kernel⟩
  unfold frequency
  rw [show factor (note .thirtySecond .plain) = factor (note .thirtySecond .triplet) by
    decide +kernel]

end Verif.Rhythm

import Verif.Model.Transforms
import Verif.Lemmas.SignalData
import Mathlib.Tactic.FieldSimp
import Mathlib.Tactic.Linarith
import Mathlib.Tactic.NormNum

/-!
# C67: mid-side

Left-right to mid-side and back returns the same signal, for every signal of two channels.  The
other way round this only holds without constraint of the amplitude.
-/

namespace Verif.Props.C67

open Transforms SignalData

variable {K : Type} [Field K] [LinearOrder K] [IsStrictOrderedRing K]

/-- A signal of two channels: at least two samples (the setter transposes anything else) and the
invariants of C14. -/
def Stereo (s : State K) : Prop := Valid s ∧ s.re.cols = 2 ∧ s.im = none

/-- Mid is half the sum and side half the difference; nothing is ever scaled. -/
theorem C67_mid_side (s : State K) (hs : Stereo s) :
    ∃ m, midSide s true = .ok m ∧ Stereo m ∧ m.constrain = s.constrain ∧ m.scale = 1 ∧
      m.HasShape s.re.rows 2 ∧
      ∀ r < s.re.rows, 2 * m.sample r 0 = s.sample r 0 + s.sample r 1 ∧
        2 * m.sample r 1 = s.sample r 0 - s.sample r 1 := by
  obtain ⟨hv, hc2, him⟩ := hs
  have hrows : 2 ≤ s.re.rows := by have := hv.shape; omega
  have hbd : s.constrain = true → ∀ r < s.re.rows, |s.re.val r 0| ≤ 1 ∧ |s.re.val r 1| ≤ 1 :=
    fun h r hr => ⟨hv.bounded h r hr 0 (by omega), hv.bounded h r hr 1 (by omega)⟩
  have hb : s.constrain = true → ∀ r < s.re.rows, ∀ c < 2,
      |(if c = 0 then s.re.val r 0 + s.re.val r 1 else s.re.val r 0 - s.re.val r 1) / 2| ≤ 1 := by
    intro h r hr c _
    obtain ⟨h0, h1⟩ := hbd h r hr
    rw [abs_le] at h0 h1 ⊢
    split
    · constructor <;> linarith
    · constructor <;> linarith
  have hset := copyWith_ok s ⟨s.re.rows, 2, fun r c =>
      (if c = 0 then s.re.val r 0 + s.re.val r 1 else s.re.val r 0 - s.re.val r 1) / 2, none⟩
    hrows (by dsimp only; omega) (fun h => ⟨by norm_num, fun r hr c hc => hb h r hr c hc,
      fun f hf => absurd hf (by simp)⟩)
  have hms : midSide s true = .ok ⟨⟨s.re.rows, 2, fun r c =>
      (if c = 0 then s.re.val r 0 + s.re.val r 1 else s.re.val r 0 - s.re.val r 1) / 2⟩, none,
      s.constrain, 1⟩ := by
    unfold midSide
    rw [if_pos hc2]
    exact hset
  refine ⟨_, hms, ⟨⟨hrows, ?_, ?_⟩, rfl, rfl⟩, rfl, rfl, ⟨rfl, rfl⟩, fun r hr => ?_⟩
  · intro B hB
    exact absurd hB (by simp)
  · intro h r hr c hc
    exact hb h r hr c hc
  · have h0 : 0 < s.re.cols := by omega
    have h1 : 1 < s.re.cols := by omega
    simp only [State.sample, hr, h0, h1, and_self, if_true, Nat.zero_lt_two,
      Nat.one_lt_two, one_ne_zero, if_false]
    constructor <;> ring

/-- Left-right from mid-side: sum and difference, up to one factor, which is 1 unless the
amplitude is constrained and the result leaves the range. -/
theorem C67_left_right_partial (s : State K) (hs : Stereo s) :
    ∃ m, midSide s false = .ok m ∧ Stereo m ∧ m.constrain = s.constrain ∧
      m.HasShape s.re.rows 2 ∧
      (∀ r < s.re.rows, m.sample r 0 = m.scale * (s.sample r 0 + s.sample r 1) ∧
        m.sample r 1 = m.scale * (s.sample r 0 - s.sample r 1)) ∧
      ((s.constrain = false ∨ ∀ r < s.re.rows, |s.sample r 0 + s.sample r 1| ≤ 1 ∧
        |s.sample r 0 - s.sample r 1| ≤ 1) → m.scale = 1) := by
  obtain ⟨hv, hc2, him⟩ := hs
  have hrows : 2 ≤ s.re.rows := by have := hv.shape; omega
  set w : Input K := ⟨s.re.rows, 2, fun r c =>
      if c = 0 then s.re.val r 0 + s.re.val r 1 else s.re.val r 0 - s.re.val r 1, none⟩ with hw
  obtain ⟨m, hm, hmc, hmsh, hmsc, hre, -, hiss⟩ := setData_scaled
    (⟨⟨0, 0, fun _ _ => 0⟩, none, s.constrain, 1⟩ : State K) w hrows (by simp only [hw]; omega)
    (by simp [hw])
  have hval : ∀ r < s.re.rows, s.sample r 0 = s.re.val r 0 ∧ s.sample r 1 = s.re.val r 1 := by
    intro r hr
    have h0 : 0 < s.re.cols := by omega
    have h1 : 1 < s.re.cols := by omega
    simp only [State.sample, hr, h0, h1, and_self, if_true]
  have hms : midSide s false = .ok m := by
    unfold midSide
    rw [if_pos hc2]
    exact hm
  refine ⟨m, hms, ⟨?_, hmsh.2, ?_⟩, hmc, hmsh, fun r hr => ⟨?_, ?_⟩, fun h => ?_⟩
  · exact C14_invariants_partial w s.constrain m hm []
  · have : m.im.isSome = false := hiss
    simpa using this
  · rw [hre r hr 0 (by simp [hw]), (hval r hr).1, (hval r hr).2]
    simp [hw]
  · rw [hre r hr 1 (by simp [hw]), (hval r hr).1, (hval r hr).2]
    simp [hw]
  · rw [hmsc, if_neg]
    rintro ⟨h1, h2⟩
    rcases h with h | h
    · exact absurd (h.symm.trans h1) (by simp)
    · refine absurd h2 (not_lt.2 (peak_le_one w (fun r hr c hc => ?_) fun f hf => ?_))
      · have := h r hr
        rw [(hval r hr).1, (hval r hr).2] at this
        simp only [hw]
        split
        · exact this.1
        · exact this.2
      · exact absurd hf (by simp [hw])

/-- There and back: the same samples, for every signal of two channels, constrained or not. -/
theorem C67_round_trip (s : State K) (hs : Stereo s) :
    ∃ m t, midSide s true = .ok m ∧ midSide m false = .ok t ∧ t.constrain = s.constrain ∧
      t.HasShape s.re.rows 2 ∧ t.im = none ∧
      ∀ r < s.re.rows, t.sample r 0 = s.sample r 0 ∧ t.sample r 1 = s.sample r 1 := by
  obtain ⟨m, hm, hms, hmc, -, hmsh, hmv⟩ := C67_mid_side s hs
  obtain ⟨t, ht, ⟨-, -, hti⟩, htc, htsh, htv, hts⟩ := C67_left_right_partial m hms
  have hlr : ∀ r < s.re.rows, m.sample r 0 + m.sample r 1 = s.sample r 0 ∧
      m.sample r 0 - m.sample r 1 = s.sample r 1 := by
    intro r hr
    obtain ⟨h0, h1⟩ := hmv r hr
    constructor <;> linarith
  have hrows : m.re.rows = s.re.rows := hmsh.1
  have hscale : t.scale = 1 := by
    apply hts
    cases hc : s.constrain with
    | false => exact Or.inl (hmc.trans hc)
    | true =>
      refine Or.inr fun r hr => ?_
      rw [hrows] at hr
      rw [(hlr r hr).1, (hlr r hr).2]
      exact ⟨sample_bounded hs.1 hc r 0, sample_bounded hs.1 hc r 1⟩
  refine ⟨m, t, hm, ht, htc.trans hmc, by rw [← hrows]; exact htsh, hti, fun r hr => ?_⟩
  have := htv r (by rw [hrows]; exact hr)
  rw [hscale, (hlr r hr).1, (hlr r hr).2, one_mul, one_mul] at this
  exact this

/-- Back and there, for signals without constraint of the amplitude. -/
theorem C67_reverse_round_trip_partial (s : State K) (hs : Stereo s) (hc : s.constrain = false) :
    ∃ m t, midSide s false = .ok m ∧ midSide m true = .ok t ∧
      ∀ r < s.re.rows, t.sample r 0 = s.sample r 0 ∧ t.sample r 1 = s.sample r 1 := by
  obtain ⟨m, hm, hst, hmc, hmsh, hmv, hms⟩ := C67_left_right_partial s hs
  have hsc := hms (Or.inl hc)
  have hrows : m.re.rows = s.re.rows := hmsh.1
  obtain ⟨t, ht, -, -, -, -, htv⟩ := C67_mid_side m hst
  refine ⟨m, t, hm, ht, fun r hr => ?_⟩
  obtain ⟨h0, h1⟩ := hmv r hr
  obtain ⟨h2, h3⟩ := htv r (by rw [hrows]; exact hr)
  rw [hsc, one_mul] at h0 h1
  rw [h0, h1] at h2 h3
  constructor <;> linarith

omit [IsStrictOrderedRing K] in
/-- Signals with another number of channels are rejected. -/
theorem C67_rejects (s : State K) (h : s.re.cols ≠ 2) (b : Bool) :
    midSide s b = .error .assertionError := by
  unfold midSide
  rw [if_neg h]

example : Stereo demo := ⟨demo_valid, rfl, rfl⟩

/-- A constrained signal that holds a loud mid and a loud side channel. -/
def loud : State ℚ := ⟨⟨2, 2, fun _ _ => 1⟩, none, true, 1⟩

theorem loud_stereo : Stereo loud := by
  refine ⟨⟨by simp [loud], by simp [loud], fun _ r _ c _ => ?_⟩, rfl, rfl⟩
  simp [loud]

/-- With constrained amplitude, mid-side to left-right and back does not return the signal: half
of the amplitude is lost. -/
theorem C67_reverse_loses_level :
    ∃ m t, midSide loud false = .ok m ∧ midSide m true = .ok t ∧
      loud.sample 0 0 = 1 ∧ t.sample 0 0 ≤ 1 / 2 := by
  obtain ⟨m, hm, hst, hmc, hmsh, hmv, -⟩ := C67_left_right_partial loud loud_stereo
  obtain ⟨t, ht, -, -, -, -, htv⟩ := C67_mid_side m hst
  refine ⟨m, t, hm, ht, by decide +kernel, ?_⟩
  have hl0 : loud.sample 0 0 = 1 := by decide +kernel
  have hl1 : loud.sample 0 1 = 1 := by decide +kernel
  obtain ⟨h0, h1⟩ := hmv 0 (by simp [loud])
  obtain ⟨h2, -⟩ := htv 0 (by rw [hmsh.1]; simp [loud])
  have hb := (abs_le.1 (sample_bounded hst.1 (hmc.trans rfl) 0 0)).2
  rw [hl0, hl1] at h0 h1
  rw [h0, h1] at h2
  rw [h0] at hb
  linarith

end Verif.Props.C67

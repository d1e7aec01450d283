import Verif.Spec.Channels
import Verif.Lemmas.Realtime

/-! A lifted column filter behaves on each channel like the column run on that
channel's past inputs, for every history. -/

namespace Verif.Column

variable {K O : Type} (C : Column K O)

theorem lift_process_pos (s : ℕ × (ℕ → C.Col)) (x : K) (ch : ℕ) (h : ch < s.1) :
    C.lift.process s x ch = (.ok (C.step (s.2 ch) x).1,
        (s.1, fun c => if c = ch then (C.step (s.2 ch) x).2 else s.2 c)) := if_pos h

theorem lift_process_neg (s : ℕ × (ℕ → C.Col)) (x : K) (ch : ℕ) (h : ¬ ch < s.1) :
    C.lift.process s x ch = (.error .indexError, s) := if_neg h

theorem lift_after (h : List (Op K)) :
    (C.lift.after h).1 = nChannels h ∧
    ∀ ch, (C.lift.after h).2 ch = C.colAfter (pastInputs ch h) := by
  induction h using List.reverseRecOn with
  | nil => exact ⟨rfl, fun ch => rfl⟩
  | append_singleton h op ih =>
    obtain ⟨ihn, ihc⟩ := ih
    rw [RTFilter.after_snoc, nChannels_snoc]
    cases op with
    | reset => exact ⟨ihn, fun ch => by rw [pastInputs_snoc]; rfl⟩
    | setChannels m => exact ⟨rfl, fun ch => by rw [pastInputs_snoc]; rfl⟩
    | sample x c =>
      by_cases hc : c < (C.lift.after h).1
      · have hex : C.lift.exec (C.lift.after h) (.sample x c) = ((C.lift.after h).1,
            fun c' => if c' = c then (C.step ((C.lift.after h).2 c) x).2
              else (C.lift.after h).2 c') := by
          simp only [RTFilter.exec]
          exact congrArg Prod.snd (C.lift_process_pos (C.lift.after h) x c hc)
        rw [hex]
        refine ⟨ihn, fun ch => ?_⟩
        rw [pastInputs_snoc]
        have hc' : c < nChannels h := by rw [← ihn]; exact hc
        by_cases hcc : c = ch
        · subst hcc
          simp only [hc', if_true, and_self, colAfter, ihc]
        · have : ¬ ch = c := fun h => hcc h.symm
          simp only [hcc, this, if_false, false_and, ihc]
      · have hex : C.lift.exec (C.lift.after h) (.sample x c) = C.lift.after h := by
          simp only [RTFilter.exec]
          exact congrArg Prod.snd (C.lift_process_neg (C.lift.after h) x c hc)
        rw [hex]
        refine ⟨ihn, fun ch => ?_⟩
        rw [pastInputs_snoc]
        have hc' : ¬ (c = ch ∧ c < nChannels h) := by rw [← ihn]; tauto
        simp only [hc', if_false, ihc]

/-- Answer of a lifted filter after any history. -/
theorem lift_answer (h : List (Op K)) (x : K) (ch : ℕ) :
    C.lift.answer h x ch =
      if ch < nChannels h then .ok (C.out (pastInputs ch h) x) else .error .indexError := by
  obtain ⟨hn, hc⟩ := C.lift_after h
  unfold RTFilter.answer
  rw [← hn]
  split
  · rename_i h1
    unfold out
    rw [← hc]
    exact congrArg Prod.fst (C.lift_process_pos (C.lift.after h) x ch h1)
  · rename_i h1
    exact congrArg Prod.fst (C.lift_process_neg (C.lift.after h) x ch h1)

/-- The logged pairs of a lifted filter. -/
theorem lift_log (ch : ℕ) (h : List (Op K)) :
    C.lift.log ch h = (pastInputs ch h).zip (C.outs (pastInputs ch h)) := by
  induction h using List.reverseRecOn with
  | nil => rfl
  | append_singleton h op ih =>
    rw [RTFilter.log_snoc, pastInputs_snoc]
    cases op with
    | reset => rfl
    | setChannels m => rfl
    | sample x c =>
      simp only [lift_answer]
      by_cases hcc : c = ch
      · subst hcc
        by_cases hc : c < nChannels h
        · simp [hc, outs, ih]
        · simp [hc, ih]
      · simp [hcc, ih]

theorem outs_length (xs : List K) : (C.outs xs).length = xs.length := by
  induction xs with
  | nil => rfl
  | cons x xs ih => simp [outs, ih]

end Verif.Column

namespace Verif

theorem RTFilter.positiveChannels_after {K O : Type} (F : RTFilter K O) (h : List (Op K)) :
    F.positiveChannels.after h = F.after (dropZeroChannels h) := by
  induction h using List.reverseRecOn with
  | nil => rfl
  | append_singleton h op ih =>
    have hd : dropZeroChannels (h ++ [op]) = dropZeroChannels h ++ dropZeroChannels [op] := by
      simp [dropZeroChannels]
    rw [RTFilter.after_snoc, ih, hd]
    cases op with
    | sample x c => exact (F.after_snoc (dropZeroChannels h) (.sample x c)).symm
    | reset => exact (F.after_snoc (dropZeroChannels h) .reset).symm
    | setChannels m =>
      cases m with
      | zero => simp [RTFilter.exec, RTFilter.positiveChannels, dropZeroChannels]
      | succ m => exact (F.after_snoc (dropZeroChannels h) (.setChannels (m + 1))).symm

theorem RTFilter.positiveChannels_answer {K O : Type} (F : RTFilter K O) (h : List (Op K))
    (x : K) (ch : ℕ) :
    F.positiveChannels.answer h x ch = F.answer (dropZeroChannels h) x ch := by
  unfold RTFilter.answer
  rw [positiveChannels_after]
  rfl

theorem RTFilter.positiveChannels_log {K O : Type} (F : RTFilter K O) (ch : ℕ)
    (h : List (Op K)) :
    F.positiveChannels.log ch (dropZeroChannels h) = F.log ch (dropZeroChannels h) := by
  induction h using List.reverseRecOn with
  | nil => rfl
  | append_singleton h op ih =>
    have hd : dropZeroChannels (h ++ [op]) = dropZeroChannels h ++ dropZeroChannels [op] := by
      simp [dropZeroChannels]
    have hdd : dropZeroChannels (dropZeroChannels h) = dropZeroChannels h := by
      simp [dropZeroChannels]
    rw [hd]
    cases op with
    | sample x c =>
      show _ = F.log ch (dropZeroChannels h ++ [.sample x c])
      rw [RTFilter.log_snoc]
      show F.positiveChannels.log ch (dropZeroChannels h ++ [.sample x c]) = _
      rw [RTFilter.log_snoc]
      simp only [ih, positiveChannels_answer, hdd]
    | reset =>
      show F.positiveChannels.log ch (dropZeroChannels h ++ [.reset])
        = F.log ch (dropZeroChannels h ++ [.reset])
      rw [RTFilter.log_snoc, RTFilter.log_snoc]
    | setChannels m =>
      cases m with
      | zero => simpa [dropZeroChannels] using ih
      | succ m =>
        show F.positiveChannels.log ch (dropZeroChannels h ++ [.setChannels (m + 1)])
          = F.log ch (dropZeroChannels h ++ [.setChannels (m + 1)])
        rw [RTFilter.log_snoc, RTFilter.log_snoc]

end Verif

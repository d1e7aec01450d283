import Verif.Model.SignalData
import Mathlib.Algebra.Order.Field.Rat
import Mathlib.Algebra.Field.Rat
import Mathlib.Tactic.NormNum
import Mathlib.Tactic.Linarith

/-!
# C14: Signal data invariants hold after every history of operations
-/

namespace Verif.SignalData

variable {K : Type} [Field K] [LinearOrder K] [IsStrictOrderedRing K]

/-- Every entry of the array has magnitude at most 1. -/
def Bounded (A : Mat K) : Prop := ∀ r < A.rows, ∀ c < A.cols, |A.val r c| ≤ 1

/-- The invariants of a signal: not more channels than samples, imaginary part of the same
shape, and the real part within [-1, 1] if the amplitude is constrained. -/
structure Valid (s : State K) : Prop where
  shape : s.re.cols ≤ s.re.rows
  imag : ∀ B, s.im = some B → B.SameShape s.re
  bounded : s.constrain = true → Bounded s.re

omit [IsStrictOrderedRing K] in
private theorem le_maxAbs (A : Mat K) {r c : ℕ} (hr : r < A.rows) (hc : c < A.cols) :
    |A.val r c| ≤ maxAbs A := by
  unfold maxAbs
  rw [Finset.le_fold_max]
  right
  exact ⟨(r, c), by simp [hr, hc], le_rfl⟩

omit [IsStrictOrderedRing K] in
private theorem le_peak_re (x : Input K) {r c : ℕ} (hr : r < x.rows) (hc : c < x.cols) :
    |x.re r c| ≤ peak x := by
  have h := le_maxAbs x.reMat (r := r) (c := c) hr hc
  unfold peak
  split
  · exact h
  · exact le_trans h (le_max_left _ _)

omit [IsStrictOrderedRing K] in
private theorem le_peak_im (x : Input K) {B : Mat K} (hB : x.imMat = some B) {r c : ℕ}
    (hr : r < B.rows) (hc : c < B.cols) : |B.val r c| ≤ peak x := by
  have h := le_maxAbs B hr hc
  unfold peak
  rw [hB]
  exact le_trans h (le_max_right _ _)

omit [Field K] [LinearOrder K] [IsStrictOrderedRing K] in
/-- What the standard form does: the input or its transpose, with not more columns than
rows, never of shape (1, 1). -/
private theorem standardForm_spec {x y : Input K} (h : standardForm x = .ok y) :
    (y = x ∨ y = x.T) ∧ y.cols ≤ y.rows ∧ ¬ (y.rows = 1 ∧ y.cols = 1) := by
  have hTT : x.T.T = x := by
    cases x with | mk r c f g => cases g <;> rfl
  unfold standardForm at h
  split at h
  · exact absurd h (by simp)
  · rename_i h1
    simp only at h
    have h' := Except.ok.inj h
    have hTr : x.T.rows = x.cols := rfl
    have hTc : x.T.cols = x.rows := rfl
    split_ifs at h' with h2 h3 h3
    · rw [hTT] at h'
      subst h'
      exact ⟨Or.inl rfl, by omega, h1⟩
    · subst h'
      exact ⟨Or.inr rfl, by omega, by omega⟩
    · subst h'
      exact ⟨Or.inr rfl, by omega, by omega⟩
    · subst h'
      exact ⟨Or.inl rfl, by omega, h1⟩

omit [IsStrictOrderedRing K] in
/-- The peak as seen from outside: the largest magnitude among all real and imaginary
entries (and 0 for an array without entries). -/
theorem C14_peak_is_largest (x : Input K) :
    (∀ r < x.rows, ∀ c < x.cols, |x.re r c| ≤ peak x) ∧
    (∀ f, x.im = some f → ∀ r < x.rows, ∀ c < x.cols, |f r c| ≤ peak x) ∧
    (peak x = 0 ∨ ∃ r < x.rows, ∃ c < x.cols,
      peak x = |x.re r c| ∨ ∃ f, x.im = some f ∧ peak x = |f r c|) := by
  have hatt : ∀ A : Mat K, maxAbs A = 0 ∨ ∃ r < A.rows, ∃ c < A.cols, maxAbs A = |A.val r c| := by
    intro A
    by_cases h0 : maxAbs A ≤ 0
    · left
      refine le_antisymm h0 ?_
      unfold maxAbs
      rw [Finset.le_fold_max]; left; exact le_rfl
    · right
      have h1 : maxAbs A ≤ (Finset.range A.rows ×ˢ Finset.range A.cols).fold max 0
        (fun p => |A.val p.1 p.2|) := le_rfl
      rw [Finset.le_fold_max] at h1
      rcases h1 with h1 | ⟨p, hp, hle⟩
      · exact absurd h1 h0
      · simp only [Finset.mem_product, Finset.mem_range] at hp
        exact ⟨p.1, hp.1, p.2, hp.2, le_antisymm hle (le_maxAbs A hp.1 hp.2)⟩
  refine ⟨fun r hr c hc => le_peak_re x hr hc, fun f hf r hr c hc => ?_, ?_⟩
  · have hB : x.imMat = some ⟨x.rows, x.cols, f⟩ := by simp [Input.imMat, hf]
    exact le_peak_im x hB (r := r) (c := c) hr hc
  · cases hi : x.im with
    | none =>
      have hp : peak x = maxAbs x.reMat := by simp [peak, Input.imMat, hi]
      rcases hatt x.reMat with h | ⟨r, hr, c, hc, h⟩
      · left; rw [hp, h]
      · right; exact ⟨r, hr, c, hc, Or.inl (by rw [hp, h]; rfl)⟩
    | some f =>
      have hp : peak x = max (maxAbs x.reMat) (maxAbs ⟨x.rows, x.cols, f⟩) := by
        simp [peak, Input.imMat, hi]
      rcases max_choice (maxAbs x.reMat) (maxAbs ⟨x.rows, x.cols, f⟩) with h' | h'
      · rcases hatt x.reMat with h | ⟨r, hr, c, hc, h⟩
        · left; rw [hp, h', h]
        · right; exact ⟨r, hr, c, hc, Or.inl (by rw [hp, h', h]; rfl)⟩
      · rcases hatt (⟨x.rows, x.cols, f⟩ : Mat K) with h | ⟨r, hr, c, hc, h⟩
        · left; rw [hp, h', h]
        · right; exact ⟨r, hr, c, hc, Or.inr ⟨f, rfl, by rw [hp, h', h]⟩⟩

/-- **C14**, assignment: after a successful assignment of `x` the stored data is `x` or its
transpose (the one with not more channels than samples) multiplied by
`amplitude_scale_factor`, which is 1 unless the amplitude is constrained and the peak is
above 1, and then is 1 / peak; and every real and imaginary sample is within [-1, 1] if the
amplitude is constrained. -/
theorem C14_assignment (s s' : State K) (x : Input K) (h : setData s x = .ok s') :
    ∃ y : Input K, (y = x ∨ y = x.T) ∧ y.cols ≤ y.rows ∧
      s'.constrain = s.constrain ∧
      s'.scale = (if s.constrain = true ∧ 1 < peak y then 1 / peak y else 1) ∧
      Mat.Same s'.re ⟨y.rows, y.cols, fun r c => s'.scale * y.re r c⟩ ∧
      (s'.im.isSome = y.im.isSome) ∧
      (∀ f B, y.im = some f → s'.im = some B →
        Mat.Same B ⟨y.rows, y.cols, fun r c => s'.scale * f r c⟩) ∧
      (s.constrain = true → Bounded s'.re ∧ ∀ B, s'.im = some B → Bounded B) := by
  unfold setData at h
  cases hy : standardForm x with
  | error e => rw [hy] at h; exact absurd h (by simp)
  | ok y =>
    rw [hy] at h
    obtain ⟨hxy, hshape, -⟩ := standardForm_spec hy
    simp only at h
    refine ⟨y, hxy, hshape, ?_⟩
    cases hc : s.constrain with
    | false =>
      simp only [hc, Bool.false_eq_true, if_false] at h
      have h' := (Except.ok.inj h).symm
      subst h'
      refine ⟨rfl, by simp, ⟨rfl, rfl, fun r _ c _ => by simp [Input.reMat]⟩,
        by simp [Input.imMat], ?_, by simp⟩
      intro f B hf hB
      simp only [Input.imMat, hf, Option.map_some, Option.some.injEq] at hB
      subst hB
      exact ⟨rfl, rfl, fun r _ c _ => by simp⟩
    | true =>
      simp only [hc, if_true] at h
      split at h
      · exact absurd h (by simp)
      · split at h
        · rename_i hne hp
          have h' := (Except.ok.inj h).symm
          subst h'
          have hpos : 0 < peak y := lt_trans one_pos hp
          refine ⟨rfl, by simp [hp], ⟨rfl, rfl, fun r _ c _ => ?_⟩,
            by simp [Input.imMat], ?_, fun _ => ⟨?_, ?_⟩⟩
          · simp [Input.reMat, Mat.map, div_eq_inv_mul]
          · intro f B hf hB
            simp only [Input.imMat, hf, Option.map_some, Option.some.injEq] at hB
            subst hB
            exact ⟨rfl, rfl, fun r _ c _ => by simp [Mat.map, div_eq_inv_mul]⟩
          · intro r hr c hc'
            have := le_peak_re y (r := r) (c := c) hr hc'
            show |y.re r c / peak y| ≤ 1
            rw [abs_div, abs_of_pos hpos, div_le_one hpos]
            exact this
          · intro B hB
            simp only [Option.map_eq_some_iff] at hB
            obtain ⟨A, hA, rfl⟩ := hB
            intro r hr c hc'
            have := le_peak_im y hA (r := r) (c := c) hr hc'
            show |A.val r c / peak y| ≤ 1
            rw [abs_div, abs_of_pos hpos, div_le_one hpos]
            exact this
        · rename_i hne hp
          have h' := (Except.ok.inj h).symm
          subst h'
          refine ⟨rfl, by simp [hp], ⟨rfl, rfl, fun r _ c _ => by simp [Input.reMat]⟩,
            by simp [Input.imMat], ?_, fun _ => ⟨?_, ?_⟩⟩
          · intro f B hf hB
            simp only [Input.imMat, hf, Option.map_some, Option.some.injEq] at hB
            subst hB
            exact ⟨rfl, rfl, fun r _ c _ => by simp⟩
          · intro r hr c hc'
            exact le_trans (le_peak_re y (r := r) (c := c) hr hc') (not_lt.mp hp)
          · intro B hB r hr c hc'
            exact le_trans (le_peak_im y hB (r := r) (c := c) hr hc') (not_lt.mp hp)

private theorem setData_valid {s s' : State K} {x : Input K} (h : setData s x = .ok s') :
    Valid s' ∧ ¬ (s'.re.rows = 1 ∧ s'.re.cols = 1) := by
  obtain ⟨y, hxy, hsh, hc, -, hre, hsome, him, hb⟩ := C14_assignment s s' x h
  refine ⟨⟨?_, fun B hB => ?_, fun hc' => (hb (hc ▸ hc')).1⟩, ?_⟩
  · rw [hre.1, hre.2.1]; exact hsh
  · have : y.im.isSome = true := by rw [← hsome, hB]; rfl
    obtain ⟨f, hf⟩ := Option.isSome_iff_exists.mp this
    have := him f B hf hB
    exact ⟨this.1.trans hre.1.symm, this.2.1.trans hre.2.1.symm⟩
  · unfold setData at h
    cases hy : standardForm x with
    | error e => rw [hy] at h; exact absurd h (by simp)
    | ok z =>
      rw [hy] at h
      obtain ⟨-, -, h11⟩ := standardForm_spec hy
      simp only at h
      split_ifs at h <;> (have h' := (Except.ok.inj h).symm; subst h'; exact h11)

omit [IsStrictOrderedRing K] in
/-- Running the setter on stored data only raises if there are no samples. -/
private theorem setData_stored_error {s : State K} {e : Err}
    (h1 : ¬ (s.re.rows = 1 ∧ s.re.cols = 1)) (h : setData s s.reInput = .error e) :
    s.re.rows = 0 ∨ s.re.cols = 0 := by
  by_contra hne
  have hst : standardForm s.reInput = .ok s.reInput ∨
      standardForm s.reInput = .ok s.reInput.T := by
    unfold standardForm
    have h1 : ¬ (s.reInput.rows = 1 ∧ s.reInput.cols = 1) := h1
    rw [if_neg h1]
    simp only
    have hTT : s.reInput.T.T = s.reInput := rfl
    split_ifs <;> simp [hTT]
  unfold setData at h
  rcases hst with hst | hst <;> rw [hst] at h
  · have hz : ¬ (s.reInput.rows = 0 ∨ s.reInput.cols = 0) := hne
    simp only [hz, if_false] at h
    split_ifs at h
  · have hz : ¬ (s.reInput.T.rows = 0 ∨ s.reInput.T.cols = 0) := fun h => hne h.symm
    simp only [hz, if_false] at h
    split_ifs at h

private def Strong (s : State K) : Prop := Valid s ∧ ¬ (s.re.rows = 1 ∧ s.re.cols = 1)

private theorem orKeep_strong {s t : State K} (ht : Strong t) (x : Input K) :
    Strong (orKeep t (setData s x)).2 := by
  cases h : setData s x with
  | error e => exact ht
  | ok s' => exact setData_valid h

private theorem exec_strong {s : State K} (hs : Strong s) (c : Call K) :
    Strong (exec s c).2 := by
  cases c with
  | setData x => exact orKeep_strong hs x
  | setImaginary B =>
    show Strong (setImaginary s B).2
    cases B with
    | none => exact ⟨⟨hs.1.shape, fun B hB => by simp [setImaginary] at hB, hs.1.bounded⟩, hs.2⟩
    | some B =>
      unfold setImaginary
      simp only
      split
      · rename_i h
        refine ⟨⟨hs.1.shape, fun B' hB' => ?_, hs.1.bounded⟩, hs.2⟩
        have := Option.some.inj hB'
        subst this; exact h
      · exact hs
  | addChannel x r a =>
    show Strong (addChannel s x r a).2
    simp only [addChannel]
    split_ifs
    all_goals first | exact hs | exact orKeep_strong hs _
  | removeChannel ch =>
    show Strong (removeChannel s ch).2
    simp only [removeChannel]
    split_ifs
    all_goals first | exact hs | exact orKeep_strong hs _
  | swapChannels o =>
    show Strong (swapChannels s o).2
    simp only [swapChannels]
    split_ifs
    · exact orKeep_strong hs _
    · exact hs
  | setConstrain b =>
    show Strong (setConstrain s b).2
    cases b with
    | false => exact ⟨⟨hs.1.shape, hs.1.imag, fun h => absurd h (by simp [setConstrain])⟩, hs.2⟩
    | true =>
      simp only [setConstrain, if_true]
      set s1 : State K := ⟨s.re, s.im, true, s.scale⟩ with hs1
      cases h : setData s1 s1.reInput with
      | ok s' => exact setData_valid h
      | error e =>
        refine ⟨⟨hs.1.shape, hs.1.imag, fun _ => ?_⟩, hs.2⟩
        show Bounded s1.re
        intro r hr c hc
        rcases setData_stored_error (s := s1) hs.2 h with h0 | h0 <;> omega

/-- **C14**, every history (partial): after construction and any sequence of assignments
and channel operations, those that raise included, there are at least as many samples as
channels, imaginary data has the shape of the real data, and the real samples are within
[-1, 1] while the amplitude is constrained.  Missing (false of the code): the bound for
imaginary samples after `time_data_imaginary` was assigned, and the meaning of
`amplitude_scale_factor` after the amplitude constraint was switched on again. -/
theorem C14_invariants_partial (x : Input K) (b : Bool) (s : State K)
    (hx : construct x b = .ok s) (h : List (Call K)) : Valid (run s h) := by
  have key : ∀ (h : List (Call K)) (s : State K), Strong s → Strong (run s h) := by
    intro h
    induction h with
    | nil => intro s hs; exact hs
    | cons c h ih => intro s hs; exact ih _ (exec_strong hs c)
  exact (key h s (setData_valid hx)).1

private theorem imBound_exec {s : State K} (hs : Strong s)
    (hi : s.constrain = true → ∀ B, s.im = some B → Bounded B) (c : Call K)
    (hc : ∀ B, c ≠ .setImaginary (some B)) :
    (exec s c).2.constrain = true → ∀ B, (exec s c).2.im = some B → Bounded B := by
  have hkeep : ∀ (t : State K) (x : Input K),
      (t.constrain = true → ∀ B, t.im = some B → Bounded B) →
      (orKeep t (setData t x)).2.constrain = true →
      ∀ B, (orKeep t (setData t x)).2.im = some B → Bounded B := by
    intro t x ht
    cases h : setData t x with
    | error e => exact ht
    | ok s' =>
      obtain ⟨y, -, -, hcon, -, -, -, -, hb⟩ := C14_assignment t s' x h
      intro h1 B hB
      exact (hb (hcon ▸ h1)).2 B hB
  cases c with
  | setData x => exact hkeep s x hi
  | setImaginary B =>
    cases B with
    | none => intro _ B hB; simp [exec, setImaginary] at hB
    | some B => exact absurd rfl (hc B)
  | addChannel x r a =>
    simp only [exec, addChannel]
    split_ifs
    all_goals first | exact hi | exact hkeep s _ hi
  | removeChannel ch =>
    simp only [exec, removeChannel]
    split_ifs
    all_goals first | exact hi | exact hkeep s _ hi
  | swapChannels o =>
    simp only [exec, swapChannels]
    split_ifs
    · exact hkeep s _ hi
    · exact hi
  | setConstrain b =>
    cases b with
    | false => intro h; exact absurd h (by simp [exec, setConstrain])
    | true =>
      simp only [exec, setConstrain, if_true]
      set s1 : State K := ⟨s.re, s.im, true, s.scale⟩
      cases h : setData s1 s1.reInput with
      | ok s' =>
        obtain ⟨y, hy, -, -, -, -, hsome, -, -⟩ := C14_assignment s1 s' _ h
        intro _ B hB
        have hB' : s'.im = some B := hB
        rw [hB'] at hsome
        rcases hy with rfl | rfl <;> exact absurd hsome (by simp [State.reInput, Input.T])
      | error e =>
        intro _ B hB r hr c hc'
        have hsh := hs.1.imag B hB
        have h1 : B.rows = s1.re.rows := hsh.1
        have h2 : B.cols = s1.re.cols := hsh.2
        rcases setData_stored_error (s := s1) hs.2 h with h0 | h0 <;> omega

/-- **C14**, complex signals (partial): in every history in which the imaginary part is not
assigned on its own, the imaginary samples are within [-1, 1], too, while the amplitude is
constrained. -/
theorem C14_imaginary_bounded_partial (x : Input K) (b : Bool) (s : State K)
    (hx : construct x b = .ok s) (h : List (Call K))
    (hi : ∀ B, Call.setImaginary (some B) ∉ h) (hc : (run s h).constrain = true)
    (B : Mat K) (hB : (run s h).im = some B) : Bounded B := by
  have key : ∀ (h : List (Call K)) (s : State K), Strong s →
      (s.constrain = true → ∀ B, s.im = some B → Bounded B) →
      (∀ B, Call.setImaginary (some B) ∉ h) →
      ((run s h).constrain = true → ∀ B, (run s h).im = some B → Bounded B) := by
    intro h
    induction h with
    | nil => intro s _ hi _; exact hi
    | cons c h ih =>
      intro s hs hi hn
      refine ih _ (exec_strong hs c) (imBound_exec hs hi c fun B hB => ?_) fun B hB => ?_
      · exact hn B (by simp [hB])
      · exact hn B (by simp [hB])
  refine key h s (setData_valid hx) ?_ hi hc B hB
  obtain ⟨y, -, -, hcon, -, -, -, -, hb⟩ := C14_assignment _ s x hx
  intro h1 B hB
  exact (hb (hcon ▸ h1)).2 B hB

/-- A two-channel signal above full scale given with its channels as rows. -/
private def loud : Input ℚ := ⟨2, 3, fun r c => if r = 0 ∧ c = 1 then 4 else 1, none⟩

/-- `loud` is accepted, is stored with the time axis first, and is scaled by 1/4; later
calls (one of them rejected) keep it a valid signal. -/
example : ∃ s : State ℚ, construct loud true = .ok s ∧ s.re.rows = 3 ∧ s.re.cols = 2 ∧
    s.scale = 1 / 4 ∧ s.re.val 1 0 = 1 ∧ s.re.val 0 0 = 1 / 4 ∧
    Valid (run s [.removeChannel 7, .addChannel loud true true, .swapChannels [1, 0]]) := by
  have hp : peak loud.T = 4 := by decide +kernel
  have hs : construct loud true = .ok ⟨loud.T.reMat.map (· / 4), none, true, 1 / 4⟩ := by
    have h1 : standardForm loud = .ok loud.T := by simp [standardForm, loud, Input.T]
    have h2 : (1 : ℚ) < 4 := by norm_num
    simp only [construct, setData, h1, hp, gt_iff_lt, h2, if_true]
    simp [loud, Input.T, Input.imMat]
  exact ⟨_, hs, rfl, rfl, rfl, by norm_num [Input.reMat, Mat.map, loud, Input.T],
    by norm_num [Input.reMat, Mat.map, loud, Input.T], C14_invariants_partial _ _ _ hs _⟩

/-- The bound fails for the imaginary part: it can be assigned without being scaled. -/
theorem C14_imaginary_unbounded : ∃ (s : State ℚ) (h : List (Call ℚ)) (B : Mat ℚ),
    construct ⟨2, 1, fun _ _ => 1, none⟩ true = .ok s ∧ (run s h).constrain = true ∧
      (run s h).im = some B ∧ ¬ Bounded B := by
  have hp : peak (⟨2, 1, fun _ _ => 1, none⟩ : Input ℚ) = 1 := by decide +kernel
  refine ⟨⟨⟨2, 1, fun _ _ => 1⟩, none, true, 1⟩, [.setImaginary (some ⟨2, 1, fun _ _ => 7⟩)],
    ⟨2, 1, fun _ _ => 7⟩, ?_, ?_, ?_, ?_⟩
  · simp [construct, setData, standardForm, hp, Input.reMat, Input.imMat]
  · simp [run, exec, setImaginary, Mat.SameShape]
  · simp [run, exec, setImaginary, Mat.SameShape]
  · intro h
    have := h 0 (by norm_num) 0 (by norm_num)
    norm_num at this

/-- The scale factor loses its meaning: when the amplitude constraint is switched on a
second time, the factor is 1 although the stored samples are the assigned ones divided by
their peak. -/
theorem C14_scale_factor_forgotten : ∃ (s : State ℚ),
    construct ⟨2, 1, fun _ _ => 4, none⟩ true = .ok s ∧ s.scale = 1 / 4 ∧
      (run s [.setConstrain true]).re.val 0 0 = 1 ∧ (run s [.setConstrain true]).scale = 1 := by
  have hp : peak (⟨2, 1, fun _ _ => 4, none⟩ : Input ℚ) = 4 := by decide +kernel
  have hp1 : peak (⟨2, 1, fun _ _ => 1, none⟩ : Input ℚ) = 1 := by decide +kernel
  have h4 : (1 : ℚ) < 4 := by norm_num
  refine ⟨⟨⟨2, 1, fun _ _ => 4 / 4⟩, none, true, 1 / 4⟩, ?_, rfl, ?_, ?_⟩
  · simp [construct, setData, standardForm, hp, Input.reMat, Input.imMat, Mat.map, h4]
  all_goals
    simp only [run, exec, setConstrain, setData, standardForm, State.reInput, List.foldl_cons,
      List.foldl_nil, if_true]
    norm_num [hp1, Input.reMat, orKeep]

omit [IsStrictOrderedRing K] in
/-- A signal with one channel of one sample cannot be created: IndexError. -/
theorem C14_single_sample_raises (f : ℕ → ℕ → K) (g : Option (ℕ → ℕ → K)) (b : Bool) :
    construct ⟨1, 1, f, g⟩ b = .error .indexError := by
  simp [construct, setData, standardForm]

omit [IsStrictOrderedRing K] in
/-- Switching on the amplitude constraint discards the imaginary part of a signal. -/
theorem C14_constrain_drops_imaginary (s : State K)
    (h : (setConstrain s true).1 = none) : (setConstrain s true).2.im = none := by
  simp only [setConstrain, if_true] at h ⊢
  set s1 : State K := ⟨s.re, s.im, true, s.scale⟩
  cases hd : setData s1 s1.reInput with
  | error e => rw [hd] at h; exact absurd h (by simp [orKeep])
  | ok s' =>
    show s'.im = none
    unfold setData at hd
    cases hy : standardForm s1.reInput with
    | error e => rw [hy] at hd; exact absurd hd (by simp)
    | ok y =>
      rw [hy] at hd
      have hyi : y.imMat = none := by
        rcases (standardForm_spec hy).1 with rfl | rfl <;> rfl
      simp only [hyi] at hd
      split_ifs at hd <;> (have h' := (Except.ok.inj hd).symm; subst h'; rfl)

end Verif.SignalData

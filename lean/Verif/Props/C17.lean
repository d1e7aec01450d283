import Verif.Lemmas.SignalData

/-!
# C17: padding and trimming keeps the samples where they belong
-/

namespace Verif.SignalData

section list
variable {α : Type} [Zero α]

/-- **C17**, arrays: the result has exactly `n` entries; entry `i` is entry `i` of the input
(at the end) or the entry at the same distance from the end (at the beginning), and zero
where the input has none. -/
theorem C17_pad_trim_entries (xs : List α) (n i : ℕ) (h : i < n) :
    (padTrim xs n true).length = n ∧ (padTrim xs n false).length = n ∧
    (padTrim xs n true).getD i 0 = xs.getD i 0 ∧
    (padTrim xs n false).getD (n - 1 - i) 0 =
      (if i < xs.length then xs.getD (xs.length - 1 - i) 0 else 0) := by
  refine ⟨padTrim_length _ _ _, padTrim_length _ _ _, padTrim_end _ _ _ h, ?_⟩
  rw [padTrim_start _ _ _ (by omega)]
  by_cases hi : i < xs.length
  · rw [if_pos (by omega), if_pos hi]; congr 1; omega
  · rw [if_neg (by omega), if_neg hi]

/-- **C17**, growing and then shrinking on the same side restores the input, for every
array, every length and both sides; equal length is the identity. -/
theorem C17_round_trip (xs : List α) (n : ℕ) (e : Bool) (h : xs.length ≤ n) :
    padTrim (padTrim xs n e) xs.length e = xs ∧ padTrim xs xs.length e = xs := by
  refine ⟨?_, by simp [padTrim]⟩
  apply List.ext_getElem (padTrim_length _ _ _)
  intro i h1 h2
  rw [← List.getD_eq_getElem _ 0 h1, ← List.getD_eq_getElem _ 0 h2]
  cases e with
  | true => rw [padTrim_end _ _ _ h2, padTrim_end _ _ _ (by omega)]
  | false =>
    rw [padTrim_start _ _ _ h2, padTrim_length, if_pos (by omega),
      padTrim_start _ _ _ (by omega), if_pos (by omega)]
    congr 1
    omega

/-- The two sides are different and non-trivial. -/
example : padTrim [1, 2, 3] 5 true = [1, 2, 3, 0, 0] ∧ padTrim [1, 2, 3] 5 false = [0, 0, 1, 2, 3]
    ∧ padTrim [1, 2, 3] 2 true = [1, 2] ∧ padTrim [1, 2, 3] 2 false = [2, 3] := by decide

end list

variable {K : Type} [Field K] [LinearOrder K] [IsStrictOrderedRing K]

/-- **C17**, signals (partial): for every valid signal and every length that is not below
the number of channels (and not 1 for a single channel), `pad_trim` succeeds, the result
has `n` samples and the same channels, and its (real) samples are those of the signal at
the same distance from the start (`atEnd`) or from the end, zero elsewhere.  Missing: the
short lengths and the imaginary part, see the theorems below. -/
theorem C17_signal_partial (s : State K) (hs : Valid s) (n : ℕ) (e : Bool)
    (hc : 1 ≤ s.re.cols) (hn : s.re.cols ≤ n) (h1 : ¬ (n = 1 ∧ s.re.cols = 1)) :
    ∃ s', padTrimSignal s n e = .ok s' ∧ s'.HasShape n s.re.cols ∧
      s'.constrain = s.constrain ∧
      ∀ i < n, ∀ c < s.re.cols,
        (e = true → s'.sample i c = s.sample i c) ∧
        (e = false → s'.sample (n - 1 - i) c =
          if i < s.re.rows then s.sample (s.re.rows - 1 - i) c else 0) := by
  have hval : ∀ r < n, ∀ c < s.re.cols, (padTrim (colOf s.re c) n e).getD r 0 =
      if e = true then s.sample r c else
        if n ≤ r + s.re.rows then s.sample (r + s.re.rows - n) c else 0 := by
    intro r hr c hc
    cases e with
    | true =>
      rw [if_pos rfl, padTrim_end _ _ _ hr, colOf_getD]
      unfold State.sample
      simp [hc]
    | false =>
      rw [if_neg (by simp), padTrim_start _ _ _ hr, colOf_length, colOf_getD]
      unfold State.sample
      simp [hc]
  have hok := copyWith_ok s (ofCols n s.re.cols fun c => padTrim (colOf s.re c) n e) hn h1
    (fun hcon => ⟨hc, fun r hr c hc' => by
      show |(padTrim (colOf s.re c) n e).getD r 0| ≤ 1
      rw [hval r hr c hc']
      split_ifs
      · exact sample_bounded hs hcon r c
      · exact sample_bounded hs hcon _ c
      · simp, by simp [ofCols]⟩)
  refine ⟨_, hok, ⟨rfl, rfl⟩, rfl, fun i hi c hc' => ⟨fun he => ?_, fun he => ?_⟩⟩
  · subst he
    have h2 := hval i hi c hc'
    rw [if_pos rfl] at h2
    rw [← h2]
    simp [State.sample, ofCols, Input.reMat, hi, hc']
  · subst he
    have h2 := hval (n - 1 - i) (by omega) c hc'
    rw [if_neg (by simp)] at h2
    have h3 : (⟨(ofCols n s.re.cols fun c => padTrim (colOf s.re c) n false).reMat,
        (ofCols n s.re.cols fun c => padTrim (colOf s.re c) n false).imMat,
        s.constrain, 1⟩ : State K).sample (n - 1 - i) c =
        (padTrim (colOf s.re c) n false).getD (n - 1 - i) 0 := by
      have hi' : n - 1 - i < n := by omega
      simp [State.sample, ofCols, Input.reMat, hi', hc']
    rw [h3, h2]
    by_cases h4 : i < s.re.rows
    · rw [if_pos (by omega), if_pos h4]; congr 1; omega
    · rw [if_neg (by omega), if_neg h4]

/-- The hypotheses are met by a two-channel signal. -/
example : ∃ s', padTrimSignal demo 5 false = .ok s' ∧ s'.HasShape 5 2 ∧ s'.sample 4 1 = 5 / 6 := by
  obtain ⟨s', h, hsh, -, hv⟩ := C17_signal_partial demo demo_valid 5 false (by simp [demo])
    (by simp [demo]) (by simp)
  refine ⟨s', h, hsh, ?_⟩
  have := (hv 0 (by norm_num) 1 (by simp [demo])).2 rfl
  norm_num [State.sample, demo] at this ⊢
  exact this

omit [IsStrictOrderedRing K] in
/-- Below the number of channels the property fails: the samples and channels of the result
are exchanged, so the result does not have `n` samples. -/
theorem C17_short_is_transposed (s : State K) (n : ℕ) (e : Bool) (hn : n < s.re.cols)
    (s' : State K) (h : padTrimSignal s n e = .ok s') : s'.HasShape s.re.cols n := by
  unfold padTrimSignal copyWith construct setData at h
  rw [standardForm_T _ hn] at h
  simp only at h
  split_ifs at h <;> (have h' := (Except.ok.inj h).symm; subst h'; exact ⟨rfl, rfl⟩)

/-- Short lengths do occur: a signal with 2 channels and 3 samples trimmed to one sample
becomes a signal with one channel of two samples. -/
example : ∃ s' : State ℚ,
    padTrimSignal (⟨⟨3, 2, fun r c => r + 10 * c⟩, none, false, 1⟩ : State ℚ) 1 true = .ok s' ∧ s'.HasShape 2 1 := by
  refine ⟨_, rfl, rfl, rfl⟩

omit [IsStrictOrderedRing K] in
/-- A single-channel signal cannot be trimmed to one sample. -/
theorem C17_one_sample_raises (s : State K) (e : Bool) (h : s.re.cols = 1) :
    padTrimSignal s 1 e = .error .indexError := by
  simp [padTrimSignal, copyWith, construct, setData, standardForm, ofCols, h]

omit [IsStrictOrderedRing K] in
/-- The imaginary part of a complex signal is lost. -/
theorem C17_imaginary_lost (s s' : State K) (n : ℕ) (e : Bool)
    (h : padTrimSignal s n e = .ok s') (r c : ℕ) : s'.sampleIm r c = 0 := by
  have := copyWith_im_none s s' _ rfl h
  simp [State.sampleIm, this]

end Verif.SignalData

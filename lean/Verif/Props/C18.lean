import Verif.Lemmas.SignalData

/-!
# C18: appending signals concatenates their channels
-/

set_option linter.unusedSectionVars false

namespace Verif.SignalData

variable {K : Type} [Field K] [LinearOrder K]

/-- Number of channels of a list of signals. -/
def channelCount (sigs : List (State K × ℕ)) : ℕ := (sigs.map fun s => s.1.re.cols).sum

private theorem channelCount_append (a b : List (State K × ℕ)) :
    channelCount (a ++ b) = channelCount a + channelCount b := by
  simp [channelCount]

private theorem writeAllRe_before (n : ℕ) (e : Bool) (sigs : List (State K)) :
    ∀ (off : ℕ) (td : ℕ → ℕ → K) (r c : ℕ), c < off → writeAllRe n e sigs off td r c = td r c := by
  induction sigs with
  | nil => intros; rfl
  | cons s rest ih =>
    intro off td r c hc
    unfold writeAllRe
    rw [ih _ _ _ _ (by omega)]
    unfold writeBlock
    rw [if_neg (by omega)]

private theorem writeAllRe_at (n : ℕ) (e : Bool) (pre : List (State K)) (s : State K)
    (post : List (State K)) : ∀ (off : ℕ) (td : ℕ → ℕ → K) (r c : ℕ), r < n → c < s.re.cols →
      writeAllRe n e (pre ++ s :: post) off td r
        (off + (pre.map fun s => s.re.cols).sum + c) =
      (padTrim (colOf s.re c) n e).getD r 0 := by
  induction pre with
  | nil =>
    intro off td r c hr hc
    simp only [List.nil_append, List.map_nil, List.sum_nil]
    unfold writeAllRe
    rw [writeAllRe_before _ _ _ _ _ _ _ (by omega)]
    unfold writeBlock
    rw [if_pos (by omega)]
    congr 3
    omega
  | cons p pre ih =>
    intro off td r c hr hc
    simp only [List.cons_append, List.map_cons, List.sum_cons]
    unfold writeAllRe
    have := ih (off + p.re.cols) (writeBlock td off n p.re.cols fun r c =>
      (padTrim (colOf p.re c) n e).getD r 0) r c hr hc
    rw [← this]
    congr 1
    omega

private theorem writeAllIm_before (n : ℕ) (e : Bool) (sigs : List (State K)) :
    ∀ (off : ℕ) (td : ℕ → ℕ → K) (r c : ℕ), c < off → writeAllIm n e sigs off td r c = td r c := by
  induction sigs with
  | nil => intros; rfl
  | cons s rest ih =>
    intro off td r c hc
    unfold writeAllIm
    simp only
    rw [ih _ _ _ _ (by omega)]
    unfold writeBlock
    rw [if_neg (by omega)]

private theorem writeAllIm_at (n : ℕ) (e : Bool) (pre : List (State K)) (s : State K)
    (post : List (State K)) : ∀ (off : ℕ) (td : ℕ → ℕ → K) (r c : ℕ), r < n → c < s.re.cols →
      writeAllIm n e (pre ++ s :: post) off td r
        (off + (pre.map fun s => s.re.cols).sum + c) =
      (padTrim (colOf (s.im.getD ⟨s.re.rows, s.re.cols, fun _ _ => 0⟩) c) n e).getD r 0 := by
  induction pre with
  | nil =>
    intro off td r c hr hc
    simp only [List.nil_append, List.map_nil, List.sum_nil]
    unfold writeAllIm
    simp only
    rw [writeAllIm_before _ _ _ _ _ _ _ (by omega)]
    unfold writeBlock
    rw [if_pos (by omega)]
    congr 3
    omega
  | cons p pre ih =>
    intro off td r c hr hc
    simp only [List.cons_append, List.map_cons, List.sum_cons]
    unfold writeAllIm
    simp only
    have := ih (off + p.re.cols) (writeBlock td off n p.re.cols fun r c =>
      (padTrim (colOf (p.im.getD ⟨p.re.rows, p.re.cols, fun _ _ => 0⟩) c) n e).getD r 0) r c hr hc
    rw [← this]
    congr 1
    omega

variable [IsStrictOrderedRing K]

/-- **C18** (partial): for every list of at least two signals with one sampling rate (and,
without permission to pad or trim, one length) whose channels are together not more than
the samples of the first one, `append_signals` succeeds: the result has the length of the
first signal and all channels, and channel `c` of each signal, padded or trimmed at the
chosen side, real and imaginary part, is found behind the channels of the signals before it.
Everything is multiplied by `amplitude_scale_factor`, which is 1 unless the first signal
constrains the amplitude and some sample exceeds 1.  Missing: more channels than samples
(the data is then transposed). -/
theorem C18_append_partial (first : State K × ℕ) (rest : List (State K × ℕ)) (allow e : Bool)
    (hrest : rest ≠ [])
    (hrate : ∀ s ∈ rest, s.2 = first.2)
    (hlen : allow = false → ∀ s ∈ rest, s.1.re.rows = first.1.re.rows)
    (hvalid : ∀ s ∈ first :: rest, Valid s.1)
    (hshape : channelCount (first :: rest) ≤ first.1.re.rows)
    (h2 : 2 ≤ channelCount (first :: rest)) :
    ∃ s', appendSignals (first :: rest) allow e = .ok (s', first.2) ∧
      s'.HasShape first.1.re.rows (channelCount (first :: rest)) ∧
      s'.constrain = first.1.constrain ∧
      ((first.1.constrain = true → ∀ s ∈ first :: rest, ∀ r c,
        |s.1.sample r c| ≤ 1 ∧ |s.1.sampleIm r c| ≤ 1) → s'.scale = 1) ∧
      ∀ pre s post, first :: rest = pre ++ s :: post → ∀ c < s.1.re.cols,
        ∀ i < first.1.re.rows,
          s'.sample i (channelCount pre + c) = s'.scale *
            placed (fun r => s.1.sample r c) s.1.re.rows first.1.re.rows e i ∧
          s'.sampleIm i (channelCount pre + c) = s'.scale *
            placed (fun r => s.1.sampleIm r c) s.1.re.rows first.1.re.rows e i := by
  obtain ⟨second, rest', rfl⟩ := List.exists_cons_of_ne_nil hrest
  set sigs := first :: second :: rest' with hsigs
  set n := first.1.re.rows with hn
  set re := writeAllRe n e (sigs.map Prod.fst) 0 (fun _ _ => (0 : K)) with hre
  set im : Option (ℕ → ℕ → K) := if sigs.any fun s => s.1.im.isSome then
          some (writeAllIm n e (sigs.map Prod.fst) 0 fun _ _ => 0) else none with him
  have hcond : ∀ s ∈ sigs, s.2 = first.2 ∧ (allow = false → s.1.re.rows = first.1.re.rows) := by
    intro s hs
    rcases List.mem_cons.mp hs with rfl | hs
    · exact ⟨rfl, fun _ => rfl⟩
    · exact ⟨hrate s hs, fun ha => hlen ha s hs⟩
  obtain ⟨s', hs', hcon, hsh, hsc, hsre, hsim, -⟩ := setData_scaled first.1
    (⟨n, channelCount sigs, re, im⟩ : Input K) hshape (by show ¬ (n = 1 ∧ channelCount sigs = 1); omega)
    (by show 1 ≤ channelCount sigs; omega)
  have happ : appendSignals sigs allow e = .ok (s', first.2) := by
    have hs'' : setData first.1 (⟨n, (sigs.map fun s => s.1.re.cols).sum, re, im⟩ : Input K) =
      .ok s' := hs'
    rw [hsigs]
    unfold appendSignals
    simp only
    rw [← hsigs, if_pos hcond, hs'']
  -- entries of the new data
  have hmap : ∀ pre : List (State K × ℕ), ((pre.map Prod.fst).map fun s => s.re.cols).sum =
      channelCount pre := by
    intro pre; simp [channelCount, List.map_map, Function.comp_def]
  have hentry : ∀ pre s post, sigs = pre ++ s :: post → ∀ c < s.1.re.cols, ∀ i < n,
      re i (channelCount pre + c) = placed (fun r => s.1.sample r c) s.1.re.rows n e i ∧
      (im.elim 0 fun f => f i (channelCount pre + c)) =
        placed (fun r => s.1.sampleIm r c) s.1.re.rows n e i := by
    intro pre s post hsplit c hc i hi
    have hplaced : ∀ (f g : ℕ → K), (∀ r < s.1.re.rows, f r = g r) →
        placed f s.1.re.rows n e i = placed g s.1.re.rows n e i := by
      intro f g hfg
      unfold placed
      split_ifs with h1 h2 h2
      · exact hfg _ h2
      · rfl
      · exact hfg _ (by omega)
      · rfl
    constructor
    · have h := writeAllRe_at n e (pre.map Prod.fst) s.1 (post.map Prod.fst) 0
        (fun _ _ => (0 : K)) i c hi hc
      rw [hmap, Nat.zero_add] at h
      rw [hre, hsplit, List.map_append, List.map_cons, h, padTrim_col _ _ _ _ _ hi]
      apply hplaced
      intro r hr
      simp [State.sample, hr, hc]
    · have hmem : s ∈ sigs := by rw [hsplit]; simp
      have hv := hvalid s hmem
      by_cases hany : (sigs.any fun s => s.1.im.isSome) = true
      · have h := writeAllIm_at n e (pre.map Prod.fst) s.1 (post.map Prod.fst) 0
          (fun _ _ => (0 : K)) i c hi hc
        rw [hmap, Nat.zero_add] at h
        rw [him, if_pos hany, hsplit, List.map_append, List.map_cons]
        show writeAllIm _ _ _ _ _ _ _ = _
        rw [h, padTrim_col _ _ _ _ _ hi]
        cases hi' : s.1.im with
        | none =>
          apply hplaced
          intro r hr
          simp [State.sampleIm, hi']
        | some B =>
          obtain ⟨hB1, hB2⟩ := hv.imag B hi'
          rw [Option.getD_some, hB1]
          apply hplaced
          intro r hr
          simp [State.sampleIm, hi', hB1, hB2, hr, hc]
      · have hnone : s.1.im = none := by
          by_contra hne
          apply hany
          rw [List.any_eq_true]
          exact ⟨s, hmem, Option.isSome_iff_ne_none.mpr hne⟩
        rw [him, if_neg hany]
        have : ∀ r, s.1.sampleIm r c = 0 := by intro r; simp [State.sampleIm, hnone]
        simp only [this]
        unfold placed
        simp
  -- every column belongs to some signal
  have hcover : ∀ (l : List (State K × ℕ)) (c : ℕ), c < channelCount l →
      ∃ pre s post c', l = pre ++ s :: post ∧ c' < s.1.re.cols ∧ c = channelCount pre + c' := by
    intro l
    induction l with
    | nil => intro c hc; simp [channelCount] at hc
    | cons a l ih =>
      intro c hc
      have hadd : channelCount (a :: l) = a.1.re.cols + channelCount l := by simp [channelCount]
      by_cases h : c < a.1.re.cols
      · exact ⟨[], a, l, c, rfl, h, by simp [channelCount]⟩
      · obtain ⟨pre, s, post, c', hl, hc', hcc⟩ := ih (c - a.1.re.cols) (by omega)
        refine ⟨a :: pre, s, post, c', by rw [hl]; rfl, hc', ?_⟩
        have : channelCount (a :: pre) = a.1.re.cols + channelCount pre := by simp [channelCount]
        omega
  refine ⟨s', happ, hsh, hcon, fun hb => ?_, fun pre s post hsplit c hc i hi => ?_⟩
  · rw [hsc]
    split_ifs with h
    · exfalso
      refine not_le.mpr h.2 (peak_le_one _ (fun r hr c hc => ?_) (fun f hf r hr c hc => ?_))
      · obtain ⟨pre, s, post, c', hl, hc', hcc⟩ := hcover sigs c hc
        subst hcc
        show |re r _| ≤ 1
        rw [(hentry pre s post hl c' hc' r hr).1]
        have hb' := fun r c => hb h.1 s (by rw [hl]; simp) r c
        unfold placed
        split_ifs
        · exact (hb' _ _).1
        · simp
        · exact (hb' _ _).1
        · simp
      · obtain ⟨pre, s, post, c', hl, hc', hcc⟩ := hcover sigs c hc
        subst hcc
        have h3 := (hentry pre s post hl c' hc' r hr).2
        have hf' : im = some f := hf
        rw [hf'] at h3
        have h4 : f r (channelCount pre + c') = _ := h3
        rw [h4]
        have hb' := fun r c => hb h.1 s (by rw [hl]; simp) r c
        unfold placed
        split_ifs
        · exact (hb' _ _).2
        · simp
        · exact (hb' _ _).2
        · simp
    · rfl
  · have hlt : channelCount pre + c < channelCount sigs := by
      have : channelCount (s :: post) = s.1.re.cols + channelCount post := by simp [channelCount]
      rw [hsplit, channelCount_append, this]
      omega
    obtain ⟨h1, h3⟩ := hentry pre s post hsplit c hc i hi
    rw [hsre i hi _ hlt, hsim i hi _ hlt]
    exact ⟨congrArg (s'.scale * ·) h1, congrArg (s'.scale * ·) h3⟩

omit [IsStrictOrderedRing K] in
/-- **C18**, rejected inputs: fewer than two signals, different sampling rates, and
(without permission) different lengths raise AssertionError. -/
theorem C18_append_raises (sigs : List (State K × ℕ)) (allow e : Bool) :
    (sigs.length < 2 → appendSignals sigs allow e = .error .assertionError) ∧
    ((∃ s ∈ sigs, ∃ t ∈ sigs, s.2 ≠ t.2) → appendSignals sigs allow e = .error .assertionError) ∧
    (allow = false → (∃ s ∈ sigs, ∃ t ∈ sigs, s.1.re.rows ≠ t.1.re.rows) →
      appendSignals sigs allow e = .error .assertionError) := by
  match sigs with
  | [] => simp [appendSignals]
  | [a] => simp [appendSignals]
  | a :: b :: l =>
    refine ⟨by simp, ?_, ?_⟩
    · rintro ⟨s, hs, t, ht, hne⟩
      unfold appendSignals
      simp only
      rw [if_neg]
      intro h
      exact hne ((h s hs).1.trans (h t ht).1.symm)
    · rintro ha ⟨s, hs, t, ht, hne⟩
      unfold appendSignals
      simp only
      rw [if_neg]
      intro h
      exact hne (((h s hs).2 ha).trans ((h t ht).2 ha).symm)

/-- Two signals with different lengths meet the hypotheses. -/
example : ∃ s', appendSignals
    [((⟨⟨4, 1, fun r _ => (r : ℚ)⟩, none, false, 1⟩ : State ℚ), 48000), (demo, 48000)]
    true false = .ok (s', 48000) ∧ s'.HasShape 4 3 ∧ s'.sample 3 2 = 5 / 6 ∧ s'.sample 0 2 = 0 := by
  obtain ⟨s', h, hsh, -, hsc, hv⟩ := C18_append_partial
    ((⟨⟨4, 1, fun r _ => (r : ℚ)⟩, none, false, 1⟩ : State ℚ), 48000) [(demo, 48000)] true false
    (by simp) (by simp) (by simp)
    (by
      intro s hs
      rcases List.mem_cons.mp hs with rfl | hs
      · exact ⟨by simp, by simp, by simp⟩
      · rw [List.mem_singleton.mp hs]; exact demo_valid)
    (by simp [channelCount, demo]) (by simp [channelCount, demo])
  have hs1 : s'.scale = 1 := hsc (by simp)
  have h3 := (hv [(⟨⟨4, 1, fun r _ => (r : ℚ)⟩, none, false, 1⟩, 48000)] (demo, 48000) [] rfl 1
    (by simp [demo]) 3 (by norm_num)).1
  have h0 := (hv [(⟨⟨4, 1, fun r _ => (r : ℚ)⟩, none, false, 1⟩, 48000)] (demo, 48000) [] rfl 1
    (by simp [demo]) 0 (by norm_num)).1
  refine ⟨s', h, hsh, ?_, ?_⟩
  · rw [hs1] at h3
    norm_num [channelCount, placed, State.sample, demo] at h3 ⊢
    exact h3
  · rw [hs1] at h0
    norm_num [channelCount, placed, State.sample, demo] at h0 ⊢
    exact h0

/-- Multiband signals: the property fails.  Every band of the result starts with the
channels of the **first** band of the first signal: for two signals with two bands, the
second band of the result holds the samples 1 of the first band, not the samples 2. -/
theorem C18_bands_wrong : ∃ r : List (State ℚ × ℕ),
    appendBands [[(⟨⟨2, 1, fun _ _ => 1⟩, none, false, 1⟩, 1), (⟨⟨2, 1, fun _ _ => 2⟩, none, false, 1⟩, 1)],
      [(⟨⟨2, 1, fun _ _ => 3⟩, none, false, 1⟩, 1), (⟨⟨2, 1, fun _ _ => 4⟩, none, false, 1⟩, 1)]]
      true true = .ok r ∧
    r.map (fun b => (b.1.sample 0 0, b.1.sample 0 1)) = [(1, 3), (1, 4)] := by
  refine ⟨_, rfl, ?_⟩
  decide +kernel

end Verif.SignalData

import Verif.Lemmas.SignalData

/-!
# C19: integer delay shifts the selected channels only
-/

set_option linter.unusedSectionVars false

namespace Verif.SignalData

variable {K : Type} [Field K] [LinearOrder K]

/-- A channel delayed by `d` samples: `d` zeros, then the samples. -/
def delayedBy (d : ℕ) (f : ℕ → K) (i : ℕ) : K := if i < d then 0 else f (i - d)

theorem writeCols_not_mem (A B : ℕ → List K) (idx : List ℕ) (c : ℕ) (h : c ∉ idx) :
    writeCols A idx B c = A c := by
  unfold writeCols
  have key : ∀ (ks : List ℕ) (A : ℕ → List K), (∀ k ∈ ks, k < idx.length) →
      ks.foldl (fun A k => Function.update A (idx.getD k 0) (B k)) A c = A c := by
    intro ks
    induction ks with
    | nil => intros; rfl
    | cons k ks ih =>
      intro A hk
      rw [List.foldl_cons, ih _ fun k' hk' => hk k' (by simp [hk'])]
      rw [Function.update_of_ne]
      rintro rfl
      apply h
      have := hk k (by simp)
      rw [List.getD_eq_getElem _ _ this]
      exact List.getElem_mem this
  exact key _ A fun k hk => List.mem_range.mp hk

theorem writeCols_mem (A B : ℕ → List K) (idx : List ℕ) (hn : idx.Nodup) (k : ℕ)
    (h : k < idx.length) : writeCols A idx B (idx.getD k 0) = B k := by
  unfold writeCols
  have key : ∀ m ≤ idx.length, k < m →
      (List.range m).foldl (fun A k => Function.update A (idx.getD k 0) (B k)) A (idx.getD k 0) =
        B k := by
    intro m
    induction m with
    | zero => intro _ h; omega
    | succ m ih =>
      intro hm hk
      rw [List.range_succ, List.foldl_append, List.foldl_cons, List.foldl_nil]
      by_cases hkm : k = m
      · subst hkm; rw [Function.update_self]
      · rw [Function.update_of_ne, ih (by omega) (by omega)]
        intro heq
        apply hkm
        rw [List.getD_eq_getElem _ _ (by omega), List.getD_eq_getElem _ _ (by omega)] at heq
        exact (List.Nodup.getElem_inj_iff hn).mp heq
  exact key _ le_rfl h

variable [IsStrictOrderedRing K]

/-- **C19** (for real signals): for every valid signal, every delay `d ≥ 0`, every selection
of existing channels without repetition and both settings of `keep_length` (the delay being
shorter than the signal if it is set), the call succeeds; the result has `d` more samples
(or the same number with `keep_length`), a selected channel holds `d` zeros followed by its
samples, and any other channel holds its samples followed by zeros. -/
theorem C19_delay (s : State K) (hs : Valid s) (hc : 1 ≤ s.re.cols) (d : ℕ)
    (channels : Option (List ℕ)) (keep : Bool)
    (hchs : ∀ chs, channels = some chs → (∀ c ∈ chs, c < s.re.cols) ∧ chs.Nodup)
    (hkeep : keep = true → d < s.re.rows) :
    ∃ s', delaySignal s d channels keep = .ok s' ∧
      s'.HasShape (if keep then s.re.rows else s.re.rows + d) s.re.cols ∧
      ∀ c < s.re.cols, ∀ i < s'.re.rows,
        s'.sample i c =
          if (∀ chs, channels = some chs → c ∈ chs) then delayedBy d (fun r => s.sample r c) i
          else s.sample i c := by
  have hrows : s.re.cols ≤ s.re.rows := hs.shape
  by_cases hd : d = 0
  · subst hd
    refine ⟨s, by simp [delaySignal], ⟨by split <;> simp, rfl⟩, fun c _ i _ => ?_⟩
    split_ifs <;> simp [delayedBy]
  · set chs := channels.getD (List.range s.re.cols) with hchsdef
    have hok : (∀ c ∈ chs, c < s.re.cols) ∧ chs.Nodup := by
      cases hch : channels with
      | none =>
        rw [hchsdef, hch]
        exact ⟨fun c hc => List.mem_range.mp hc, List.nodup_range⟩
      | some l => rw [hchsdef, hch]; exact hchs l hch
    set n := d + s.re.rows with hn
    set chsNot := chs.filter (fun c => ¬ c < s.re.cols) with hnotdef
    have hnot : chsNot = [] := by
      rw [hnotdef, List.filter_eq_nil_iff]
      intro c hc
      simp [hok.1 c hc]
    set td := fun c => padTrim (colOf s.re c) n true
    set notDelayed := fun k => padTrim (colOf s.re (chsNot.getD k 0)) n true
    set delayed := fun k => padTrim (colOf s.re (chs.getD k 0)) n false
    set td2 := writeCols (writeCols td chsNot notDelayed) chs delayed with htd2
    set len := (if keep then s.re.rows else n) with hlen
    have hdef : delaySignal s d channels keep = copyWith s (ofCols len s.re.cols td2) := by
      have hnk : ¬ (keep = true ∧ s.re.rows ≤ d) := fun h => by have := hkeep h.1; omega
      simp only [delaySignal, hd, hnk, if_false]
      rw [if_pos hok]
    have hval : ∀ c < s.re.cols, ∀ i < n, (td2 c).getD i 0 =
        if c ∈ chs then delayedBy d (fun r => s.sample r c) i else s.sample i c := by
      intro c hc i hi
      by_cases hmem : c ∈ chs
      · rw [if_pos hmem]
        obtain ⟨k, hk, hck⟩ := List.getElem_of_mem hmem
        have hck' : chs.getD k 0 = c := by rw [List.getD_eq_getElem _ _ hk, hck]
        have h1 : td2 c = delayed k := by
          rw [htd2, ← hck', writeCols_mem _ _ _ hok.2 _ hk]
        rw [h1]
        show (padTrim (colOf s.re (chs.getD k 0)) n false).getD i 0 = _
        rw [hck', padTrim_col _ _ _ _ _ hi]
        unfold placed delayedBy State.sample
        simp only [Bool.false_eq_true, if_false]
        by_cases hid : i < d
        · rw [if_neg (by omega), if_pos hid]
        · have h2 : i + s.re.rows - n = i - d := by omega
          rw [if_pos (by omega), if_neg hid, if_pos ⟨by omega, hc⟩, h2]
      · rw [if_neg hmem]
        have h1 : td2 c = td c := by
          rw [htd2, writeCols_not_mem _ _ _ _ hmem, hnot]; rfl
        rw [h1]
        show (padTrim (colOf s.re c) n true).getD i 0 = _
        rw [padTrim_col _ _ _ _ _ hi]
        unfold placed State.sample
        simp [hc]
    have hlen_le : len ≤ n := by rw [hlen]; split_ifs <;> omega
    have hlen_ge : s.re.cols ≤ len := by rw [hlen]; split_ifs <;> omega
    have h11 : ¬ (len = 1 ∧ s.re.cols = 1) := by
      rw [hlen]
      cases keep with
      | true => have := hkeep rfl; simp only [if_true]; omega
      | false => simp only [Bool.false_eq_true, if_false]; omega
    have hres := copyWith_ok s (ofCols len s.re.cols td2) hlen_ge h11 (fun hcon => ⟨hc,
      fun r hr c hc' => by
        show |(td2 c).getD r 0| ≤ 1
        have hr' : r < len := hr
        rw [hval c hc' r (by omega)]
        unfold delayedBy
        split_ifs
        · simp
        · exact sample_bounded hs hcon _ _
        · exact sample_bounded hs hcon _ _, by simp [ofCols]⟩)
    rw [hdef]
    refine ⟨_, hres, ⟨?_, rfl⟩, fun c hc' i hi => ?_⟩
    · show len = _
      rw [hlen, hn, Nat.add_comm]
    · have hi' : i < len := hi
      have h1 : (⟨(ofCols len s.re.cols td2).reMat, (ofCols len s.re.cols td2).imMat,
          s.constrain, 1⟩ : State K).sample i c = (td2 c).getD i 0 := by
        simp [State.sample, ofCols, Input.reMat, hi', hc']
      rw [h1, hval c hc' i (by omega)]
      have h2 : c ∈ chs ↔ ∀ l, channels = some l → c ∈ l := by
        cases hch : channels with
        | none => rw [hchsdef, hch]; simp [hc']
        | some l => rw [hchsdef, hch]; simp
      simp only [h2]

omit [IsStrictOrderedRing K] in
/-- **C19**, rejected: a channel that does not exist, a channel given twice, or, with
`keep_length`, a delay that is not shorter than the signal, raise AssertionError. -/
theorem C19_delay_raises (s : State K) (d : ℕ) (hd : d ≠ 0) (chs : List ℕ) (keep : Bool)
    (h : (∃ c ∈ chs, s.re.cols ≤ c) ∨ ¬ chs.Nodup ∨ (keep = true ∧ s.re.rows ≤ d)) :
    delaySignal s d (some chs) keep = .error .assertionError := by
  simp only [delaySignal, hd, if_false]
  by_cases hk : keep = true ∧ s.re.rows ≤ d
  · rw [if_pos hk]
  · rw [if_neg hk]
    simp only [Option.getD_some]
    rw [if_neg]
    rintro ⟨h1, h2⟩
    rcases h with ⟨c, hc, hle⟩ | h | h
    · have := h1 c hc; omega
    · exact h h2
    · exact hk h

/-- Only the second channel of a two-channel signal is delayed. -/
example : ∃ s', delaySignal demo 2 (some [1]) false = .ok s' ∧ s'.HasShape 5 2 ∧
    s'.sample 2 1 = 1 / 2 ∧ s'.sample 1 0 = 1 / 6 ∧ s'.sample 4 0 = 0 := by
  obtain ⟨s', h, hsh, hv⟩ := C19_delay demo demo_valid (by simp [demo]) 2 (some [1]) false
    (by simp [demo]) (by simp)
  have hrows : s'.re.rows = 5 := hsh.1
  have h1 := hv 1 (by simp [demo]) 2 (by omega)
  have h2 := hv 0 (by simp [demo]) 1 (by omega)
  have h3 := hv 0 (by simp [demo]) 4 (by omega)
  refine ⟨s', h, hsh, ?_, ?_, ?_⟩
  · rw [h1]; norm_num [delayedBy, State.sample, demo]
  · rw [h2]; norm_num [delayedBy, State.sample, demo]
  · rw [h3]; norm_num [delayedBy, State.sample, demo]

omit [IsStrictOrderedRing K] in
/-- The imaginary part of a complex signal is lost by a delay of at least one sample (the
property as stated holds for real signals). -/
theorem C19_imaginary_lost (s s' : State K) (d : ℕ) (hd : d ≠ 0) (channels : Option (List ℕ))
    (keep : Bool) (h : delaySignal s d channels keep = .ok s') : s'.im = none := by
  simp only [delaySignal, hd, if_false] at h
  split_ifs at h <;> exact copyWith_im_none s s' _ rfl h

end Verif.SignalData

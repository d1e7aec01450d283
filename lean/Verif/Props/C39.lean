import Verif.Model.Collapse
import Verif.Lemmas.SignalData
import Verif.Props.C37

/-!
# C39: channel operations permute, select and delete exactly the requested channels
-/

set_option linter.unusedSectionVars false

namespace Verif.Collapse

open SignalData

variable {K : Type} [Field K] [LinearOrder K] [IsStrictOrderedRing K]

/-- Signals as they come out of the constructor with the imaginary part in the same range. -/
structure Ready (s : State K) : Prop where
  one : 1 ≤ s.re.cols
  tall : s.re.cols ≤ s.re.rows
  more : s.re.rows ≠ 1
  imShape : ∀ B, s.im = some B → B.rows = s.re.rows ∧ B.cols = s.re.cols
  bounded : s.constrain = true → ∀ r c, |s.sample r c| ≤ 1 ∧ |s.sampleIm r c| ≤ 1

/-- Two signals hold the same data. -/
def SameData (s t : State K) : Prop :=
  t.HasShape s.re.rows s.re.cols ∧ t.im.isSome = s.im.isSome ∧
    ∀ r c, t.sample r c = s.sample r c ∧ t.sampleIm r c = s.sampleIm r c

/-- Channel `c` of `t` is channel `f c` of `s`, for `n` channels. -/
def TakesChannels (s t : State K) (n : ℕ) (f : ℕ → ℕ) : Prop :=
  t.HasShape s.re.rows n ∧ t.im.isSome = s.im.isSome ∧
    ∀ r, ∀ c < n, t.sample r c = s.sample r (f c) ∧ t.sampleIm r c = s.sampleIm r (f c)

/-- Rearranged channels, as an input array. -/
def picked (s : State K) (n : ℕ) (f : ℕ → ℕ) : Input K :=
  ⟨s.re.rows, n, fun r c => s.re.val r (f c), s.im.map fun B r c => B.val r (f c)⟩

theorem sample_in (s : State K) (r c : ℕ) (hr : r < s.re.rows) (hc : c < s.re.cols) :
    s.sample r c = s.re.val r c := if_pos ⟨hr, hc⟩

theorem sample_out (s : State K) (r c : ℕ) (h : ¬ (r < s.re.rows ∧ c < s.re.cols)) :
    s.sample r c = 0 := if_neg h

theorem picked_stored (s u : State K) (hs : Ready s) (hu : u.constrain = s.constrain) (n : ℕ)
    (hn : 1 ≤ n) (hnr : n ≤ s.re.rows) (f : ℕ → ℕ) (hf : ∀ c < n, f c < s.re.cols) :
    ∃ t, setData u (picked s n f) = .ok t ∧ TakesChannels s t n f ∧ Ready t ∧
      t.constrain = s.constrain := by
  have h := setData_ok u (picked s n f) hnr (fun hh => hs.more hh.1) (by
    intro hc
    rw [hu] at hc
    refine ⟨hn, fun r hr c hc' => ?_, fun g hg r hr c hc' => ?_⟩
    · have := (hs.bounded hc r (f c)).1
      unfold State.sample at this
      rwa [if_pos ⟨hr, hf c hc'⟩] at this
    · have := (hs.bounded hc r (f c)).2
      cases hB : s.im with
      | none => simp [picked, hB] at hg
      | some B =>
        simp only [picked, hB, Option.map_some, Option.some.injEq] at hg
        subst hg
        unfold State.sampleIm at this
        rw [hB] at this
        simp only at this
        rwa [if_pos ⟨by rw [(hs.imShape B hB).1]; exact hr,
          by rw [(hs.imShape B hB).2]; exact hf c hc'⟩] at this)
  have hre : ∀ r, ∀ c < n, (⟨(picked s n f).reMat, (picked s n f).imMat, u.constrain, 1⟩ :
      State K).sample r c = s.sample r (f c) := by
    intro r c hc
    by_cases hr : r < s.re.rows
    · rw [sample_in s r (f c) hr (hf c hc), sample_in _ r c (by exact hr) (by exact hc)]
      rfl
    · rw [sample_out s r (f c) (fun h => hr h.1)]
      exact sample_out _ r c (fun h => hr h.1)
  have him : ∀ r, ∀ c < n, (⟨(picked s n f).reMat, (picked s n f).imMat, u.constrain, 1⟩ :
      State K).sampleIm r c = s.sampleIm r (f c) := by
    intro r c hc
    unfold State.sampleIm
    cases hB : s.im with
    | none => simp [picked, Input.imMat, hB]
    | some B =>
      simp only [picked, Input.imMat, hB, Option.map_some]
      rw [(hs.imShape B hB).1, (hs.imShape B hB).2]
      by_cases hr : r < s.re.rows
      · rw [if_pos ⟨hr, hc⟩, if_pos ⟨hr, hf c hc⟩]
      · rw [if_neg (fun h => hr h.1), if_neg (fun h => hr h.1)]
  refine ⟨_, h, ⟨⟨rfl, rfl⟩, ?_, fun r c hc => ⟨hre r c hc, him r c hc⟩⟩,
    ⟨hn, hnr, hs.more, ?_, ?_⟩, hu⟩
  · simp [picked, Input.imMat]
  · intro B hB
    simp only [picked, Input.imMat, Option.map_map, Option.map_eq_some_iff] at hB
    obtain ⟨B', -, rfl⟩ := hB
    exact ⟨rfl, rfl⟩
  · intro hc r c
    have hc' : s.constrain = true := by rw [← hu]; exact hc
    by_cases hcn : c < n
    · rw [hre r c hcn, him r c hcn]
      exact hs.bounded hc' r (f c)
    · constructor
      · unfold State.sample
        rw [if_neg (fun h => hcn h.2)]
        simp
      · unfold State.sampleIm
        cases hB : s.im with
        | none => simp [picked, Input.imMat, hB]
        | some B =>
          simp only [picked, Input.imMat, hB, Option.map_some]
          rw [if_neg (fun h => hcn h.2)]
          simp

/-- The vectors of indices that are permutations of the channels. -/
def IsOrder (n : ℕ) (order : List ℤ) : Prop :=
  order.Perm ((List.range n).map fun k : ℕ => (k : ℤ))

theorem isOrder_iff (n : ℕ) (order : List ℤ) :
    IsOrder n order ↔ n = order.length ∧ (∀ i ∈ order, i < n ∧ 0 ≤ i) ∧ order.Nodup := by
  constructor
  · intro h
    refine ⟨by have := h.length_eq; simp at this; exact this.symm, fun i hi => ?_, ?_⟩
    · have := h.mem_iff.mp hi
      simp only [List.mem_map, List.mem_range] at this
      obtain ⟨k, hk, rfl⟩ := this
      omega
    · refine h.nodup_iff.mpr (List.Nodup.map ?_ List.nodup_range)
      intro a b hab
      simpa using hab
  · rintro ⟨hl, hr, hn⟩
    refine List.Subperm.perm_of_length_le (List.subperm_of_subset hn ?_) (by simp [hl])
    intro i hi
    have := hr i hi
    exact List.mem_map.mpr ⟨i.toNat, List.mem_range.mpr (by omega), by omega⟩

/-- `swap_channels` accepts exactly the permutations of the channel indices; an accepted one
rearranges the channels accordingly, a rejected one leaves the signal as it was. -/
theorem C39_swap (s : State K) (hs : Ready s) (order : List ℤ) :
    (IsOrder s.re.cols order → (swapChannels s order).1 = none ∧
      TakesChannels s (swapChannels s order).2 s.re.cols (fun c => (order.getD c 0).toNat)) ∧
    (¬ IsOrder s.re.cols order → swapChannels s order = (some .assertionError, s)) := by
  rw [isOrder_iff]
  constructor
  · intro h
    obtain ⟨t, ht, htake, -⟩ := picked_stored s s hs rfl order.length (by rw [← h.1]; exact hs.one)
      (by rw [← h.1]; exact hs.tall) (fun c => (order.getD c 0).toNat) (by
        intro c hc
        rw [List.getD_eq_getElem _ _ hc]
        have := h.2.1 _ (List.getElem_mem hc)
        omega)
    have hsw : swapChannels s order = orKeep s (setData s (picked s order.length
        fun c => (order.getD c 0).toNat)) := by
      unfold swapChannels
      rw [if_pos h]
      simp only [picked, State.fullInput, Option.map_map, Function.comp_def]
    rw [hsw, ht]
    refine ⟨rfl, ?_⟩
    rw [h.1]
    exact htake
  · intro h
    unfold swapChannels
    rw [if_neg h]

/-- Swapping is undone by the inverse permutation. -/
theorem C39_swap_undone (s : State K) (hs : Ready s) (order inverse : List ℤ)
    (h1 : IsOrder s.re.cols order) (h2 : IsOrder s.re.cols inverse)
    (hinv : ∀ c < s.re.cols, order.getD (inverse.getD c 0).toNat 0 = c) :
    SameData s (swapChannels (swapChannels s order).2 inverse).2 := by
  have h1' := (isOrder_iff _ _).mp h1
  have h2' := (isOrder_iff _ _).mp h2
  obtain ⟨t, ht, htake, hready, -⟩ := picked_stored s s hs rfl order.length
    (by rw [← h1'.1]; exact hs.one) (by rw [← h1'.1]; exact hs.tall)
    (fun c => (order.getD c 0).toNat) (by
      intro c hc
      rw [List.getD_eq_getElem _ _ hc]
      have := h1'.2.1 _ (List.getElem_mem hc)
      omega)
  have hsw : swapChannels s order = orKeep s (setData s (picked s order.length
      fun c => (order.getD c 0).toNat)) := by
    unfold swapChannels
    rw [if_pos h1']
    simp only [picked, State.fullInput, Option.map_map, Function.comp_def]
  have hst : (swapChannels s order).2 = t := by rw [hsw, ht]; rfl
  rw [hst]
  have hcols : t.re.cols = s.re.cols := by rw [htake.1.2, h1'.1]
  have hrows : t.re.rows = s.re.rows := htake.1.1
  obtain ⟨-, hu⟩ := (C39_swap t hready inverse).1 (by rw [hcols]; exact h2)
  refine ⟨by rw [← hrows, ← hcols]; exact hu.1, hu.2.1.trans htake.2.1, fun r c => ?_⟩
  by_cases hc : c < s.re.cols
  · have hic : (inverse.getD c 0).toNat < s.re.cols := by
      rw [List.getD_eq_getElem _ _ (by rw [← h2'.1]; exact hc)]
      have := h2'.2.1 _ (List.getElem_mem (by rw [← h2'.1]; exact hc : c < inverse.length))
      omega
    have ha := hu.2.2 r c (by rw [hcols]; exact hc)
    have hb := htake.2.2 r (inverse.getD c 0).toNat (by rw [← h1'.1]; exact hic)
    rw [ha.1, ha.2, hb.1, hb.2]
    simp only
    rw [hinv c hc]
    simp
  · have hz : ∀ v : State K, v.re.cols = s.re.cols → Ready v →
        v.sample r c = 0 ∧ v.sampleIm r c = 0 := by
      intro v hv hvr
      constructor
      · unfold State.sample
        rw [if_neg (fun h => hc (by rw [← hv]; exact h.2))]
      · unfold State.sampleIm
        cases hB : v.im with
        | none => rfl
        | some B =>
          simp only
          rw [if_neg (fun h => hc (by rw [← hv, ← (hvr.imShape B hB).2]; exact h.2))]
    have h2'' := (isOrder_iff _ _).mp (show IsOrder t.re.cols inverse by rw [hcols]; exact h2)
    obtain ⟨w, hw, hwt, hwready, -⟩ := picked_stored t t hready rfl inverse.length
      (by rw [← h2''.1]; exact hready.one) (by rw [← h2''.1]; exact hready.tall)
      (fun c => (inverse.getD c 0).toNat) (by
        intro c hc
        rw [List.getD_eq_getElem _ _ hc]
        have := h2''.2.1 _ (List.getElem_mem hc)
        omega)
    have hsw' : swapChannels t inverse = orKeep t (setData t (picked t inverse.length
        fun c => (inverse.getD c 0).toNat)) := by
      unfold swapChannels
      rw [if_pos h2'']
      simp only [picked, State.fullInput, Option.map_map, Function.comp_def]
    have hwt' : (swapChannels t inverse).2 = w := by rw [hsw', hw]; rfl
    rw [hwt']
    have h3 := hz w (by rw [hwt.1.2, ← h2''.1, hcols]) hwready
    have h4 := hz s rfl hs
    rw [h3.1, h3.2, h4.1, h4.2]
    exact ⟨rfl, rfl⟩

/-- Position of a python index. -/
def position (n : ℕ) (i : ℤ) : ℕ := (if i < 0 then i + n else i).toNat

/-- `remove_channel` is accepted exactly for python indices of signals with two or more
channels, and takes out exactly that channel; a rejected call leaves the signal as it
was. -/
theorem C39_remove (s : State K) (hs : Ready s) (ch : ℤ) :
    (2 ≤ s.re.cols → -s.re.cols ≤ ch → ch < s.re.cols → (removeChannel s ch).1 = none ∧
      TakesChannels s (removeChannel s ch).2 (s.re.cols - 1)
        (fun c => if c < position s.re.cols ch then c else c + 1)) ∧
    (¬ (2 ≤ s.re.cols ∧ -s.re.cols ≤ ch ∧ ch < s.re.cols) →
      (removeChannel s ch).1 ≠ none ∧ (removeChannel s ch).2 = s) := by
  constructor
  · intro h1 h2 h3
    set ch1 : ℤ := if ch = -1 then (s.re.cols : ℤ) - 1 else ch with hch1
    have hj : (if ch1 < 0 then ch1 + s.re.cols else ch1).toNat = position s.re.cols ch := by
      unfold position
      rw [hch1]
      split_ifs <;> omega
    have hjl : position s.re.cols ch < s.re.cols := by
      unfold position
      split_ifs <;> omega
    have hrm : removeChannel s ch = orKeep s (setData s (picked s (s.re.cols - 1)
        fun c => if c < position s.re.cols ch then c else c + 1)) := by
      unfold removeChannel
      simp only
      rw [if_neg (by omega), if_neg (by split_ifs <;> omega), if_neg (by split_ifs <;> omega)]
      simp only [picked, State.fullInput, Option.map_map, Function.comp_def]
      rw [← hch1, hj]
    obtain ⟨t, ht, htake, -⟩ := picked_stored s s hs rfl (s.re.cols - 1) (by omega)
      (by have := hs.tall; omega) (fun c => if c < position s.re.cols ch then c else c + 1) (by
        intro c hc
        split_ifs <;> omega)
    rw [hrm, ht]
    exact ⟨rfl, htake⟩
  · intro h
    unfold removeChannel
    simp only
    by_cases h1 : s.re.cols ≤ 1
    · rw [if_pos h1]
      simp
    · rw [if_neg h1]
      by_cases h2 : (s.re.cols : ℤ) - 1 < (if ch = -1 then (s.re.cols : ℤ) - 1 else ch)
      · rw [if_pos h2]
        simp
      · rw [if_neg h2, if_pos (by split_ifs at h2 ⊢ <;> omega)]
        simp

theorem mapM_pyIndex (n : ℕ) (l : List ℤ) (js : List ℕ)
    (h : l.mapM (pyIndex n) = some js) :
    js = l.map (position n) ∧ ∀ i ∈ l, -n ≤ i ∧ i < n := by
  induction l generalizing js with
  | nil => simp at h; subst h; simp
  | cons i l ih =>
    rw [List.mapM_cons] at h
    cases hi : pyIndex n i with
    | none => rw [hi] at h; cases h
    | some j =>
      rw [hi] at h
      cases hl : l.mapM (pyIndex n) with
      | none => rw [hl] at h; cases h
      | some js' =>
        rw [hl] at h
        cases h
        obtain ⟨h1, h2⟩ := ih js' hl
        unfold pyIndex at hi
        refine ⟨?_, fun k hk => ?_⟩
        · rw [List.map_cons, ← h1]
          congr 1
          unfold position
          split_ifs at hi ⊢ <;> first | omega | (cases hi; rfl)
        · rcases List.mem_cons.mp hk with rfl | hk
          · split_ifs at hi <;> omega
          · exact h2 k hk

theorem mapM_pyIndex_some (n : ℕ) (l : List ℤ) (h : ∀ i ∈ l, -n ≤ i ∧ i < n) :
    l.mapM (pyIndex n) = some (l.map (position n)) := by
  cases hl : l.mapM (pyIndex n) with
  | some js => rw [(mapM_pyIndex n l js hl).1]
  | none =>
    exfalso
    induction l with
    | nil => cases hl
    | cons i l ih =>
      rw [List.mapM_cons] at hl
      have hi := h i (by simp)
      have : ∃ j, pyIndex n i = some j := by
        unfold pyIndex
        by_cases h0 : 0 ≤ i
        · exact ⟨_, if_pos ⟨h0, hi.2⟩⟩
        · rw [if_neg (fun hh => h0 hh.1), if_pos ⟨hi.1, by omega⟩]
          exact ⟨_, rfl⟩
      obtain ⟨j, hj⟩ := this
      rw [hj] at hl
      cases hl' : l.mapM (pyIndex n) with
      | none => exact ih (fun k hk => h k (by simp [hk])) hl'
      | some js => rw [hl'] at hl; cases hl

/-- `get_channels` returns the requested channels in the requested order, repetitions
included, as long as not more channels than samples are requested; indices out of range
raise. -/
theorem C39_get_partial (s : State K) (hs : Ready s) (channels : List ℤ) :
    ((∀ i ∈ channels, -s.re.cols ≤ i ∧ i < s.re.cols) → channels ≠ [] →
      channels.length ≤ s.re.rows → ∃ t, getChannels s channels = .ok t ∧
        TakesChannels s t channels.length fun c => position s.re.cols (channels.getD c 0)) ∧
    ((∃ i ∈ channels, ¬ (-s.re.cols ≤ i ∧ i < s.re.cols)) →
      getChannels s channels = .error .indexError) := by
  constructor
  · intro h1 h2 h3
    have hm := mapM_pyIndex_some _ _ h1
    have hpos : ∀ c < channels.length, (channels.map (position s.re.cols)).getD c 0 =
        position s.re.cols (channels.getD c 0) := by
      intro c hc
      rw [List.getD_eq_getElem _ _ (by simpa using hc), List.getD_eq_getElem _ _ hc]
      simp
    obtain ⟨t, ht, htake, -⟩ := picked_stored s
      ⟨⟨0, 0, fun _ _ => 0⟩, none, s.constrain, 1⟩ hs rfl channels.length
      (by have := List.length_pos_iff.mpr h2; omega) h3
      (fun c => (channels.map (position s.re.cols)).getD c 0) (by
        intro c hc
        rw [hpos c hc, List.getD_eq_getElem _ _ hc]
        have := h1 _ (List.getElem_mem hc)
        unfold position
        split_ifs <;> omega)
    refine ⟨t, ?_, htake.1, htake.2.1, fun r c hc => ?_⟩
    · unfold getChannels copyWith construct
      rw [hm]
      simp only [List.length_map]
      exact ht
    · show t.sample r c = s.sample r (position s.re.cols (channels.getD c 0)) ∧
        t.sampleIm r c = s.sampleIm r (position s.re.cols (channels.getD c 0))
      rw [← hpos c hc]
      exact htake.2.2 r c hc
  · rintro ⟨i, hi, hbad⟩
    unfold getChannels
    cases hl : channels.mapM (pyIndex s.re.cols) with
    | none => rfl
    | some js => exact absurd ((mapM_pyIndex _ _ _ hl).2 i hi) hbad

/-- `sum_channels` is the sum of the samples over the channels, up to the factor of the
amplitude constraint (1 without constraint). -/
theorem C39_sum (s : State K) (hs : Ready s) :
    ∃ t, sumChannels s = .ok t ∧ t.HasShape s.re.rows 1 ∧
      (∀ r < s.re.rows, t.sample r 0 = t.scale * ∑ c ∈ Finset.range s.re.cols, s.sample r c ∧
        t.sampleIm r 0 = t.scale * ∑ c ∈ Finset.range s.re.cols, s.sampleIm r c) ∧
      (s.constrain = false → t.scale = 1) := by
  have hr1 := hs.one
  have hr2 := hs.tall
  have hr3 := hs.more
  obtain ⟨t, ht, -, hshape, hscale, hre, him, -⟩ := setData_scaled
    ⟨⟨0, 0, fun _ _ => 0⟩, none, s.constrain, 1⟩
    (⟨s.re.rows, 1, fun r _ => ∑ c ∈ Finset.range s.re.cols, s.re.val r c,
      s.im.map fun B r _ => ∑ c ∈ Finset.range s.re.cols, B.val r c⟩ : Input K)
    (show 1 ≤ s.re.rows by omega) (fun h => hs.more h.1) le_rfl
  refine ⟨t, ht, hshape, fun r hr => ⟨?_, ?_⟩, fun hc => ?_⟩
  · rw [hre r hr 0 Nat.one_pos]
    simp only
    congr 1
    refine Finset.sum_congr rfl fun c hc => ?_
    unfold State.sample
    rw [if_pos ⟨hr, Finset.mem_range.mp hc⟩]
  · rw [him r hr 0 Nat.one_pos]
    congr 1
    unfold State.sampleIm
    cases hB : s.im with
    | none => simp
    | some B =>
      simp only [Option.map_some, Option.elim]
      refine Finset.sum_congr rfl fun c hc => ?_
      rw [if_pos ⟨by rw [(hs.imShape B hB).1]; exact hr,
        by rw [(hs.imShape B hB).2]; exact Finset.mem_range.mp hc⟩]
  · rw [hscale]
    simp [hc]

/-- Requesting more channels than there are samples exchanges time and channels. -/
theorem C39_get_transposes (s : State K) (hcon : s.constrain = false)
    (channels : List ℤ) (h : ∀ i ∈ channels, -s.re.cols ≤ i ∧ i < s.re.cols)
    (hlen : s.re.rows < channels.length) :
    ∃ t, getChannels s channels = .ok t ∧ t.HasShape channels.length s.re.rows := by
  have hm := mapM_pyIndex_some _ _ h
  unfold getChannels copyWith construct
  rw [hm]
  simp only [List.length_map]
  unfold setData
  rw [standardForm_T _ (by exact hlen)]
  simp only [hcon]
  exact ⟨_, rfl, rfl, rfl⟩

/-- `add_channel` (for new data with not more channels than samples, and as long as the result has
not more channels than samples): the old channels come first, the new ones follow, padded with
zeros or trimmed at the end, up to the factor of the amplitude constraint.  The imaginary parts of
the new channels are kept, those of the old ones are NOT (missing: their imaginary parts). -/
theorem C39_add_partial (s : State K) (hs : Ready s) (x : Input K) (allow : Bool)
    (hx : x.cols ≤ x.rows) (hfit : s.re.cols + x.cols ≤ s.re.rows)
    (hlen : x.rows = s.re.rows ∨ allow = true) :
    ∃ t, addChannel s x true allow = (none, t) ∧ t.HasShape s.re.rows (s.re.cols + x.cols) ∧
      (∀ r < s.re.rows, ∀ c < s.re.cols, t.sample r c = t.scale * s.sample r c ∧
        t.sampleIm r c = 0) ∧
      (∀ r < s.re.rows, ∀ c < x.cols,
        t.sample r (s.re.cols + c) =
          t.scale * placed (fun i => x.re i c) x.rows s.re.rows true r ∧
        t.sampleIm r (s.re.cols + c) =
          t.scale * placed (fun i => x.im.elim 0 fun f => f i c) x.rows s.re.rows true r) ∧
      (s.constrain = false → t.scale = 1) ∧ t.constrain = s.constrain := by
  have h1 := hs.one
  obtain ⟨t, ht, hcon, hshape, hscale, hre, him, -⟩ := setData_scaled s
    (⟨s.re.rows, s.re.cols + (padTrimEnd x s.re.rows).cols,
      (s.re.hcat (padTrimEnd x s.re.rows).reMat).val,
      (padTrimEnd x s.re.rows).im.map fun f r c =>
        if c < s.re.cols then 0 else f r (c - s.re.cols)⟩ : Input K)
    hfit (fun h => hs.more h.1) (show 1 ≤ s.re.cols + x.cols by omega)
  have hadd : addChannel s x true allow = (none, t) := by
    unfold addChannel
    rw [if_neg (by simp)]
    simp only [if_neg (not_lt.mpr hx)]
    rw [if_neg (by rintro ⟨h, h'⟩; rcases hlen with h'' | h''
                   · exact h h''
                   · rw [h''] at h'; cases h')]
    rw [ht]
    rfl
  refine ⟨t, hadd, hshape, fun r hr c hc => ⟨?_, ?_⟩, fun r hr c hc => ⟨?_, ?_⟩, ?_, hcon⟩
  · rw [hre r hr c (show c < s.re.cols + x.cols by omega), sample_in s r c hr hc]
    simp [Mat.hcat, hc]
  · rw [him r hr c (show c < s.re.cols + x.cols by omega)]
    cases hi : x.im <;> simp [padTrimEnd, hi, hc]
  · rw [hre r hr _ (show s.re.cols + c < s.re.cols + x.cols by omega)]
    simp [Mat.hcat, placed, padTrimEnd, Input.reMat]
  · rw [him r hr _ (show s.re.cols + c < s.re.cols + x.cols by omega)]
    cases hi : x.im <;> simp [padTrimEnd, hi, placed]
  · intro hc
    rw [hscale]
    simp [hc]

/-- A different sampling rate is rejected, and so is a different length unless padding and trimming
is allowed; the signal stays as it was. -/
theorem C39_add_rejects (s : State K) (x : Input K) :
    (∀ allow, addChannel s x false allow = (some .assertionError, s)) ∧
    (max x.rows x.cols ≠ s.re.rows → addChannel s x true false = (some .attributeError, s)) := by
  refine ⟨fun allow => by simp [addChannel], fun h => ?_⟩
  unfold addChannel
  rw [if_neg (by simp)]
  by_cases hx : x.cols > x.rows
  · simp only [hx, if_true]
    rw [if_pos ⟨by rw [max_eq_right hx.le] at h; exact h, trivial⟩]
  · simp only [hx, if_false]
    rw [if_pos ⟨by rw [max_eq_left (by omega)] at h; exact h, trivial⟩]

/-- So adding channels to a signal with an imaginary part loses it: in every case of the theorem
above, the channels that were there before become real. -/
theorem C39_add_drops_imaginary (s : State K) (hs : Ready s) (x : Input K) (r c : ℕ)
    (hr : r < s.re.rows) (hc : c < s.re.cols) (hnz : s.sampleIm r c ≠ 0)
    (hx : x.cols ≤ x.rows) (hfit : s.re.cols + x.cols ≤ s.re.rows) :
    (addChannel s x true true).1 = none ∧
      (addChannel s x true true).2.sampleIm r c ≠ s.sampleIm r c := by
  obtain ⟨t, h, -, h2, -⟩ := C39_add_partial s hs x true hx hfit (Or.inr rfl)
  rw [h]
  exact ⟨rfl, by rw [(h2 r hr c hc).2]; exact hnz.symm⟩

/-- Adding so many channels that there are more channels than samples exchanges time and
channels. -/
theorem C39_add_transposes (s : State K) (hcon : s.constrain = false) (x : Input K)
    (hx : x.cols ≤ x.rows) (h : s.re.rows < s.re.cols + x.cols) :
    (addChannel s x true true).1 = none ∧
      (addChannel s x true true).2.HasShape (s.re.cols + x.cols) s.re.rows := by
  unfold addChannel
  rw [if_neg (by simp)]
  simp only [if_neg (not_lt.mpr hx), Bool.true_eq_false, and_false, if_false]
  unfold setData
  rw [standardForm_T _ (by exact h)]
  simp only [hcon]
  exact ⟨rfl, rfl, rfl⟩

/-- Concrete case: a signal with two channels and three samples, a permutation and its
inverse, indices from the end. -/
example : Ready demo ∧ IsOrder demo.re.cols [1, 0] ∧
    (∀ c < demo.re.cols, ([1, 0] : List ℤ).getD (([1, 0] : List ℤ).getD c 0).toNat 0 = c) ∧
    (∀ i ∈ ([0, -1, 1] : List ℤ), -demo.re.cols ≤ i ∧ i < demo.re.cols) := by
  have hc : demo.re.cols = 2 := rfl
  refine ⟨⟨by decide, by decide, by decide, ?_, ?_⟩, ?_, ?_, ?_⟩
  · intro B hB
    cases hB
  · intro h r c
    exact ⟨sample_bounded demo_valid h r c, by simp [State.sampleIm, demo]⟩
  · rw [hc, isOrder_iff]
    decide
  · rw [hc]
    decide
  · rw [hc]
    decide

/-- Concrete case of adding: one complex channel of two samples to a complex channel of three. -/
example : ∃ (s : State ℚ) (x : Input ℚ), Ready s ∧ s.sampleIm 1 0 ≠ 0 ∧ x.cols ≤ x.rows ∧
    s.re.cols + x.cols ≤ s.re.rows ∧ x.rows ≠ s.re.rows ∧ x.im.isSome := by
  refine ⟨⟨⟨3, 1, fun r _ => r⟩, some ⟨3, 1, fun r _ => r⟩, false, 1⟩,
    ⟨2, 1, fun r _ => r, some fun r _ => 1 - r⟩,
    ⟨by decide, by decide, by decide, ?_, by intro h; cases h⟩, ?_, by decide, by decide, by decide,
      rfl⟩
  · intro B hB
    cases hB
    exact ⟨rfl, rfl⟩
  · simp [State.sampleIm]

end Verif.Collapse

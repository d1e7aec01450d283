import Verif.Model.IRFilter
import Verif.Props.C39

/-!
# C85: FIR filters and impulse responses are converted into each other without loss
-/

namespace Verif.IRFilter

open SignalData FilterCoeffs Collapse

variable {K : Type} [Field K] [LinearOrder K] [IsStrictOrderedRing K]

/-! ### Specification -/

/-- The FIR filter with the given taps. -/
def fir (b : List K) : Stored K Unit := ⟨some (b, [1]), none, none⟩

/-- `n` is the number of taps of the longest of the filters. -/
def IsLongest (bs : List (List K)) (n : ℕ) : Prop := (∀ b ∈ bs, b.length ≤ n) ∧ ∃ b ∈ bs, b.length = n

/-- No tap is larger than one. -/
def Quiet (b : List K) : Prop := ∀ i, |b.getD i 0| ≤ 1

/-- Samples of a channel. -/
def channel (s : State K) (c : ℕ) : List K := (List.range s.re.rows).map fun r => s.sample r c

/-! ### Lemmas -/

theorem fromTaps_eq (b : List K) : fromTaps b = .ok (fir b) := by
  have : trimBack ([1] : List K) = [1] := by
    unfold trimBack
    simp
  unfold fromTaps FilterCoeffs.construct setBa fir
  simp [this]

omit [IsStrictOrderedRing K] in
theorem isIir_fir (b : List K) : isIir (fir b) = .ok false := by
  unfold isIir fir
  simp

omit [IsStrictOrderedRing K] in
theorem filterLength_fir (b : List K) (hb : b ≠ []) : filterLength (fir b) = b.length := by
  have : 1 ≤ b.length := List.length_pos_iff.mpr hb
  unfold filterLength order fir
  simp
  omega

theorem mapM_ok {α β : Type} (f : α → Except Err β) (g : α → β) (l : List α)
    (h : ∀ x ∈ l, f x = .ok (g x)) : l.mapM f = .ok (l.map g) := by
  induction l with
  | nil => rfl
  | cons x l ih =>
    rw [List.mapM_cons, h x (by simp), ih fun y hy => h y (by simp [hy])]
    rfl

theorem eachChannel_eq (A : Mat K) :
    eachChannel A = .ok ((List.range A.cols).map fun c => fir (colOf A c)) :=
  mapM_ok _ _ _ fun _ _ => fromTaps_eq _

theorem foldl_max (l : List ℕ) (m : ℕ) : (∀ x ∈ l, x ≤ l.foldl max m) ∧ m ≤ l.foldl max m ∧
    (l.foldl max m = m ∨ l.foldl max m ∈ l) := by
  induction l generalizing m with
  | nil => simp
  | cons a l ih =>
    obtain ⟨h1, h2, h3⟩ := ih (max m a)
    rw [List.foldl_cons]
    refine ⟨fun x hx => ?_, by omega, ?_⟩
    · rw [List.mem_cons] at hx
      rcases hx with rfl | hx
      · omega
      · exact h1 x hx
    · rcases h3 with h3 | h3
      · rw [h3]
        rcases le_total m a with h | h
        · right; rw [max_eq_right h]; simp
        · left; exact max_eq_left h
      · right; simp [h3]

omit [IsStrictOrderedRing K] in
theorem bank_length (bs : List (List K)) (n : ℕ) (hn : IsLongest bs n) (hb : ∀ b ∈ bs, b ≠ []) :
    ((bs.map fir).map filterLength).foldl max 0 = n := by
  have e : (bs.map fir).map filterLength = bs.map List.length := by
    rw [List.map_map]
    exact List.map_congr_left fun b h => filterLength_fir b (hb b h)
  rw [e]
  obtain ⟨h1, h2, h3⟩ := foldl_max (bs.map List.length) 0
  obtain ⟨hle, b, hbm, hbl⟩ := hn
  have h4 := h1 b.length (List.mem_map_of_mem hbm)
  rcases h3 with h3 | h3
  · omega
  · obtain ⟨c, hc, hcl⟩ := List.mem_map.mp h3
    have := hle c hc
    omega

omit [LinearOrder K] [IsStrictOrderedRing K] in
theorem taps_getD (bs : List (List K)) (c : ℕ) : ((bs.map fir).map taps).getD c [] = bs.getD c [] := by
  rw [List.map_map]
  have : (taps ∘ fir : List K → List K) = id := by
    funext b
    rfl
  rw [this, List.map_id]

omit [IsStrictOrderedRing K] in
theorem bank_eq (bs : List (List K)) (n : ℕ) (hn : IsLongest bs n) (hb : ∀ b ∈ bs, b ≠ []) :
    bankToIr (bs.map fir) true = SignalData.construct
      ⟨n, bs.length, fun r c => (bs.getD c []).getD r 0, none⟩ true := by
  have hne : bs.map fir ≠ [] := by
    obtain ⟨-, b, h, -⟩ := hn
    intro e
    rw [List.map_eq_nil_iff] at e
    rw [e] at h
    simp at h
  unfold bankToIr
  rw [mapM_ok isIir (fun _ => false) _ (by
    intro f hf
    obtain ⟨b, -, rfl⟩ := List.mem_map.mp hf
    exact isIir_fir b)]
  have : ((bs.map fir).map fun _ => false).any id = false := by simp
  simp only [this, Bool.false_eq_true, if_false, hne]
  rw [bank_length bs n hn hb, List.length_map]
  simp only [taps_getD, Bool.true_eq_false, if_false]

theorem colOf_eq (s : State K) (c : ℕ) (hc : c < s.re.cols) : colOf s.re c = channel s c := by
  unfold colOf channel
  refine List.map_congr_left fun r hr => ?_
  rw [List.mem_range] at hr
  exact (sample_in s r c hr hc).symm

omit [LinearOrder K] [IsStrictOrderedRing K] in
theorem channel_getD (s : State K) (c r : ℕ) (hr : r < s.re.rows) : (channel s c).getD r 0 = s.sample r c := by
  unfold channel
  rw [List.getD_eq_getElem _ _ (by simpa using hr)]
  simp

/-! ### Impulse response to filter and back -/

/-- **C85**: `ir_to_filter` turns every channel into an FIR filter with the samples as taps. -/
theorem C85_filters (s : State K) : irToFilter s none =
    .ok ((List.range s.re.cols).map fun c => fir (channel s c)) := by
  show eachChannel s.re = _
  rw [eachChannel_eq]
  congr 1
  refine List.map_congr_left fun c hc => ?_
  rw [List.mem_range] at hc
  rw [colOf_eq s c hc]

/-- **C85**: one selected channel (also counted from the end) is turned into the filter with its
samples as taps, which is an FIR filter of the same length; other channels are refused. -/
theorem C85_filter (s : State K) (hs : Ready s) (c : ℤ) :
    (-s.re.cols ≤ c → c < s.re.cols →
      irToFilter s (some c) = .ok [fir (channel s (position s.re.cols c))] ∧
        isIir (fir (channel s (position s.re.cols c))) = .ok false ∧
        filterLength (fir (channel s (position s.re.cols c))) = s.re.rows) ∧
    (¬ (-s.re.cols ≤ c ∧ c < s.re.cols) → irToFilter s (some c) = .error .indexError) := by
  obtain ⟨h1, h2⟩ := C39_get_partial s hs [c]
  have ho := hs.one
  have htall := hs.tall
  refine ⟨fun ha hb => ?_, fun h => ?_⟩
  · obtain ⟨t, ht, ⟨hr, hcols⟩, -, hval⟩ := h1 (by simpa using ⟨ha, hb⟩) (by simp) (by simp; omega)
    refine ⟨?_, isIir_fir _, ?_⟩
    · unfold irToFilter
      dsimp only
      rw [ht]
      dsimp only
      rw [eachChannel_eq, hcols]
      dsimp only
      congr 1
      show [fir (colOf t.re 0)] = _
      rw [colOf_eq t 0 (by rw [hcols]; simp)]
      unfold channel
      rw [hr]
      simp only [(hval _ 0 (by simp)).1, List.getD_cons_zero]
    · have hl : (channel s (position s.re.cols c)).length = s.re.rows := by simp [channel]
      rw [filterLength_fir _ (fun e => by rw [e] at hl; simp at hl; omega), hl]
  · unfold irToFilter
    dsimp only
    rw [h2 ⟨c, by simp, h⟩]

/-- **C85**, round trip: all channels as filters and back is the same impulse response, if no sample is
larger than one. -/
theorem C85_ir_roundtrip_partial (s : State K) (h1 : 1 ≤ s.re.cols) (h2 : s.re.cols ≤ s.re.rows)
    (h3 : s.re.rows ≠ 1) (hq : ∀ r c, |s.sample r c| ≤ 1) : ∃ fs t, irToFilter s none = .ok fs ∧
      bankToIr fs true = .ok t ∧ t.HasShape s.re.rows s.re.cols ∧ ∀ r c, t.sample r c = s.sample r c := by
  have hl : IsLongest ((List.range s.re.cols).map (channel s)) s.re.rows := by
    constructor
    · intro b hb
      obtain ⟨c, -, rfl⟩ := List.mem_map.mp hb
      simp [channel]
    · exact ⟨channel s 0, List.mem_map_of_mem (List.mem_range.mpr (by omega)), by simp [channel]⟩
  have hg : ∀ r c, r < s.re.rows → c < s.re.cols →
      (((List.range s.re.cols).map (channel s)).getD c []).getD r 0 = s.sample r c := by
    intro r c hr hc
    rw [List.getD_eq_getElem (List.map _ _) _ (by simpa using hc), List.getElem_map, List.getElem_range,
      channel_getD s c r hr]
  have e : (List.range s.re.cols).map (fun c => fir (channel s c)) =
      ((List.range s.re.cols).map (channel s)).map fir := by rw [List.map_map]; rfl
  refine ⟨_, ⟨⟨s.re.rows, ((List.range s.re.cols).map (channel s)).length,
    fun r c => (((List.range s.re.cols).map (channel s)).getD c []).getD r 0⟩, none, true, 1⟩,
    C85_filters s, ?_, ?_⟩
  · rw [e, bank_eq _ _ hl (by
      intro b hb he
      obtain ⟨c, -, rfl⟩ := List.mem_map.mp hb
      have := congrArg List.length he
      simp [channel] at this
      omega)]
    unfold SignalData.construct
    refine setData_ok _ _ (by simpa using h2) (by simp; omega) (fun _ => ⟨by simpa using h1, ?_, ?_⟩)
    · intro r hr c hc
      simp only [List.length_map, List.length_range] at hc
      dsimp only at hr ⊢
      rw [hg r c hr hc]
      exact hq r c
    · intro f hf
      cases hf
  · refine ⟨⟨rfl, by simp⟩, fun r c => ?_⟩
    unfold State.sample
    dsimp only
    rw [List.length_map, List.length_range]
    by_cases h : r < s.re.rows ∧ c < s.re.cols
    · rw [if_pos h, if_pos h, hg r c h.1 h.2]
      exact sample_in s r c h.1 h.2
    · rw [if_neg h, if_neg h]

/-! ### Filter to impulse response and back -/

omit [IsStrictOrderedRing K] in
theorem filterToIr_eq (b : List K) : filterToIr (fir b) =
    SignalData.construct ⟨b.length, 1, fun r _ => b.getD r 0, none⟩ true := by
  unfold filterToIr
  rw [isIir_fir]
  rfl

/-- **C85**, round trip: an FIR filter with at least two taps, none of them larger than one, becomes an
impulse response with the taps as samples, and from this the same filter is obtained. -/
theorem C85_filter_roundtrip_partial (b : List K) (h2 : 2 ≤ b.length) (hq : Quiet b) :
    ∃ s, filterToIr (fir b) = .ok s ∧ s.HasShape b.length 1 ∧ (∀ r, s.sample r 0 = b.getD r 0) ∧
      irToFilter s none = .ok [fir b] := by
  have he : filterToIr (fir b) = .ok ⟨⟨b.length, 1, fun r _ => b.getD r 0⟩, none, true, 1⟩ := by
    rw [filterToIr_eq]
    unfold SignalData.construct
    exact setData_ok _ _ (by dsimp only; omega) (by dsimp only; omega)
      (fun _ => ⟨le_rfl, fun r _ c _ => hq r, fun f hf => by cases hf⟩)
  refine ⟨_, he, ⟨rfl, rfl⟩, fun r => ?_, ?_⟩
  · unfold State.sample
    dsimp only
    split_ifs with h
    · rfl
    · exact (List.getD_eq_default _ _ (by omega)).symm
  · rw [C85_filters]
    congr 1
    show [fir (channel _ 0)] = _
    congr 2
    unfold channel
    dsimp only
    refine List.ext_getElem (by simp) fun i hi _ => ?_
    simp only [List.length_map, List.length_range] at hi
    rw [List.getElem_map, List.getElem_range]
    unfold State.sample
    rw [if_pos ⟨hi, by simp⟩]
    exact List.getD_eq_getElem _ _ hi

/-- **C85**: a bank of FIR filters with taps up to one, not more filters than taps of the longest of
them, becomes an impulse response with one channel per filter, filled with zeros up to the length of
the longest; and from this the same filters are obtained. -/
theorem C85_bank_partial (bs : List (List K)) (hb : ∀ b ∈ bs, b ≠ []) (n : ℕ) (hn : IsLongest bs n)
    (h2 : 2 ≤ n) (hm : bs.length ≤ n) (hq : ∀ b ∈ bs, Quiet b) :
    ∃ s, bankToIr (bs.map fir) true = .ok s ∧ s.HasShape n bs.length ∧
      (∀ r c, s.sample r c = (bs.getD c []).getD r 0) ∧
      irToFilter s none = .ok (bs.map fun b => fir (b ++ List.replicate (n - b.length) 0)) := by
  have hone : 1 ≤ bs.length := by
    obtain ⟨-, b, h, -⟩ := hn
    exact List.length_pos_of_mem h
  have hget : ∀ c, bs.getD c [] ∈ bs ∨ bs.getD c [] = [] := by
    intro c
    by_cases hc : c < bs.length
    · left
      rw [List.getD_eq_getElem _ _ hc]
      exact List.getElem_mem hc
    · right
      exact List.getD_eq_default _ _ (by omega)
  have he : bankToIr (bs.map fir) true =
      .ok ⟨⟨n, bs.length, fun r c => (bs.getD c []).getD r 0⟩, none, true, 1⟩ := by
    rw [bank_eq bs n hn hb]
    unfold SignalData.construct
    refine setData_ok _ _ hm (by dsimp only; omega) (fun _ => ⟨hone, fun r _ c _ => ?_, fun f hf => by cases hf⟩)
    dsimp only
    rcases hget c with h | h
    · exact hq _ h r
    · rw [h]
      simp
  have hs : ∀ r c, State.sample ⟨⟨n, bs.length, fun r c => (bs.getD c []).getD r 0⟩, none, true, 1⟩ r c =
      (bs.getD c []).getD r 0 := by
    intro r c
    unfold State.sample
    dsimp only
    split_ifs with h
    · rfl
    · rcases hget c with h3 | h3
      · have := hn.1 _ h3
        by_cases hc : c < bs.length
        · exact (List.getD_eq_default _ _ (by omega)).symm
        · rw [List.getD_eq_default bs _ (by omega)]
          simp
      · rw [h3]
        simp
  refine ⟨_, he, ⟨rfl, rfl⟩, hs, ?_⟩
  rw [C85_filters]
  congr 1
  refine List.ext_getElem (by simp) fun c hc _ => ?_
  simp only [List.length_map, List.length_range] at hc
  rw [List.getElem_map, List.getElem_range, List.getElem_map]
  congr 1
  have hlen := hn.1 _ (List.getElem_mem hc)
  refine List.ext_getElem (by simp [channel]; omega) fun i hi _ => ?_
  have hi' : i < n := by simpa [channel] using hi
  have : (channel (⟨⟨n, bs.length, fun r c => (bs.getD c []).getD r 0⟩, none, true, 1⟩ : State K) c)[i] =
      (bs.getD c []).getD i 0 := by
    rw [← List.getD_eq_getElem _ 0 hi, channel_getD _ _ _ hi', hs]
  rw [this, List.getD_eq_getElem _ _ hc]
  by_cases h : i < bs[c].length
  · rw [List.getD_eq_getElem _ _ h, List.getElem_append_left h]
  · rw [List.getD_eq_default _ _ (by omega), List.getElem_append_right (by omega), List.getElem_replicate]

/-- The hypotheses of the bank are met by filters of different lengths. -/
example : ∃ s, bankToIr ([[1, 1 / 2, 1 / 4], [0, -1]].map fir : List (Stored ℚ Unit)) true = .ok s ∧
    s.HasShape 3 2 ∧ s.sample 1 0 = 1 / 2 ∧ s.sample 1 1 = -1 ∧ s.sample 2 1 = 0 := by
  obtain ⟨s, h1, h2, h3, -⟩ := C85_bank_partial ([[1, 1 / 2, 1 / 4], [0, -1]] : List (List ℚ)) (by simp) 3
    ⟨by simp, [1, 1 / 2, 1 / 4], by simp, rfl⟩ (by norm_num) (by norm_num) (by
      intro b hb i
      rw [List.mem_cons, List.mem_singleton] at hb
      rcases hb with rfl | rfl
      · match i with
        | 0 => norm_num
        | 1 => norm_num
        | 2 => norm_num [abs_of_pos]
        | i + 3 => simp
      · match i with
        | 0 => norm_num
        | 1 => norm_num
        | i + 2 => simp)
  exact ⟨s, h1, h2, by rw [h3]; rfl, by rw [h3]; rfl, by rw [h3]; rfl⟩

/-! ### What is wrong -/

/-- **C85**, negation: if a tap is larger than one the impulse response does not have the taps as
samples, but is normalized: all samples are divided by the largest magnitude. -/
theorem C85_gain_wrong (b : List K) (h2 : 2 ≤ b.length) (i : ℕ) (hi : 1 < |b.getD i 0|) :
    ∃ s g, filterToIr (fir b) = .ok s ∧ 1 < g ∧ (∃ j, |b.getD j 0| = g) ∧ (∀ j, |b.getD j 0| ≤ g) ∧
      ∀ r < b.length, s.sample r 0 = b.getD r 0 / g := by
  obtain ⟨p1, -, p3⟩ := C14_peak_is_largest (⟨b.length, 1, fun r _ => b.getD r 0, none⟩ : Input K)
  set x : Input K := ⟨b.length, 1, fun r _ => b.getD r 0, none⟩ with hx
  have hil : i < b.length := by
    by_contra h
    rw [List.getD_eq_default _ _ (by omega), abs_zero] at hi
    exact absurd hi (not_lt.mpr zero_le_one)
  have hp : 1 < peak x := lt_of_lt_of_le hi (p1 i hil 0 (by simp [hx]))
  obtain ⟨s, h3, -, -, h6, h7, -⟩ := setData_scaled (⟨⟨0, 0, fun _ _ => 0⟩, none, true, 1⟩ : State K) x
    (by simp [hx]; omega) (by simp [hx]; omega) (by simp [hx])
  refine ⟨s, peak x, ?_, hp, ?_, fun j => ?_, fun r hr => ?_⟩
  · rw [filterToIr_eq]
    exact h3
  · rcases p3 with h | ⟨r, hr, c, hc, h | ⟨f, hf, h⟩⟩
    · rw [h] at hp
      exact absurd hp (not_lt.mpr zero_le_one)
    · exact ⟨r, h.symm⟩
    · cases hf
  · by_cases hj : j < b.length
    · exact p1 j hj 0 (by simp [hx])
    · rw [List.getD_eq_default _ _ (by omega), abs_zero]
      exact le_trans zero_le_one hp.le
  · rw [h7 r hr 0 (by simp [hx]), h6, if_pos ⟨rfl, hp⟩, one_div, inv_mul_eq_div]

omit [IsStrictOrderedRing K] in
/-- **C85**, negation: a filter with a single tap has no impulse response. -/
theorem C85_single_tap_wrong (g : K) : filterToIr (fir [g]) = .error .indexError := by
  rw [filterToIr_eq]
  unfold SignalData.construct setData standardForm
  simp

/-- **C85**, negation: if there are more filters than taps, filters and taps change places: channel
`c` holds the taps number `c` of all filters. -/
theorem C85_transposed_wrong (bs : List (List K)) (hb : ∀ b ∈ bs, b ≠ []) (n : ℕ) (hn : IsLongest bs n)
    (h1 : 1 ≤ n) (hm : n < bs.length) (hq : ∀ b ∈ bs, Quiet b) :
    ∃ s, bankToIr (bs.map fir) true = .ok s ∧ s.HasShape bs.length n ∧
      ∀ r < bs.length, ∀ c < n, s.sample r c = (bs.getD r []).getD c 0 := by
  set x : Input K := ⟨n, bs.length, fun r c => (bs.getD c []).getD r 0, none⟩ with hx
  have hpk : peak x.T ≤ 1 := by
    refine peak_le_one _ (fun r hr c hc => ?_) (fun f hf => ?_)
    · show |(bs.getD r []).getD c 0| ≤ 1
      rw [List.getD_eq_getElem bs _ hr]
      exact hq _ (List.getElem_mem _) c
    · simp [hx, Input.T] at hf
  refine ⟨⟨x.T.reMat, x.T.imMat, true, 1⟩, ?_, ⟨rfl, rfl⟩, fun r hr c hc => ?_⟩
  · rw [bank_eq bs n hn hb]
    unfold SignalData.construct setData
    rw [standardForm_T x hm]
    dsimp only
    have hne : ¬ (x.T.rows = 0 ∨ x.T.cols = 0) := (show ¬ (bs.length = 0 ∨ n = 0) by omega)
    rw [if_pos rfl, if_neg hne, if_neg (not_lt.mpr hpk)]
  · unfold State.sample
    exact if_pos (show r < bs.length ∧ c < n from ⟨hr, hc⟩)

/-- Three filters with two taps. -/
example : IsLongest ([[1, 0], [0, 1], [1, 1]] : List (List ℚ)) 2 ∧ 2 < [[1, 0], [0, 1], [1, (1 : ℚ)]].length :=
  ⟨⟨by simp, [1, 0], by simp, rfl⟩, by simp⟩

/-! ### Refusals -/

omit [IsStrictOrderedRing K] in
theorem mapM_const (fs : List (Stored K Unit)) (h : ∀ f ∈ fs, ∃ b, isIir f = .ok b) :
    ∃ l, fs.mapM isIir = .ok l ∧ ((∃ f ∈ fs, isIir f = .ok true) → l.any id = true) := by
  induction fs with
  | nil => exact ⟨[], rfl, by simp⟩
  | cons f fs ih =>
    obtain ⟨b, hb⟩ := h f (by simp)
    obtain ⟨l, hl, hany⟩ := ih fun g hg => h g (by simp [hg])
    refine ⟨b :: l, by rw [List.mapM_cons, hb, hl]; rfl, ?_⟩
    rintro ⟨g, hg, hg'⟩
    rcases List.mem_cons.1 hg with rfl | hg
    · rw [hb] at hg'
      cases hg'
      simp
    · simp [hany ⟨g, hg, hg'⟩]

omit [IsStrictOrderedRing K] in
/-- **C85**: filters with a denominator, or given by sections, have no finite impulse response and are
refused. -/
theorem C85_refused (f : Stored K Unit)
    (h : f.sos.isSome = true ∨ ∃ b a, f.sos = none ∧ f.ba = some (b, a) ∧ a.length ≠ 1) :
    filterToIr f = .error .assertionError := by
  have hi : isIir f = .ok true := by
    unfold isIir
    rcases h with h | ⟨b, a, h1, h2, h3⟩
    · rw [if_pos h]
    · rw [h1, h2]
      simp [h3]
  unfold filterToIr
  rw [hi]

omit [IsStrictOrderedRing K] in
/-- **C85**: a bank is refused if one of its filters is, or if its filters have different sampling rates. -/
theorem C85_bank_refused (fs : List (Stored K Unit)) (sameRate : Bool) (hf : ∀ f ∈ fs, ∃ b, isIir f = .ok b)
    (h : (∃ f ∈ fs, isIir f = .ok true) ∨ sameRate = false) :
    bankToIr fs sameRate = .error .assertionError := by
  obtain ⟨l, hl, hany⟩ := mapM_const fs hf
  unfold bankToIr
  rw [hl]
  dsimp only
  rcases h with h | h
  · rw [if_pos (hany h)]
  · by_cases ha : l.any id = true
    · rw [if_pos ha]
    · rw [if_neg ha, if_pos h]

/-- A recursive filter beside an FIR filter. -/
example : isIir (⟨some ([1], [1, -1 / 2]), none, none⟩ : Stored ℚ Unit) = .ok true ∧
    isIir (fir [(1 : ℚ), 2]) = .ok false := by
  constructor
  · unfold isIir
    simp
  · exact isIir_fir _

end Verif.IRFilter

import Verif.Model.AudioIO
import Verif.Props.C31

/-!
# C108: playing and recording
-/

namespace Verif.AudioIO

open Verif.SignalData Verif.Level

/-- The given output channels. -/
def Given (n : ℕ) : Channels → List ℤ
  | .auto => (List.range n).map fun (i : ℕ) => (i : ℤ) + 1
  | .one c => [c]
  | .several l => l

/-- Number of samples of a duration. -/
noncomputable def Samples (rows rate : ℕ) : Duration → ℕ
  | .whole => rows
  | .int n => min rows (n * rate).toNat
  | .float s => min rows ⌊s * rate⌋₊

/-- The duration is not zero and not negative. -/
def Positive : Duration → Prop
  | .whole => True
  | .int n => 0 < n
  | .float s => 0 < s

theorem channels_perm (n : ℕ) (c : Channels) : (channels n c).Perm (Given n c) :=
  List.perm_insertionSort _ _

theorem channels_sorted (n : ℕ) (c : Channels) : (channels n c).Pairwise (· ≤ ·) :=
  List.pairwise_insertionSort (· ≤ ·) _

theorem channels_any (n : ℕ) (c : Channels) :
    (channels n c).any (· < 1) = true ↔ ∃ k ∈ Given n c, k < 1 := by
  rw [List.any_eq_true]
  constructor
  · rintro ⟨k, hk, h⟩
    exact ⟨k, (channels_perm n c).mem_iff.mp hk, by simpa using h⟩
  · rintro ⟨k, hk, h⟩
    exact ⟨k, (channels_perm n c).mem_iff.mpr hk, by simpa using h⟩

/-- What the driver is asked to play: the samples `0 … n-1` of every channel, multiplied with one
positive factor, with the requested peak if there is one. -/
def Plays (A : Mat ℝ) (n : ℕ) (dbfs : Option ℝ) (B : Mat ℝ) : Prop :=
  B.rows = n ∧ B.cols = A.cols ∧ ∃ g > 0, (∀ r < n, ∀ c < A.cols, B.val r c = g * A.val r c) ∧
    match dbfs with
    | none => g = 1
    | some d => (∀ r < n, ∀ c < A.cols, |B.val r c| ≤ 10 ^ (d / 20)) ∧
        ∃ r < n, ∃ c < A.cols, |B.val r c| = 10 ^ (d / 20)

theorem level_spec (A : Mat ℝ) (dbfs : Option ℝ) (hd : ∀ d ∈ dbfs, d ≤ 0)
    (hx : ∃ r < A.rows, ∃ c < A.cols, A.val r c ≠ 0) :
    ∃ B, level A dbfs = .ok (some B) ∧ Plays A A.rows dbfs B := by
  obtain ⟨r0, hr0, c0, hc0, hx0⟩ := hx
  cases dbfs with
  | none => exact ⟨A, rfl, rfl, rfl, 1, one_pos, fun r _ c _ => (one_mul _).symm, rfl⟩
  | some d =>
    have hdd := hd d rfl
    have hcell : (r0, c0) ∈ cells A 0 false := by unfold cells; simp [hr0, hc0]
    have hp : 0 < peakOn (cells A 0 false) A.val :=
      lt_of_lt_of_le (abs_pos.mpr hx0) (peakOn_ge _ A.val (r0, c0) hcell)
    refine ⟨normalizeArray A d true false, ?_, rfl, rfl,
      fromDb d true / peakOn (cells A 0 false) A.val, div_pos (fromDb_pos _ _) hp, ?_, ?_, ?_⟩
    · unfold level
      dsimp only
      rw [if_neg (by simpa using hdd), if_neg (by omega), if_neg hp.ne']
    · intro r _ c _
      show A.val r c * (fromDb d true / levelOn true (cells A c false) A.val) = _
      rw [mul_comm]
      rfl
    · intro r hr c hc
      refine le_trans (peakOn_ge (cells (normalizeArray A d true false) c0 false)
        (normalizeArray A d true false).val (r, c) ?_) ?_
      · unfold cells normalizeArray; simp [hr, hc]
      · have := (C31_level_reached A d true false c0 (by
          show peakOn (cells A 0 false) A.val ≠ 0
          exact hp.ne'))
        simp only [levelOn, if_true] at this
        exact this.le
    · obtain ⟨r, hr, c, hc, -, h⟩ := (C31_peak_reached A d false c0 hc0 ⟨r0, hr0, hx0⟩).2
      exact ⟨r, hr, c, hc, h⟩

/-- `play`: for valid arguments the driver gets the first samples with the requested peak for the
output channels in ascending order; the device of the call becomes the default. -/
theorem C108_play {D : Type} (dflt : D) (A : Mat ℝ) (rate : ℕ) (t : Duration) (dbfs : Option ℝ)
    (dev : Option D) (c : Channels) (hc : ∀ k ∈ Given A.cols c, 1 ≤ k) (ht : Positive t)
    (hd : ∀ d ∈ dbfs, d ≤ 0)
    (hx : ∃ r < Samples A.rows rate t, ∃ k < A.cols, A.val r k ≠ 0) :
    ∃ B out, play dflt A rate t dbfs dev c =
        .ok (⟨some B, rate, out, [], dev.getD dflt⟩, dev.getD dflt) ∧
      Plays A (Samples A.rows rate t) dbfs B ∧ out.Perm (Given A.cols c) ∧
      out.Pairwise (· ≤ ·) := by
  have hany : ¬ (channels A.cols c).any (· < 1) = true := by
    rw [channels_any]
    rintro ⟨k, hk, h⟩
    exact absurd (hc k hk) (by omega)
  have key : ∀ n, min n A.rows = Samples A.rows rate t →
      ∃ B, level (firstRows A n) dbfs = .ok (some B) ∧
        Plays A (Samples A.rows rate t) dbfs B := by
    intro n hn
    obtain ⟨B, h1, h2⟩ := level_spec (firstRows A n) dbfs hd (by
      obtain ⟨r, hr, k, hk, h⟩ := hx
      exact ⟨r, by rw [← hn] at hr; exact hr, k, hk, h⟩)
    rw [← hn]
    exact ⟨B, h1, h2⟩
  unfold play
  dsimp only
  rw [if_neg hany]
  cases t with
  | whole =>
    obtain ⟨B, h1, h2⟩ := key A.rows (by simp [Samples])
    exact ⟨B, _, by simp only [h1], h2, channels_perm _ _, channels_sorted _ _⟩
  | int n =>
    obtain ⟨B, h1, h2⟩ := key (n * rate).toNat (by simp [Samples, min_comm])
    have : n > 0 := ht
    exact ⟨B, _, by simp only [this, if_true, h1], h2, channels_perm _ _, channels_sorted _ _⟩
  | float s =>
    obtain ⟨B, h1, h2⟩ := key ⌊s * rate⌋₊ (by simp [Samples, min_comm])
    have : s > 0 := ht
    exact ⟨B, _, by simp only [this, if_true, h1], h2, channels_perm _ _, channels_sorted _ _⟩

/-- Playing and recording, with durations that are not floats. -/
theorem C108_play_and_record_partial {D : Type} (dflt : D) (A : Mat ℝ) (rate : ℕ) (t : Duration)
    (dbfs : Option ℝ) (dev : Option D) (c : Channels) (inputs : List ℤ)
    (hn : (Given A.cols c).length = A.cols) (hc : ∀ k ∈ Given A.cols c, 1 ≤ k)
    (hr : ∀ k ∈ inputs, 1 ≤ k) (ht : Positive t) (hf : ∀ s, t ≠ .float s)
    (hd : ∀ d ∈ dbfs, d ≤ 0)
    (hx : ∃ r < Samples A.rows rate t, ∃ k < A.cols, A.val r k ≠ 0) :
    ∃ B out inp, playAndRecord dflt A rate t dbfs dev c (.several inputs) =
        .ok (⟨some B, rate, out, inp, dev.getD dflt⟩, dev.getD dflt) ∧
      Plays A (Samples A.rows rate t) dbfs B ∧ out.Perm (Given A.cols c) ∧
      out.Pairwise (· ≤ ·) ∧ inp.Perm inputs ∧ inp.Pairwise (· ≤ ·) := by
  have hany : ¬ (channels A.cols c).any (· < 1) = true := by
    rw [channels_any]
    rintro ⟨k, hk, h⟩
    exact absurd (hc k hk) (by omega)
  have hany' : ¬ (channels 0 (.several inputs)).any (· < 1) = true := by
    rw [channels_any]
    rintro ⟨k, hk, h⟩
    exact absurd (hr k hk) (by omega)
  have key : ∀ n, min n A.rows = Samples A.rows rate t →
      ∃ B, level (firstRows A n) dbfs = .ok (some B) ∧
        Plays A (Samples A.rows rate t) dbfs B := by
    intro n hn
    obtain ⟨B, h1, h2⟩ := level_spec (firstRows A n) dbfs hd (by
      obtain ⟨r, hr, k, hk, h⟩ := hx
      exact ⟨r, by rw [← hn] at hr; exact hr, k, hk, h⟩)
    rw [← hn]
    exact ⟨B, h1, h2⟩
  have hlen : (channels A.cols c).length = A.cols := (channels_perm _ _).length_eq.trans hn
  unfold playAndRecord
  dsimp only
  rw [if_neg (by omega), if_neg hany, if_neg hany']
  cases t with
  | whole =>
    obtain ⟨B, h1, h2⟩ := key A.rows (by simp [Samples])
    exact ⟨B, _, _, by simp only [h1], h2, channels_perm _ _, channels_sorted _ _,
      channels_perm 0 (.several inputs), channels_sorted _ _⟩
  | int n =>
    obtain ⟨B, h1, h2⟩ := key (n * rate).toNat (by simp [Samples, min_comm])
    have : n > 0 := ht
    exact ⟨B, _, _, by simp only [this, if_true, h1], h2, channels_perm _ _, channels_sorted _ _,
      channels_perm 0 (.several inputs), channels_sorted _ _⟩
  | float s => exact absurd rfl (hf s)

/-- With the normalisation nothing that is played exceeds full scale. -/
theorem C108_no_clipping (A : Mat ℝ) (n : ℕ) (d : ℝ) (hd : d ≤ 0) (B : Mat ℝ)
    (h : Plays A n (some d) B) (r c : ℕ) (hr : r < B.rows) (hc : c < B.cols) :
    |B.val r c| ≤ 1 := by
  obtain ⟨h1, h2, g, hg, h3, h4, h5⟩ := h
  refine (h4 r (by omega) c (by omega)).trans ?_
  exact Real.rpow_le_one_of_one_le_of_nonpos (by norm_num) (by linarith)

/-- Code fact: `play_and_record` refuses every duration given as a float. -/
theorem C108_float_duration_refused {D : Type} (dflt : D) (A : Mat ℝ) (rate : ℕ) (s : ℝ)
    (dbfs : Option ℝ) (dev : Option D) (c r : Channels) :
    playAndRecord dflt A rate (.float s) dbfs dev c r = .error .typeError ∨
      playAndRecord dflt A rate (.float s) dbfs dev c r = .error .assertionError := by
  unfold playAndRecord
  dsimp only
  by_cases hs : s > 0
  · rw [if_pos hs]
    split_ifs
    · exact .inr rfl
    · exact .inr rfl
    · exact .inr rfl
    · exact .inl rfl
  · rw [if_neg hs]
    split_ifs <;> exact .inr rfl

/-- The refusals of `play` and `play_and_record`. -/
theorem C108_refused {D : Type} (dflt : D) (A : Mat ℝ) (rate : ℕ) (t : Duration)
    (dbfs : Option ℝ) (dev : Option D) (c r : Channels) :
    ((∃ k ∈ Given A.cols c, k < 1) ∨ ¬ Positive t →
      play dflt A rate t dbfs dev c = .error .assertionError) ∧
    ((∃ k ∈ Given A.cols c, k < 1) ∨ (∃ k ∈ Given 0 r, k < 1) ∨ ¬ Positive t ∨
        (Given A.cols c).length ≠ A.cols →
      playAndRecord dflt A rate t dbfs dev c r = .error .assertionError) ∧
    ((∃ d ∈ dbfs, 0 < d) → (∃ e, play dflt A rate t dbfs dev c = .error e) ∧
      ∃ e, playAndRecord dflt A rate t dbfs dev c r = .error e) := by
  have hl : (channels A.cols c).length = (Given A.cols c).length := (channels_perm _ _).length_eq
  refine ⟨fun h => ?_, fun h => ?_, ?_⟩
  · unfold play
    dsimp only
    by_cases h1 : (channels A.cols c).any (· < 1) = true
    · rw [if_pos h1]
    · rw [if_neg h1]
      rw [channels_any] at h1
      have ht := h.resolve_left h1
      cases t with
      | whole => exact absurd trivial ht
      | int n => dsimp only; rw [if_neg (show ¬ n > 0 from ht)]
      | float s => dsimp only; rw [if_neg (show ¬ s > 0 from ht)]
  · unfold playAndRecord
    dsimp only
    by_cases h0 : A.cols ≠ (channels A.cols c).length
    · rw [if_pos h0]
    rw [if_neg h0]
    by_cases h1 : (channels A.cols c).any (· < 1) = true
    · rw [if_pos h1]
    rw [if_neg h1]
    by_cases h2 : (channels 0 r).any (· < 1) = true
    · rw [if_pos h2]
    rw [if_neg h2]
    rw [channels_any] at h1 h2
    have ht : ¬ Positive t := by
      rcases h with h | h | h | h
      · exact absurd h h1
      · exact absurd h h2
      · exact h
      · omega
    cases t with
    | whole => exact absurd trivial ht
    | int n => dsimp only; rw [if_neg (show ¬ n > 0 from ht)]
    | float s => dsimp only; rw [if_neg (show ¬ s > 0 from ht)]
  · rintro ⟨d, hd, hpos⟩
    have hdb : dbfs = some d := hd
    subst hdb
    have hlev : ∀ B : Mat ℝ, level B (some d) = .error .assertionError := by
      intro B
      unfold level
      dsimp only
      rw [if_pos (by linarith)]
    constructor
    · unfold play
      dsimp only
      simp only [hlev]
      split_ifs
      · exact ⟨_, rfl⟩
      · split <;> exact ⟨_, rfl⟩
    · unfold playAndRecord
      dsimp only
      simp only [hlev]
      split_ifs
      · exact ⟨_, rfl⟩
      · exact ⟨_, rfl⟩
      · exact ⟨_, rfl⟩
      · split <;> exact ⟨_, rfl⟩

/-- Code fact that contradicts the documentation ("has to match the total length and order of
play_channels"): the order of the channels makes no difference. -/
theorem C108_order_ignored {D : Type} (dflt : D) (A : Mat ℝ) (rate : ℕ) (t : Duration)
    (dbfs : Option ℝ) (dev : Option D) (l l' : List ℤ) (r : Channels) (h : l.Perm l') :
    play dflt A rate t dbfs dev (.several l) = play dflt A rate t dbfs dev (.several l') ∧
    playAndRecord dflt A rate t dbfs dev (.several l) r =
      playAndRecord dflt A rate t dbfs dev (.several l') r := by
  have e : channels A.cols (.several l) = channels A.cols (.several l') :=
    List.Perm.eq_of_pairwise (fun a b _ _ h1 h2 => le_antisymm h1 h2) (channels_sorted _ _)
      (channels_sorted _ _) ((channels_perm _ _).trans (h.trans (channels_perm _ (.several l')).symm))
  unfold play playAndRecord
  rw [e]
  exact ⟨rfl, rfl⟩

/-- Code fact: a silent signal is played as nan. -/
theorem C108_silence_is_nan {D : Type} (dflt : D) (A : Mat ℝ) (rate : ℕ) (d : ℝ) (hd : d ≤ 0)
    (hr : 0 < A.rows) (hc : 0 < A.cols) (hx : ∀ r < A.rows, ∀ c < A.cols, A.val r c = 0) :
    ∃ out, play dflt A rate .whole (some d) none .auto = .ok (⟨none, rate, out, [], dflt⟩, dflt) := by
  have hany : ¬ (channels A.cols .auto).any (· < 1) = true := by
    rw [channels_any]
    rintro ⟨k, hk, h⟩
    unfold Given at hk
    obtain ⟨i, -, rfl⟩ := List.mem_map.mp hk
    omega
  have hz : peakOn (cells (firstRows A A.rows) 0 false) (firstRows A A.rows).val = 0 := by
    by_contra hne
    obtain ⟨p, hp, h⟩ := peakOn_attained _ _ hne
    unfold cells firstRows at hp
    simp only [Bool.false_eq_true, if_false, Finset.mem_product, Finset.mem_range, min_self] at hp
    apply hne
    rw [← h]
    show |A.val p.1 p.2| = 0
    rw [hx _ hp.1 _ hp.2, abs_zero]
  refine ⟨channels A.cols .auto, ?_⟩
  unfold play
  dsimp only
  rw [if_neg hany]
  have hl : level (firstRows A A.rows) (some d) = .ok none := by
    unfold level
    dsimp only
    rw [if_neg (by simpa using hd), if_neg, if_pos hz]
    unfold firstRows
    simp only [min_self]
    omega
  simp only [hl, Option.getD_none]

/-- The device is the first one whose name contains the given one. -/
theorem C108_interface (lower : List Char → List Char) (name : List Char)
    (devices : List (List Char)) (i : ℕ) (full : List Char) :
    interfaceByName lower name devices = .ok (i, full) ↔
      devices[i]? = some full ∧ lower name <:+: lower full ∧
        ∀ j < i, ∀ d, devices[j]? = some d → ¬ lower name <:+: lower d := by
  unfold interfaceByName
  cases h : devices.findIdx? fun d => decide (lower name <:+: lower d) with
  | none =>
    rw [List.findIdx?_eq_none_iff] at h
    simp only [reduceCtorEq, false_iff]
    rintro ⟨h1, h2, -⟩
    have := h full (List.mem_of_getElem? h1)
    simp [h2] at this
  | some k =>
    rw [List.findIdx?_eq_some_iff_getElem] at h
    obtain ⟨hk, h1, h2⟩ := h
    simp only [decide_eq_true_eq] at h1
    have hkk : devices[k]? = some devices[k] := List.getElem?_eq_getElem hk
    have hg : devices.getD k [] = devices[k] := by rw [List.getD_eq_getElem?_getD, hkk]; rfl
    have hlt : ∀ j < k, ∀ d, devices[j]? = some d → ¬ lower name <:+: lower d := by
      intro j hj d hd hin
      have hjd : devices[j] = d := by
        have := List.getElem?_eq_getElem (l := devices) (i := j) (by omega)
        rw [this] at hd
        injection hd
      have := h2 j hj
      rw [hjd] at this
      simp [hin] at this
    simp only [Except.ok.injEq, Prod.mk.injEq, hg]
    constructor
    · rintro ⟨rfl, rfl⟩
      exact ⟨hkk, h1, hlt⟩
    · rintro ⟨g1, g2, g3⟩
      have : k = i := by
        rcases lt_trichotomy k i with h | h | h
        · exact absurd h1 (g3 k h _ hkk)
        · exact h
        · exact absurd g2 (hlt i h _ g1)
      subst this
      rw [hkk] at g1
      injection g1 with g1
      exact ⟨rfl, g1⟩

/-- No device matches: refused. -/
theorem C108_interface_refused (lower : List Char → List Char) (name : List Char)
    (devices : List (List Char)) :
    interfaceByName lower name devices = .error .valueError ↔
      ∀ d ∈ devices, ¬ lower name <:+: lower d := by
  unfold interfaceByName
  cases h : devices.findIdx? fun d => decide (lower name <:+: lower d) with
  | none =>
    rw [List.findIdx?_eq_none_iff] at h
    simpa using h
  | some k =>
    rw [List.findIdx?_eq_some_iff_getElem] at h
    obtain ⟨hk, h1, -⟩ := h
    simp only [reduceCtorEq, false_iff, not_forall, not_not]
    exact ⟨devices[k], List.getElem_mem _, by simpa using h1⟩

/-- `set_device`: whatever is accepted names two existing devices; one device serves for both
directions. -/
theorem C108_set_device (lower : List Char → List Char) (devices : List (List Char))
    (a : DeviceArg) (i o : ℤ) (h : setDevice lower devices a = .ok (i, o)) :
    (-(devices.length : ℤ) ≤ i ∧ i < devices.length) ∧
      (-(devices.length : ℤ) ≤ o ∧ o < devices.length) ∧
      ((∃ n, a = .item (.number n) ∧ i = n ∧ o = n) ∨
        (∃ s f, a = .item (.name s) ∧ i = o ∧ interfaceByName lower s devices = .ok (i.toNat, f)) ∨
        (a = .several [.number i, .number o]) ∨
        ∃ s t f g, a = .several [.name s, .name t] ∧
          interfaceByName lower s devices = .ok (i.toNat, f) ∧
          interfaceByName lower t devices = .ok (o.toNat, g)) := by
  have hbound : ∀ (s : List Char) (k : ℕ) (f : List Char), interfaceByName lower s devices = .ok (k, f) →
      k < devices.length := by
    intro s k f hk
    have := ((C108_interface lower s devices k f).mp hk).1
    exact (List.getElem?_eq_some_iff.mp this).1
  unfold setDevice at h
  split at h
  · rename_i n
    split_ifs at h with hv
    injection h with h
    injection h with h1 h2
    subst h1; subst h2
    exact ⟨hv, hv, .inl ⟨_, rfl, rfl, rfl⟩⟩
  · rename_i s
    split at h
    · rename_i k f hk
      injection h with h
      injection h with h1 h2
      subst h1; subst h2
      have := hbound s k f hk
      exact ⟨⟨by omega, by omega⟩, ⟨by omega, by omega⟩,
        .inr (.inl ⟨s, f, rfl, rfl, by simpa using hk⟩)⟩
    · cases h
  · split_ifs at h with h1 h2
    injection h with h
    injection h with e1 e2
    subst e1; subst e2
    exact ⟨h1, h2, .inr (.inr (.inl rfl))⟩
  · rename_i s t
    split at h
    · cases h
    · rename_i k f hk
      split at h
      · cases h
      · rename_i l g hl
        injection h with h
        injection h with e1 e2
        subst e1; subst e2
        have b1 := hbound s k f hk
        have b2 := hbound t l g hl
        exact ⟨⟨by omega, by omega⟩, ⟨by omega, by omega⟩,
          .inr (.inr (.inr ⟨s, t, f, g, rfl, by simpa using hk, by simpa using hl⟩))⟩
  · cases h
  · cases h
  · cases h

/-- Two channels, played in reverse order of the request. -/
example : ∃ A : Mat ℝ, (∃ r < Samples A.rows 48000 (.int 1), ∃ k < A.cols, A.val r k ≠ 0) ∧
    (∀ k ∈ Given A.cols (.several [2, 1]), 1 ≤ k) ∧
    (Given A.cols (.several [2, 1])).length = A.cols :=
  ⟨⟨3, 2, fun _ _ => 1⟩, ⟨0, by simp [Samples], 0, by norm_num, by norm_num⟩,
    by simp [Given], by simp [Given]⟩

/-- A recording requests the whole samples of the duration, all given channels in ascending order, and the given
device, which becomes the default. -/
theorem C108_record {D : Type} (dflt : D) (t : ℝ) (ht : 0 ≤ t) (rate : ℕ) (dev : Option D) (inputs : List ℤ)
    (hr : ∀ k ∈ inputs, 1 ≤ k) :
    ∃ (n : ℕ) (inp : List ℤ), record dflt t rate dev (.several inputs) =
        .ok (⟨n, rate, inp, dev.getD dflt⟩, dev.getD dflt) ∧
      (n : ℝ) ≤ t * rate ∧ t * rate < n + 1 ∧ inp.Perm inputs ∧ inp.Pairwise (· ≤ ·) := by
  have hany : ¬ (channels 0 (.several inputs)).any (· < 1) = true := by
    rw [channels_any]
    rintro ⟨k, hk, h⟩
    have := hr k hk
    omega
  have h0 : 0 ≤ t * rate := mul_nonneg ht (Nat.cast_nonneg _)
  refine ⟨⌊t * rate⌋₊, channels 0 (.several inputs), ?_, Nat.floor_le h0, Nat.lt_floor_add_one _,
    channels_perm 0 (.several inputs), channels_sorted _ _⟩
  unfold record
  dsimp only
  rw [if_neg hany, truncate, if_pos h0, ← Int.floor_toNat, Int.toNat_of_nonneg (Int.floor_nonneg.2 h0)]

/-- A recording is refused exactly if a channel is below 1; then the default device stays as it is. -/
theorem C108_record_refused {D : Type} (dflt : D) (t : ℝ) (rate : ℕ) (dev : Option D) (r : Channels) :
    record dflt t rate dev r = .error .assertionError ↔ ∃ k ∈ Given 0 r, k < 1 := by
  rw [← channels_any]
  unfold record
  dsimp only
  split_ifs with h <;> simp_all

/-- **Code fact.** A negative duration is not refused: the request asks for a negative number of samples. -/
theorem C108_record_negative {D : Type} (dflt : D) (t : ℝ) (rate : ℕ) (h : t * rate ≤ -1) (dev : Option D) :
    ∃ q, record dflt t rate dev (.several [1]) = .ok q ∧ q.1.frames < 0 := by
  have hany : ¬ (channels 0 (.several [1])).any (· < 1) = true := by
    rw [channels_any]
    rintro ⟨k, hk, h⟩
    simp [Given] at hk
    omega
  refine ⟨(⟨truncate (t * rate), rate, channels 0 (.several [1]), dev.getD dflt⟩, dev.getD dflt), ?_, ?_⟩
  · unfold record
    dsimp only
    rw [if_neg hany]
  · show truncate (t * rate) < 0
    rw [truncate, if_neg (by linarith)]
    have : ⌈t * rate⌉ ≤ -1 := Int.ceil_le.2 (by push_cast; exact h)
    omega

/-- Sleeping waits for less than a millisecond too little and never too long. -/
theorem C108_sleep (s : ℝ) (hs : 0 ≤ s) : (sleepMs s : ℝ) ≤ s * 1000 ∧ s * 1000 < sleepMs s + 1 := by
  have h0 : 0 ≤ s * 1000 := by positivity
  rw [sleepMs, truncate, if_pos h0]
  exact ⟨Int.floor_le _, Int.lt_floor_add_one _⟩

/-- The hypotheses are met by a recording of five seconds and by a negative duration. -/
example : (0 : ℝ) ≤ 5 ∧ (∀ k ∈ [(2 : ℤ), 1], 1 ≤ k) ∧ (-1 : ℝ) * (48000 : ℕ) ≤ -1 := by
  refine ⟨by norm_num, by simp, by norm_num⟩

end Verif.AudioIO

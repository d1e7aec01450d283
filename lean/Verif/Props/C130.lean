import Verif.Model.LatencyQuality
import Verif.Lemmas.AdaptiveReverb
import Verif.Lemmas.Gammatone
import Verif.Props.C46
import Verif.Props.C48
import Mathlib.Analysis.SpecialFunctions.Complex.Circle

/-!
# C130: the quality of a latency, and the phase without latency

"The correlation tells how well the two channels agree after compensating the delay: it is 1 for
a delayed copy and -1 for an inverted one."
-/

namespace Verif.Latency

open Room Finset

/-! ### Pearson correlation -/

theorem pearson_comm (i1 i2 : ℕ) (x y : ℕ → ℝ) : pearson i1 i2 x y = pearson i1 i2 y x := by
  have h : ∀ t y : ℕ → ℝ, pearson i1 i2 t y =
      if i2 < i1 + 2 ∨ spread i1 i2 t = 0 ∨ spread i1 i2 y = 0 then none
      else some (coSpread i1 i2 t y / (Real.sqrt (spread i1 i2 t) * Real.sqrt (spread i1 i2 y))) :=
    fun _ _ => rfl
  have hc : coSpread i1 i2 x y = coSpread i1 i2 y x := sum_congr rfl fun i _ => by ring
  rw [h, h, hc, mul_comm (Real.sqrt _)]
  by_cases hh : i2 < i1 + 2 ∨ spread i1 i2 x = 0 ∨ spread i1 i2 y = 0
  · rw [if_pos hh, if_pos (by tauto)]
  · rw [if_neg hh, if_neg (by tauto)]

theorem pearson_congr (i1 i2 : ℕ) (x x' y y' : ℕ → ℝ) (hx : ∀ i ∈ Ico i1 i2, x i = x' i)
    (hy : ∀ i ∈ Ico i1 i2, y i = y' i) : pearson i1 i2 x y = pearson i1 i2 x' y' := by
  unfold pearson
  rw [mean_congr i1 i2 x x' hx, mean_congr i1 i2 y y' hy]
  have e1 : ∑ i ∈ Ico i1 i2, (x i - mean i1 i2 x') ^ 2 = ∑ i ∈ Ico i1 i2, (x' i - mean i1 i2 x') ^ 2 :=
    sum_congr rfl fun i hi => by rw [hx i hi]
  have e2 : ∑ i ∈ Ico i1 i2, (y i - mean i1 i2 y') ^ 2 = ∑ i ∈ Ico i1 i2, (y' i - mean i1 i2 y') ^ 2 :=
    sum_congr rfl fun i hi => by rw [hy i hi]
  have e3 : ∑ i ∈ Ico i1 i2, (x i - mean i1 i2 x') * (y i - mean i1 i2 y') =
      ∑ i ∈ Ico i1 i2, (x' i - mean i1 i2 x') * (y' i - mean i1 i2 y') :=
    sum_congr rfl fun i hi => by rw [hx i hi, hy i hi]
  rw [e1, e2, e3]

theorem pearson_neg (i1 i2 : ℕ) (x y : ℕ → ℝ) :
    pearson i1 i2 x (fun i => -y i) = (pearson i1 i2 x y).map fun r => -r := by
  have h : ∀ t y : ℕ → ℝ, pearson i1 i2 t y =
      if i2 < i1 + 2 ∨ spread i1 i2 t = 0 ∨ spread i1 i2 y = 0 then none
      else some (coSpread i1 i2 t y / (Real.sqrt (spread i1 i2 t) * Real.sqrt (spread i1 i2 y))) :=
    fun _ _ => rfl
  have hm : mean i1 i2 (fun i => -y i) = -mean i1 i2 y := by
    unfold mean
    rw [sum_neg_distrib, neg_div]
  have hs : spread i1 i2 (fun i => -y i) = spread i1 i2 y := by
    unfold spread
    rw [hm]
    exact sum_congr rfl fun i _ => by ring
  have hc : coSpread i1 i2 x (fun i => -y i) = -coSpread i1 i2 x y := by
    unfold coSpread
    rw [hm, ← sum_neg_distrib]
    exact sum_congr rfl fun i _ => by ring
  rw [h, h, hs, hc]
  split
  · rfl
  · rw [Option.map_some, neg_div]

/-! ### One pair of channels -/

/-- Number of samples that can be compared: what both channels have left after the delay of one of
them is removed. -/
def overlap (a b : List ℝ) (lat : ℤ) : ℕ := min (a.length - (-lat).toNat) (b.length - lat.toNat)

theorem getD_drop_take (l : List ℝ) (k n i : ℕ) (h : i < n) :
    ((l.drop k).take n).getD i 0 = l.getD (i + k) 0 := by
  rw [List.getD_eq_getElem?_getD, List.getD_eq_getElem?_getD, List.getElem?_take_of_lt h,
    List.getElem?_drop, Nat.add_comm]

theorem getD_take (l : List ℝ) (n i : ℕ) (h : i < n) : (l.take n).getD i 0 = l.getD i 0 := by
  rw [List.getD_eq_getElem?_getD, List.getD_eq_getElem?_getD, List.getElem?_take_of_lt h]

theorem corrPair_eq (a b : List ℝ) (lat : ℤ) :
    corrPair a b lat = if overlap a b lat < 2 then .error .valueError
      else .ok (pearson 0 (overlap a b lat) (fun i => a.getD (i + (-lat).toNat) 0)
        (fun i => b.getD (i + lat.toNat) 0)) := by
  unfold corrPair pearsonr
  dsimp only
  by_cases hl : lat > 0
  · rw [if_pos hl, if_pos hl]
    have h1 : lat.natAbs = lat.toNat := by omega
    have h2 : (-lat).toNat = 0 := by omega
    have hn : min (b.drop lat.natAbs).length a.length = overlap a b lat := by
      unfold overlap
      rw [List.length_drop, h1, h2]
      omega
    rw [hn]
    have hlen : ((b.drop lat.natAbs).take (overlap a b lat)).length = overlap a b lat := by
      rw [List.length_take, ← hn]
      omega
    rw [hlen]
    split
    · rfl
    · rw [pearson_comm]
      congr 1
      refine pearson_congr _ _ _ _ _ _ (fun i hi => ?_) fun i hi => ?_
      · rw [h2, Nat.add_zero]
        exact getD_take _ _ _ (mem_Ico.mp hi).2
      · rw [← h1]
        exact getD_drop_take _ _ _ _ (mem_Ico.mp hi).2
  · rw [if_neg hl, if_neg hl]
    have h1 : lat.natAbs = (-lat).toNat := by omega
    have h2 : lat.toNat = 0 := by omega
    have hn : min (a.drop lat.natAbs).length b.length = overlap a b lat := by
      unfold overlap
      rw [List.length_drop, h1, h2]
      omega
    rw [hn]
    have hlen : ((a.drop lat.natAbs).take (overlap a b lat)).length = overlap a b lat := by
      rw [List.length_take, ← hn]
      omega
    rw [hlen]
    split
    · rfl
    · congr 1
      refine pearson_congr _ _ _ _ _ _ (fun i hi => ?_) fun i hi => ?_
      · rw [← h1]
        exact getD_drop_take _ _ _ _ (mem_Ico.mp hi).2
      · rw [h2, Nat.add_zero]
        exact getD_take _ _ _ (mem_Ico.mp hi).2

/-- The correlation lies between -1 and 1. -/
theorem C130_range (a b : List ℝ) (lat : ℤ) (r : ℝ) (h : corrPair a b lat = .ok (some r)) :
    -1 ≤ r ∧ r ≤ 1 := by
  rw [corrPair_eq] at h
  split at h
  · cases h
  · exact abs_pearson_le _ _ _ _ _ (Except.ok.inj h)

/-- Exchanging the two channels and the sign of the latency changes nothing. -/
theorem C130_exchange (a b : List ℝ) (lat : ℤ) : corrPair a b lat = corrPair b a (-lat) := by
  rw [corrPair_eq, corrPair_eq, neg_neg]
  have : overlap a b lat = overlap b a (-lat) := by
    unfold overlap
    rw [neg_neg, min_comm]
  rw [this, pearson_comm]

/-- If, in the part that is compared, one channel is `gain` times the other plus an offset, and is
not constant, the correlation is 1 for a positive and -1 for a negative gain: level and offset do
not matter. -/
theorem C130_affine (a b : List ℝ) (lat : ℤ) (gain offset : ℝ) (hg : gain ≠ 0)
    (h : ∀ i < overlap a b lat,
      b.getD (i + lat.toNat) 0 = gain * a.getD (i + (-lat).toNat) 0 + offset)
    (i j : ℕ) (hi : i < overlap a b lat) (hj : j < overlap a b lat)
    (hij : a.getD (i + (-lat).toNat) 0 ≠ a.getD (j + (-lat).toNat) 0) :
    corrPair a b lat = .ok (some (if 0 < gain then 1 else -1)) := by
  have hn : ¬ overlap a b lat < 2 := by
    have : i ≠ j := fun e => hij (by rw [e])
    omega
  rw [corrPair_eq, if_neg hn]
  congr 1
  rcases lt_or_gt_of_ne hg with hneg | hpos
  · rw [if_neg (by linarith)]
    exact (line_fit 0 _ _ _ gain offset hneg (fun k hk => h k (mem_Ico.mp hk).2) i j
      (mem_Ico.mpr ⟨Nat.zero_le _, hi⟩) (mem_Ico.mpr ⟨Nat.zero_le _, hj⟩) hij).2
  · rw [if_pos hpos]
    have h1 := (line_fit 0 (overlap a b lat) (fun i => a.getD (i + (-lat).toNat) 0)
      (fun i => -b.getD (i + lat.toNat) 0) (-gain) (-offset) (by linarith)
      (fun k hk => by rw [h k (mem_Ico.mp hk).2]; ring) i j
      (mem_Ico.mpr ⟨Nat.zero_le _, hi⟩) (mem_Ico.mpr ⟨Nat.zero_le _, hj⟩) hij).2
    rw [pearson_neg] at h1
    obtain ⟨r, h2, h3⟩ := Option.map_eq_some_iff.mp h1
    rw [h2, show r = 1 by linarith]

/-- And only then: a correlation of 1 or -1 means that the compared parts agree up to a gain of
this sign and an offset. -/
theorem C130_only_affine (a b : List ℝ) (lat : ℤ) (r : ℝ) (h : corrPair a b lat = .ok (some r)) :
    (r = 1 → ∃ gain offset, 0 < gain ∧ ∀ i < overlap a b lat,
      b.getD (i + lat.toNat) 0 = gain * a.getD (i + (-lat).toNat) 0 + offset) ∧
    (r = -1 → ∃ gain offset, gain < 0 ∧ ∀ i < overlap a b lat,
      b.getD (i + lat.toNat) 0 = gain * a.getD (i + (-lat).toNat) 0 + offset) := by
  rw [corrPair_eq] at h
  split at h
  · cases h
  · have h := Except.ok.inj h
    constructor
    · rintro rfl
      have h1 : pearson 0 (overlap a b lat) (fun i => a.getD (i + (-lat).toNat) 0)
          (fun i => -b.getD (i + lat.toNat) 0) = some (-1) := by
        rw [pearson_neg, h]
        rfl
      obtain ⟨g, o, hg, hl⟩ := line_of_pearson _ _ _ _ h1
      refine ⟨-g, -o, by linarith, fun i hi => ?_⟩
      have := hl i (mem_Ico.mpr ⟨Nat.zero_le _, hi⟩)
      linarith
    · rintro rfl
      obtain ⟨g, o, hg, hl⟩ := line_of_pearson _ _ _ _ h
      exact ⟨g, o, hg, fun i hi => hl i (mem_Ico.mpr ⟨Nat.zero_le _, hi⟩)⟩

/-- Too few samples in common raise ValueError. -/
theorem C130_too_short (a b : List ℝ) (lat : ℤ) (h : overlap a b lat < 2) :
    corrPair a b lat = .error .valueError := by
  rw [corrPair_eq, if_pos h]

/-! ### All channels -/

theorem mapM_err {α β : Type} (f : α → Except Err β) : ∀ (l : List α) (a : α), a ∈ l →
    (∃ e, f a = .error e) → ∃ e, l.mapM f = .error e
  | [], a, h, _ => by simp at h
  | b :: l, a, h, he => by
    rw [List.mapM_cons]
    rcases List.mem_cons.mp h with rfl | h
    · obtain ⟨e, he⟩ := he
      rw [he]
      exact ⟨e, rfl⟩
    · cases hb : f b with
      | error e => exact ⟨e, rfl⟩
      | ok b' =>
        obtain ⟨e, h'⟩ := mapM_err f l a h he
        rw [h']
        exact ⟨e, rfl⟩

theorem mapM_all {α β : Type} (f : α → Except Err β) (g : α → β) :
    ∀ l : List α, (∀ a ∈ l, f a = .ok (g a)) → l.mapM f = .ok (l.map g)
  | [], _ => rfl
  | a :: l, h => by
    rw [List.mapM_cons, h a (by simp), mapM_all f g l (fun b hb => h b (by simp [hb]))]
    rfl

/-- Every channel of `in1` is the channel of `in2` delayed by `d c` samples: the delays are
returned, each with a correlation of 1 if the channel is not constant in the part that is
compared. -/
theorem C130_delayed (in1 in2 : List (List ℝ)) (d : ℕ → ℤ) (hlen : in1.length = in2.length)
    (h : ∀ c < in1.length, Delayed (in1.getD c []) (in2.getD c []) (d c))
    (hx : ∀ c < in1.length, ∃ i j, i < overlap (in2.getD c []) (in1.getD c []) (d c) ∧
      j < overlap (in2.getD c []) (in1.getD c []) (d c) ∧
      (in2.getD c []).getD (i + (-d c).toNat) 0 ≠ (in2.getD c []).getD (j + (-d c).toNat) 0) :
    latencyBoth true in1 in2 =
      .ok ((List.range in1.length).map d, (List.range in1.length).map fun _ => some 1) := by
  have hl : latency2 true in1 in2 = .ok ((List.range in1.length).map d) := by
    refine C48_two_signals in1 in2 d hlen h fun c hc => ?_
    obtain ⟨i, j, hi, hj, hij⟩ := hx c hc
    by_contra hall
    push Not at hall
    apply hij
    have h1 := hall ((i + (-d c).toNat : ℕ) : ℤ)
    have h2 := hall ((j + (-d c).toNat : ℕ) : ℤ)
    unfold ext at h1 h2
    rw [if_pos (by omega), Int.toNat_natCast] at h1 h2
    rw [h1, h2]
  unfold latencyBoth withQuality
  rw [hl]
  have hc : correlations in2 in1 ((List.range in1.length).map d) =
      .ok ((List.range in1.length).map fun _ => some 1) := by
    unfold correlations
    rw [List.length_map, List.length_range]
    refine mapM_all _ (fun _ => some 1) _ fun c hc => ?_
    have hc := List.mem_range.mp hc
    have hsel : (if in2.length = 1 then in2.getD 0 [] else in2.getD c []) = in2.getD c [] := by
      split
      · rw [show c = 0 by omega]
      · rfl
    have hget : ((List.range in1.length).map d).getD c 0 = d c := by
      rw [List.getD_eq_getElem _ _ (by simpa using hc)]
      simp
    rw [hsel, hget]
    obtain ⟨i, j, hi, hj, hij⟩ := hx c hc
    have := C130_affine (in2.getD c []) (in1.getD c []) (d c) 1 0 one_ne_zero (fun k hk => ?_) i j
      hi hj hij
    · simpa using this
    · have hd := h c hc ((k + (d c).toNat : ℕ) : ℤ)
      unfold ext at hd
      rw [if_pos (by omega), Int.toNat_natCast] at hd
      have e : ((k + (d c).toNat : ℕ) : ℤ) - d c = ((k + (-d c).toNat : ℕ) : ℤ) := by
        push_cast
        omega
      rw [e, if_pos (by omega), Int.toNat_natCast] at hd
      rw [hd]
      ring
  simp only [hc]

theorem silent_latency (x y : List ℝ) (hx : x ≠ []) (hy : y ≠ []) (h : ∀ v ∈ y, v = 0) :
    latencyPair y x = .ok ((y.length : ℤ) - 1) := by
  have hz : ∀ k, correlateAt x y k = 0 := by
    intro k
    unfold correlateAt
    refine sum_eq_zero fun l _ => ?_
    split
    · have : y.getD (l + (y.length - 1) - k) 0 = 0 := by
        by_cases hlt : l + (y.length - 1) - k < y.length
        · rw [List.getD_eq_getElem _ _ hlt]
          exact h _ (List.getElem_mem hlt)
        · rw [List.getD_eq_getElem?_getD, List.getElem?_eq_none (by omega)]
          rfl
      rw [this, mul_zero]
    · rfl
  have hpos : 0 < x.length := List.length_pos_iff.mpr hx
  have hpos' : 0 < y.length := List.length_pos_iff.mpr hy
  have ha : argmaxAbs (correlate x y) = .ok 0 := by
    unfold argmaxAbs correlate
    rw [if_neg (by simp [hx, hy])]
    refine Gammatone.argmin_zeros _ ?_ ?_
    · intro he
      have := congrArg List.length he
      simp at this
      omega
    · intro v hv
      obtain ⟨w, hw, rfl⟩ := List.mem_map.mp hv
      obtain ⟨k, -, rfl⟩ := List.mem_map.mp hw
      rw [hz]
      simp
  unfold latencyPair
  rw [ha]
  simp

/-- One silent channel of `in1` is enough that **all** correlations are reported as 0, whatever the
other channels are. -/
theorem C130_silent_channel_wrong (in1 in2 : List (List ℝ)) (lats : List ℤ) (r : List (Option ℝ))
    (hall : latencyBoth true in1 in2 = .ok (lats, r)) (c : ℕ) (hc : c < in1.length)
    (hne1 : in1.getD c [] ≠ []) (hne2 : in2.getD c [] ≠ [])
    (hs : ∀ v ∈ in1.getD c [], v = 0) : r = lats.map fun _ => some 0 := by
  have hp := silent_latency (in2.getD c []) (in1.getD c []) hne2 hne1 hs
  unfold latencyBoth at hall
  cases hl : latency2 true in1 in2 with
  | error e => rw [hl] at hall; cases hall
  | ok l =>
    rw [hl] at hall
    have hlen : in1.length = in2.length := by
      unfold latency2 at hl
      rw [if_neg (by simp)] at hl
      by_contra hne
      rw [if_pos hne] at hl
      cases hl
    -- the latency of channel `c`
    have key : l.length = in1.length ∧ l.getD c 0 = ((in1.getD c []).length : ℤ) - 1 := by
      unfold latency2 at hl
      rw [if_neg (by simp), if_neg (by simp [hlen])] at hl
      have gen : ∀ (R : List ℕ) (l : List ℤ),
          R.mapM (fun c => latencyPair (in1.getD c []) (in2.getD c [])) = .ok l →
          l.length = R.length ∧ ∀ k (hk : k < R.length),
            latencyPair (in1.getD R[k] []) (in2.getD R[k] []) = .ok (l.getD k 0) := by
        intro R
        induction R with
        | nil =>
          intro l h
          cases h
          exact ⟨rfl, fun k hk => by simp at hk⟩
        | cons a R ih =>
          intro l h
          rw [List.mapM_cons] at h
          cases ha : latencyPair (in1.getD a []) (in2.getD a []) with
          | error e => rw [ha] at h; cases h
          | ok v =>
            rw [ha] at h
            cases hR : R.mapM (fun c => latencyPair (in1.getD c []) (in2.getD c [])) with
            | error e => rw [hR] at h; cases h
            | ok l' =>
              rw [hR] at h
              cases h
              obtain ⟨i1, i2⟩ := ih l' hR
              refine ⟨by simp [i1], fun k hk => ?_⟩
              cases k with
              | zero => exact ha
              | succ k => exact i2 k (by simpa using hk)
      obtain ⟨h1, h2⟩ := gen _ _ hl
      refine ⟨by rw [h1, List.length_range], ?_⟩
      have := h2 c (by rw [List.length_range]; exact hc)
      rw [List.getElem_range, hp] at this
      exact (Except.ok.inj this).symm
    have herr : ∃ e, correlations in2 in1 l = .error e := by
      unfold correlations
      refine mapM_err _ _ c (List.mem_range.mpr (by omega)) ⟨.valueError, ?_⟩
      refine C130_too_short _ _ _ ?_
      unfold overlap
      rw [key.2]
      have : 0 < (in1.getD c []).length := List.length_pos_iff.mpr hne1
      omega
    obtain ⟨e, he⟩ := herr
    unfold withQuality at hall
    simp only [he] at hall
    cases hall
    rfl

/-- One signal with two channels, the second a delayed copy of the first. -/
theorem C130_two_channels (x y : List ℝ) (d : ℤ) (h : Delayed y x d) (i j : ℕ)
    (hi : i < overlap x y d) (hj : j < overlap x y d)
    (hij : x.getD (i + (-d).toNat) 0 ≠ x.getD (j + (-d).toNat) 0) :
    latencyChannels [x, y] = .ok ([d], [some 1]) := by
  have h1 := C130_delayed [y] [x] (fun _ => d) rfl
    (fun c hc => by
      obtain rfl : c = 0 := by simpa using hc
      exact h)
    (fun c hc => by
      obtain rfl : c = 0 := by simpa using hc
      exact ⟨i, j, hi, hj, hij⟩)
  have h2 : latency1 [x, y] = latency2 true [y] [x] := rfl
  unfold latencyChannels
  unfold latencyBoth at h1
  rw [h2]
  exact h1

theorem ext_nat (l : List ℝ) (n : ℕ) : ext l (n : ℤ) = l.getD n 0 := by
  unfold ext
  rw [if_pos (by omega), Int.toNat_natCast]

theorem reversed_delayed :
    Delayed ([0, 5, 7, 0] : List ℝ) [5, 7, 0, 0] 1 ∧ Delayed ([0, 0, 5, 7] : List ℝ) [5, 7, 0, 0] 2 := by
  constructor <;>
  · intro j
    rcases lt_or_ge j 0 with hj | hj
    · simp only [ext, if_neg (not_le.mpr hj)]
      rw [if_neg (by omega)]
    · obtain ⟨n, rfl⟩ := Int.eq_ofNat_of_zero_le hj
      rcases n with _ | _ | _ | _ | n
      · simp [ext]
      · simp [ext]
      · simp [ext]
      · simp [ext]
      · first
          | rw [show ((n + 1 + 1 + 1 + 1 : ℕ) : ℤ) - 1 = ((n + 3 : ℕ) : ℤ) by push_cast; ring,
              ext_nat, ext_nat]
            simp
          | rw [show ((n + 1 + 1 + 1 + 1 : ℕ) : ℤ) - 2 = ((n + 2 : ℕ) : ℤ) by push_cast; ring,
              ext_nat, ext_nat]
            rcases n with _ | _ | n <;> simp

/-- With three or more channels the latencies come in reversed order but are judged in the order of
the channels: for the exact copies delayed by 1 and 2 samples the correlation of the first pair is
reported as -1, and that of the second is not 1 either. -/
theorem C130_channels_wrong : ∃ r : Option ℝ, r ≠ some 1 ∧
    latencyChannels [[5, 7, 0, 0], [0, 5, 7, 0], [0, 0, 5, 7]] = .ok ([2, 1], [some (-1), r]) := by
  have hl : latency1 ([[5, 7, 0, 0], [0, 5, 7, 0], [0, 0, 5, 7]] : List (List ℝ)) = .ok [2, 1] := by
    have := C48_one_signal_reversed ([[5, 7, 0, 0], [0, 5, 7, 0], [0, 0, 5, 7]] : List (List ℝ))
      (fun c => (c : ℤ)) (by simp) (fun c h1 h2 => by
        have : c = 1 ∨ c = 2 := by simp at h2; omega
        rcases this with rfl | rfl
        · exact reversed_delayed.1
        · exact reversed_delayed.2) ⟨0, by simp [ext]⟩
    rw [this]
    rfl
  have h1 : corrPair ([5, 7, 0, 0] : List ℝ) [0, 5, 7, 0] 2 = .ok (some (-1)) := by
    have := C130_affine ([5, 7, 0, 0] : List ℝ) [0, 5, 7, 0] 2 (-7 / 2) (49 / 2) (by norm_num)
      (fun i hi => by
        have hi : i < 2 := hi
        have : i = 0 ∨ i = 1 := by omega
        rcases this with rfl | rfl
        · show (7 : ℝ) = -7 / 2 * 5 + 49 / 2
          norm_num
        · show (0 : ℝ) = -7 / 2 * 7 + 49 / 2
          norm_num) 0 1 (by decide) (by decide) (by show (5 : ℝ) ≠ 7; norm_num)
    rw [this, if_neg (by norm_num)]
  obtain ⟨r, hr⟩ : ∃ r, corrPair ([5, 7, 0, 0] : List ℝ) [0, 0, 5, 7] 1 = .ok r := by
    rw [corrPair_eq, if_neg (by decide)]
    exact ⟨_, rfl⟩
  refine ⟨r, ?_, ?_⟩
  · rintro rfl
    obtain ⟨g, o, -, ho⟩ := (C130_only_affine _ _ _ _ hr).1 rfl
    have e0 : (0 : ℝ) = g * 5 + o := ho 0 (by decide)
    have e1 : (5 : ℝ) = g * 7 + o := ho 1 (by decide)
    have e2 : (7 : ℝ) = g * 0 + o := ho 2 (by decide)
    linarith
  · unfold latencyChannels
    rw [hl]
    have hc : correlations [([5, 7, 0, 0] : List ℝ)] [[0, 5, 7, 0], [0, 0, 5, 7]] [2, 1] =
        .ok [some (-1), r] := by
      unfold correlations
      show [0, 1].mapM _ = _
      rw [List.mapM_cons, List.mapM_cons]
      show (corrPair ([5, 7, 0, 0] : List ℝ) [0, 5, 7, 0] 2 >>= fun x =>
        ((corrPair ([5, 7, 0, 0] : List ℝ) [0, 0, 5, 7] 1) >>= fun y => pure [y]) >>= fun y =>
          pure (x :: y)) = _
      rw [h1, hr]
      rfl
    show Except.ok (withQuality [([5, 7, 0, 0] : List ℝ)] [[0, 5, 7, 0], [0, 0, 5, 7]] [2, 1]) = _
    unfold withQuality
    rw [hc]

/-- Concrete cases: a copy delayed by one sample; and a good pair next to a silent channel. -/
example : latencyChannels [([5, 7, 0, 0] : List ℝ), [0, 5, 7, 0]] = .ok ([1], [some 1]) :=
  C130_two_channels _ _ 1 reversed_delayed.1 0 1 (by decide) (by decide)
    (by show (5 : ℝ) ≠ 7; norm_num)

example (lats : List ℤ) (r : List (Option ℝ))
    (h : latencyBoth true [[0, 5, 7, 0], [0, 0, 0, 0]] [([5, 7, 0, 0] : List ℝ), [5, 7, 0, 0]] =
      .ok (lats, r)) : r = lats.map fun _ => some 0 :=
  C130_silent_channel_wrong _ _ lats r h 1 (by decide) (by simp) (by simp) (by simp)

/-! ### Removing a latency from a phase -/

/-- The result is a phase in the usual range that turns the phase forward by the latency. -/
theorem C130_phase (fs : ℕ) (latency f phase : ℝ) :
    -Real.pi ≤ removeLatency fs latency f phase ∧ removeLatency fs latency f phase < Real.pi ∧
    Complex.exp (removeLatency fs latency f phase * Complex.I) =
      Complex.exp (phase * Complex.I) *
        Complex.exp (2 * Real.pi * f * (latency / fs) * Complex.I) := by
  refine ⟨(Helpers.C46_range _).1, (Helpers.C46_range _).2, ?_⟩
  obtain ⟨k, hk⟩ := Helpers.C46_turns (phase + 2 * Real.pi * f * (latency / fs))
  unfold removeLatency
  rw [hk, ← Complex.exp_add]
  push_cast
  rw [show ((phase : ℂ) + 2 * Real.pi * f * (latency / fs) + k * (2 * Real.pi)) * Complex.I =
    (phase * Complex.I + 2 * Real.pi * f * (latency / fs) * Complex.I) + k * (2 * Real.pi * Complex.I)
    from by ring, Complex.exp_add _ ((k : ℂ) * _), Complex.exp_int_mul_two_pi_mul_I, mul_one]

/-- A phase that was delayed by the latency comes back (wrapped), whatever whole turns were added
in between. -/
theorem C130_phase_restored (fs : ℕ) (latency f phase : ℝ) (k : ℤ) :
    removeLatency fs latency f (phase - 2 * Real.pi * f * (latency / fs) + k * (2 * Real.pi)) =
      Helpers.wrapPhase phase := by
  unfold removeLatency
  rw [show phase - 2 * Real.pi * f * (latency / fs) + k * (2 * Real.pi) +
    2 * Real.pi * f * (latency / fs) = phase + k * (2 * Real.pi) from by ring]
  exact (Helpers.C46_idempotent phase k).2

/-- Two latencies are removed like their sum. -/
theorem C130_phase_twice (fs : ℕ) (l1 l2 f phase : ℝ) :
    removeLatency fs l2 f (removeLatency fs l1 f phase) = removeLatency fs (l1 + l2) f phase := by
  obtain ⟨k, hk⟩ := Helpers.C46_turns (phase + 2 * Real.pi * f * (l1 / fs))
  unfold removeLatency
  rw [hk, show phase + 2 * Real.pi * f * (l1 / fs) + k * (2 * Real.pi) + 2 * Real.pi * f * (l2 / fs) =
    (phase + 2 * Real.pi * f * ((l1 + l2) / fs)) + k * (2 * Real.pi) from by ring]
  exact (Helpers.C46_idempotent _ k).2

end Verif.Latency

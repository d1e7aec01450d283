import Verif.Lemmas.ReverbTail
import Mathlib.Tactic.Positivity

/-!
# C138: mixing time, reverberant tail and synthetic room impulse response
-/

namespace Verif.ReverbTail

open Verif.Room Verif.SignalData

/-! ### The mixing time -/

/-- **C138**: in the physical mode the mixing time is the time after which the given number of
reflections per second has been reached, `4πc³t² = nV`; in the perceptual mode it is 21.2 ms plus
0.58 ms per root of the volume.  Other modes, and numbers of reflections that are not positive in the
physical mode, are refused. -/
theorem C138_mixing_time (V n c : ℝ) (hV : 0 < V) (hc : 0 < c) :
    (0 < n → ∃ t, mixingTime V .physical n c = .ok t ∧ 0 < t ∧ 4 * Real.pi * c ^ 3 * t ^ 2 = n * V) ∧
    (n ≤ 0 → mixingTime V .physical n c = .error .assertionError) ∧
    (∃ t, mixingTime V .perceptual n c = .ok t ∧ 0.0212 < t ∧
      (1000 * t - 21.2) ^ 2 = 0.58 ^ 2 * V) ∧
    mixingTime V .other n c = .error .assertionError := by
  refine ⟨?_, ?_, ?_, rfl⟩
  · intro hn
    have := Real.pi_pos
    refine ⟨_, if_pos hn, by positivity, ?_⟩
    rw [Real.sq_sqrt (by positivity)]
    field_simp
  · intro hn
    exact if_neg (not_lt.mpr hn)
  · refine ⟨_, rfl, ?_, ?_⟩
    · have : 0 < √V := Real.sqrt_pos.mpr hV
      norm_num
      linarith
    · have : (1000 * ((√V * 0.58 + 21.2) * 1e-3) - 21.2) ^ 2 = 0.58 ^ 2 * (√V) ^ 2 := by
        ring
      rw [this, Real.sq_sqrt hV.le]

/-- **C138**: a larger room has a longer mixing time. -/
theorem C138_mixing_monotone (V V' n c : ℝ) (hV : 0 < V) (hc : 0 < c) (hn : 0 < n) (h : V < V')
    (m : Mode) (t t' : ℝ) (h1 : mixingTime V m n c = .ok t) (h2 : mixingTime V' m n c = .ok t') :
    t < t' := by
  have := Real.pi_pos
  cases m with
  | other => cases h1
  | perceptual =>
    obtain rfl := Except.ok.inj h1
    obtain rfl := Except.ok.inj h2
    have := Real.sqrt_lt_sqrt hV.le h
    norm_num
    linarith
  | physical =>
    unfold mixingTime at h1 h2
    simp only [if_pos hn] at h1 h2
    obtain rfl := Except.ok.inj h1
    obtain rfl := Except.ok.inj h2
    apply Real.sqrt_lt_sqrt (by positivity)
    gcongr

/-- **C138**: the method saves the value it returns; a refused call leaves the room as it was. -/
theorem C138_mixing_saved (r : RoomState) (m : Mode) (n c : ℝ) :
    (∃ t, mixingTime r.volume m n c = .ok t ∧ getMixingTime r m n c =
      (.ok t, ⟨r.dims, r.t60, r.absorption, some t⟩)) ∨
    (∃ e, mixingTime r.volume m n c = .error e ∧ getMixingTime r m n c = (.error e, r)) := by
  unfold getMixingTime
  cases h : mixingTime r.volume m n c with
  | error e => exact Or.inr ⟨e, rfl, rfl⟩
  | ok t => exact Or.inl ⟨t, rfl, rfl⟩

/-! ### The tail -/

/-- What a successful call does. -/
theorem addTail_ok {x : List ℝ} {mixing t60 sr : ℝ} {g : ℕ → ℝ} {r : List (Option ℝ)}
    (h : addTail x mixing t60 sr g = .ok r) :
    ∃ d, FirstNonzero x d ∧ d + ⌊mixing * sr⌋₊ < x.length ∧ r.length = x.length ∧
      ∀ i < x.length, r.getD i none =
        if d + ⌊mixing * sr⌋₊ ≤ i ∧ x.getD i 0 = 0 then
          if peak (x.length - d - ⌊mixing * sr⌋₊) (decaying g t60 sr) = 0 then none
          else (gain x (x.length - d - ⌊mixing * sr⌋₊)).map fun a =>
            decaying g t60 sr (i - (d + ⌊mixing * sr⌋₊)) /
              peak (x.length - d - ⌊mixing * sr⌋₊) (decaying g t60 sr) * a
        else some (x.getD i 0) := by
  unfold addTail at h
  rcases direct_cases x with ⟨d, hd, hf, -⟩ | ⟨hd, -⟩
  · rw [hd] at h
    dsimp only at h
    rcases Nat.lt_or_ge (d + ⌊mixing * sr⌋₊) x.length with hl | hl
    swap
    · rw [if_pos hl] at h; cases h
    rw [if_neg (by omega)] at h
    obtain rfl := Except.ok.inj h
    refine ⟨d, hf, hl, by simp, ?_⟩
    intro i hi
    rw [List.getD_eq_getElem _ _ (by simpa using hi), List.getElem_map, List.getElem_range]
    rw [show x.length - (x.length - d - ⌊mixing * sr⌋₊) = d + ⌊mixing * sr⌋₊ by omega]
  · rw [hd] at h
    cases h

/-- **C138**: adding a tail keeps the length, every sample that is not 0, and all samples before the
mixing time after the direct sound. -/
theorem C138_kept (x : List ℝ) (mixing t60 sr : ℝ) (g : ℕ → ℝ) (r : List (Option ℝ))
    (h : addTail x mixing t60 sr g = .ok r) :
    r.length = x.length ∧ (∀ i < x.length, x.getD i 0 ≠ 0 → r.getD i none = some (x.getD i 0)) ∧
    ∀ d, FirstNonzero x d → ∀ i < d + ⌊mixing * sr⌋₊, i < x.length →
      r.getD i none = some (x.getD i 0) := by
  obtain ⟨d, hf, -, hl, hr⟩ := addTail_ok h
  refine ⟨hl, fun i hi hx => ?_, fun d' hd' i hi hx => ?_⟩
  · rw [hr i hi, if_neg fun c => hx c.2]
  · rw [first_unique hf hd'] at hr
    rw [hr i hx, if_neg fun c => absurd c.1 (by omega)]

/-- **C138**: the zeros after the mixing time are filled with the magnitudes of the random numbers, times a
decaying exponential and one common gain.  The largest magnitude of this noise is half the median of
the samples around the start of the tail that are not 0.  (For tails longer than 50 samples whose
surroundings are not silent.) -/
theorem C138_noise_partial (x : List ℝ) (mixing t60 sr : ℝ) (g : ℕ → ℝ) (r : List (Option ℝ))
    (h : addTail x mixing t60 sr g = .ok r) (d s : ℕ) (hd : FirstNonzero x d)
    (hs : s = d + ⌊mixing * sr⌋₊) (h50 : s + 50 < x.length)
    (hg : ∃ k < x.length - s, g k ≠ 0)
    (hw : ∃ j, s - 50 ≤ j ∧ j < s + 50 ∧ x.getD j 0 ≠ 0) :
    ∃ a P : ℝ, 0 < P ∧
      (∀ k < x.length - s, |g k| * Real.exp (-(6.86 * k / (t60 * sr))) ≤ P) ∧
      (∃ k < x.length - s, |g k| * Real.exp (-(6.86 * k / (t60 * sr))) = P) ∧
      (let w := ((x.take (s + 50)).drop (s - 50)).filter fun v => decide (v ≠ 0)
       2 * w.countP (fun v => decide (v < 2 * a)) ≤ w.length ∧
       2 * w.countP (fun v => decide (2 * a < v)) ≤ w.length ∧
       ∀ lo hi, (∀ j, s - 50 ≤ j → j < s + 50 → x.getD j 0 ≠ 0 → lo ≤ x.getD j 0 ∧ x.getD j 0 ≤ hi) →
         lo ≤ 2 * a ∧ 2 * a ≤ hi) ∧
      ∀ i < x.length, s ≤ i → x.getD i 0 = 0 → r.getD i none =
        some (a * (|g (i - s)| * Real.exp (-(6.86 * (i - s : ℕ) / (t60 * sr))) / P)) := by
  obtain ⟨d', hf, hlt, hl, hr⟩ := addTail_ok h
  obtain rfl := first_unique hf hd
  have e : ∀ k, decaying g t60 sr k = |g k| * Real.exp (-(6.86 * k / (t60 * sr))) := by
    intro k
    unfold decaying
    congr 2
    rw [← div_div]
    ring
  have hn : x.length - d' - ⌊mixing * sr⌋₊ = x.length - s := by omega
  rw [hn, ← hs] at hr
  have hP := peak_ne_zero (x.length - s) g t60 sr hg
  cases hgain : gain x (x.length - s) with
  | none =>
    exfalso
    obtain ⟨j, h1, h2, h3⟩ := hw
    refine h3 ((gain_none_iff x (x.length - s) (by omega) (by omega)).mp hgain j ?_ ?_)
    · omega
    · omega
  | some a =>
    refine ⟨a, _, hP, ?_, ?_, ?_, ?_⟩
    · intro k hk
      rw [← e]
      exact peak_le _ _ _ hk
    · obtain ⟨k, hk, h1⟩ := peak_mem (x.length - s) (decaying g t60 sr) (by omega)
        (decaying_nonneg g t60 sr)
      exact ⟨k, hk, by rw [← e, h1]⟩
    · unfold gain at hgain
      dsimp only at hgain
      rw [slice_long x _ (by omega) (by omega), show x.length - (x.length - s) = s by omega] at hgain
      dsimp only
      split_ifs at hgain with hwin
      injection hgain with hgain
      have ha : 2 * a = CSM.median (((x.take (s + 50)).drop (s - 50)).filter
          fun v => decide (v ≠ 0)) := by
        rw [← hgain]
        norm_num
        ring
      rw [ha]
      obtain ⟨c1, c2⟩ := median_counts _ hwin
      refine ⟨c1, c2, ?_⟩
      intro lo hi hb
      obtain ⟨⟨v, hv, h1⟩, ⟨u, hu, h2⟩⟩ := median_between _ hwin
      rw [List.mem_filter] at hv hu
      obtain ⟨j, j1, j2, -, rfl⟩ := (mem_take_drop _ _ _ _).mp hv.1
      obtain ⟨k, k1, k2, -, rfl⟩ := (mem_take_drop _ _ _ _).mp hu.1
      exact ⟨(hb j j1 j2 (by simpa using hv.2)).1.trans h1,
        h2.trans (hb k k1 k2 (by simpa using hu.2)).2⟩
    · intro i hi h1 h2
      rw [hr i hi, if_pos ⟨h1, h2⟩, if_neg hP.ne', hgain, Option.map_some, e]
      congr 1
      ring

/-- **C138**: the added noise is never louder than half of the loudest sample around the start of the
tail, and it has no negative samples if those have none. -/
theorem C138_level_partial (x : List ℝ) (mixing t60 sr : ℝ) (g : ℕ → ℝ) (r : List (Option ℝ))
    (h : addTail x mixing t60 sr g = .ok r) (d s : ℕ) (hd : FirstNonzero x d)
    (hs : s = d + ⌊mixing * sr⌋₊) (h50 : s + 50 < x.length)
    (hg : ∃ k < x.length - s, g k ≠ 0)
    (hw : ∃ j, s - 50 ≤ j ∧ j < s + 50 ∧ x.getD j 0 ≠ 0) (B : ℝ)
    (hB : ∀ j, s - 50 ≤ j → j < s + 50 → |x.getD j 0| ≤ B) (i : ℕ) (hi : i < x.length) (hsi : s ≤ i)
    (h0 : x.getD i 0 = 0) :
    ∃ v, r.getD i none = some v ∧ |v| ≤ B / 2 ∧
      ((∀ j, s - 50 ≤ j → j < s + 50 → 0 ≤ x.getD j 0) → 0 ≤ v) := by
  obtain ⟨a, P, hP, hle, -, ⟨-, -, hb⟩, hr⟩ := C138_noise_partial x mixing t60 sr g r h d s hd hs h50 hg hw
  refine ⟨_, hr i hi hsi h0, ?_, ?_⟩
  · have ha := hb (-B) B (fun j j1 j2 _ => abs_le.mp (hB j j1 j2))
    have hk := hle (i - s) (by omega)
    have q0 : 0 ≤ |g (i - s)| * Real.exp (-(6.86 * (i - s : ℕ) / (t60 * sr))) / P := by positivity
    have q1 : |g (i - s)| * Real.exp (-(6.86 * (i - s : ℕ) / (t60 * sr))) / P ≤ 1 :=
      (div_le_one hP).mpr hk
    rw [abs_mul, abs_of_nonneg q0]
    have ha' : |a| ≤ B / 2 := abs_le.mpr ⟨by linarith [ha.1], by linarith [ha.2]⟩
    calc |a| * _ ≤ |a| * 1 := mul_le_mul_of_nonneg_left q1 (abs_nonneg a)
      _ ≤ B / 2 := by rw [mul_one]; exact ha'
  · intro hpos
    have ha := hb 0 B (fun j j1 j2 _ => ⟨hpos j j1 j2, (le_abs_self _).trans (hB j j1 j2)⟩)
    have : 0 ≤ a := by linarith [ha.1]
    positivity

/-- **C138**: the call fails exactly if the response has less than two samples that are not 0
(IndexError) or if it is over before the mixing time after the direct sound (ValueError). -/
theorem C138_errors (x : List ℝ) (mixing t60 sr : ℝ) (g : ℕ → ℝ) (e : Err) :
    addTail x mixing t60 sr g = .error e ↔
      (e = .indexError ∧ ∀ i j, x.getD i 0 ≠ 0 → x.getD j 0 ≠ 0 → i = j) ∨
      (e = .valueError ∧ (∃ i j, i ≠ j ∧ x.getD i 0 ≠ 0 ∧ x.getD j 0 ≠ 0) ∧
        ∃ d, FirstNonzero x d ∧ x.length ≤ d + ⌊mixing * sr⌋₊) := by
  unfold addTail
  rcases direct_cases x with ⟨d, hd, hf, j, hj, hx⟩ | ⟨hd, hx⟩
  · rw [hd]
    dsimp only
    constructor
    · intro h
      split_ifs at h with hl
      injection h with h
      exact Or.inr ⟨h.symm, ⟨d, j, Ne.symm hj, hf.1, hx⟩, d, hf, hl⟩
    · rintro (⟨-, h⟩ | ⟨rfl, -, d', hd', hl⟩)
      · exact absurd (h j d hx hf.1) hj
      · rw [first_unique hf hd', if_pos hl]
  · rw [hd]
    dsimp only
    constructor
    · intro h
      injection h with h
      exact Or.inl ⟨h.symm, hx⟩
    · rintro (⟨rfl, -⟩ | ⟨-, ⟨i, j, hij, h1, h2⟩, -⟩)
      · rfl
      · exact absurd (hx i j h1 h2) hij

/-- **C138**, not so: a response with a direct sound that is longer than its mixing time gets a tail.
A direct sound without any reflection raises IndexError, for every length. -/
theorem C138_single_wrong (n d : ℕ) (v : ℝ) (mixing t60 sr : ℝ) (g : ℕ → ℝ) :
    addTail ((List.range n).map fun i => if i = d then v else 0) mixing t60 sr g =
      .error .indexError := by
  rw [C138_errors]
  left
  refine ⟨rfl, ?_⟩
  have key : ∀ i, ((List.range n).map fun i => if i = d then v else 0).getD i 0 ≠ 0 → i = d := by
    intro i hi
    have hl := nonzero_lt hi
    rw [List.getD_eq_getElem _ _ hl, List.getElem_map, List.getElem_range] at hi
    by_contra hn
    exact hi (if_neg hn)
  intro i j hi hj
  rw [key i hi, key j hj]

/-- **C138**, not so: the response with its tail consists of numbers.  With at most 50 samples after the
mixing time (in responses of at least 100 samples) the window of the gain is empty, and every zero of
the tail turns into nan. -/
theorem C138_short_tail_wrong (x : List ℝ) (mixing t60 sr : ℝ) (g : ℕ → ℝ) (r : List (Option ℝ))
    (h : addTail x mixing t60 sr g = .ok r) (d : ℕ) (hd : FirstNonzero x d)
    (h50 : x.length ≤ d + ⌊mixing * sr⌋₊ + 50) (hl : 100 ≤ x.length) (i : ℕ) (hi : i < x.length)
    (hs : d + ⌊mixing * sr⌋₊ ≤ i) (h0 : x.getD i 0 = 0) : r.getD i none = none := by
  obtain ⟨d', hf, -, -, hr⟩ := addTail_ok h
  obtain rfl := first_unique hf hd
  rw [hr i hi, if_pos ⟨hs, h0⟩, gain_short x _ (by omega) hl]
  simp

/-- **C138**, not so: the same happens to longer tails if the 100 samples around the mixing time are
silent. -/
theorem C138_silent_window_wrong (x : List ℝ) (mixing t60 sr : ℝ) (g : ℕ → ℝ) (r : List (Option ℝ))
    (h : addTail x mixing t60 sr g = .ok r) (d : ℕ) (hd : FirstNonzero x d)
    (h50 : d + ⌊mixing * sr⌋₊ + 50 < x.length)
    (hw : ∀ j, d + ⌊mixing * sr⌋₊ - 50 ≤ j → j < d + ⌊mixing * sr⌋₊ + 50 → x.getD j 0 = 0)
    (i : ℕ) (hi : i < x.length)
    (hs : d + ⌊mixing * sr⌋₊ ≤ i) (h0 : x.getD i 0 = 0) : r.getD i none = none := by
  obtain ⟨d', hf, -, -, hr⟩ := addTail_ok h
  obtain rfl := first_unique hf hd
  rw [hr i hi, if_pos ⟨hs, h0⟩, (gain_none_iff x _ (by omega) (by omega)).mpr (fun j h1 h2 =>
    hw j (by omega) (by omega))]
  simp

/-! ### The synthetic response -/

/-- **C138**: source and receiver must be in the room; otherwise the call fails and the room stays as it
was.  A response without tail is that of the image source method, cut or padded with zeros to the
given length, and the room is not changed. -/
theorem C138_synthetic (r : RoomState) (s p : Fin 3 → ℝ) (sr length : ℝ) (tail : Bool)
    (mo : Option ℕ) (g : ℕ → ℝ) :
    ((∃ i, r.dims i < s i ∨ r.dims i < p i) →
      generateSynthetic r s p sr length tail mo g = (.error .assertionError, r)) ∧
    ((∀ i, s i ≤ r.dims i ∧ p i ≤ r.dims i) →
      ∀ h, generateRir r.dims [r.absorption] s p r.t60 mo sr = .ok h →
      ∃ y, generateSynthetic r s p sr length false mo g = (.ok y, r) ∧ y.length = ⌊length * sr⌋₊ ∧
        ∀ i < ⌊length * sr⌋₊, y.getD i none = some (h.getD i 0)) := by
  unfold generateSynthetic
  constructor
  · rintro ⟨i, hi | hi⟩
    · rw [if_pos fun h => absurd (h i) (not_le.mpr hi)]
    · by_cases h1 : inRoom r.dims s
      · rw [if_neg (not_not.mpr h1), if_pos fun h => absurd (h i) (not_le.mpr hi)]
      · rw [if_pos h1]
  · intro hin h hh
    have i1 : inRoom r.dims s := fun i => (hin i).1
    have i2 : inRoom r.dims p := fun i => (hin i).2
    rw [if_neg (not_not.mpr i1), if_neg (not_not.mpr i2), hh]
    dsimp only
    refine ⟨_, by rw [if_neg (by simp)], by rw [List.length_map, padTrim_length], ?_⟩
    intro i hi
    rw [List.getD_eq_getElem _ _ (by rw [List.length_map, padTrim_length]; exact hi),
      List.getElem_map, ← padTrim_end h _ _ hi,
      List.getD_eq_getElem _ _ (by rw [padTrim_length]; exact hi)]

/-- **C138**: a tail only fills zeros: wherever the response without tail is not 0, the one with tail
is the same.  A mixing time that the room already has is used and kept; otherwise the physical one
for 1000 reflections is used and saved.  Nothing else in the room changes. -/
theorem C138_synthetic_tail (r r' : RoomState) (s p : Fin 3 → ℝ) (sr length : ℝ)
    (mo : Option ℕ) (g : ℕ → ℝ) (y : List (Option ℝ)) (hpos : ∀ i, 0 < r.dims i)
    (h : generateSynthetic r s p sr length true mo g = (.ok y, r')) :
    ∃ z t, generateSynthetic r s p sr length false mo g = (.ok z, r) ∧
      y.length = z.length ∧ (∀ i v, z.getD i none = some v → v ≠ 0 → y.getD i none = some v) ∧
      r' = ⟨r.dims, r.t60, r.absorption, some t⟩ ∧
      (∀ t', r.mixing = some t' → t = t') ∧
      (r.mixing = none → 0 < t ∧
        4 * Real.pi * 343 ^ 3 * t ^ 2 = 1000 * (r.dims 0 * r.dims 1 * r.dims 2)) := by
  unfold generateSynthetic at h ⊢
  by_cases h1 : inRoom r.dims s
  swap
  · rw [if_pos h1] at h; cases h
  by_cases h2 : inRoom r.dims p
  swap
  · rw [if_neg (not_not.mpr h1), if_pos h2] at h; cases h
  · rw [if_neg (not_not.mpr h1), if_neg (not_not.mpr h2)] at h ⊢
    cases hr : generateRir r.dims [r.absorption] s p r.t60 mo sr with
    | error e => rw [hr] at h; cases h
    | ok x =>
      rw [hr] at h
      dsimp only at h ⊢
      rw [if_pos rfl] at h
      have fill : ∀ (t : ℝ) (y : List (Option ℝ)),
          addTail (padTrim x ⌊length * sr⌋₊ true) t r.t60 sr g = .ok y →
          y.length = ((padTrim x ⌊length * sr⌋₊ true).map some).length ∧
          ∀ i v, ((padTrim x ⌊length * sr⌋₊ true).map some).getD i none = some v → v ≠ 0 →
            y.getD i none = some v := by
        intro t y hy
        obtain ⟨hl, hk, -⟩ := C138_kept _ _ _ _ _ _ hy
        refine ⟨by rw [hl, List.length_map], ?_⟩
        intro i v hv hv0
        have hi : i < (padTrim x ⌊length * sr⌋₊ true).length := by
          by_contra hn
          rw [List.getD_eq_default _ _ (by rw [List.length_map]; omega)] at hv
          cases hv
        rw [List.getD_eq_getElem _ _ (by rw [List.length_map]; exact hi), List.getElem_map] at hv
        injection hv with hv
        have e : (padTrim x ⌊length * sr⌋₊ true).getD i 0 = v := by
          rw [List.getD_eq_getElem _ _ hi, hv]
        rw [hk i hi (by rw [e]; exact hv0), e]
      cases hm : r.mixing with
      | some t =>
        rw [hm] at h
        dsimp only at h
        injection h with ha hb
        obtain ⟨f1, f2⟩ := fill t y ha
        refine ⟨_, t, by rw [if_neg (by simp)], f1, f2, ?_, ?_, ?_⟩
        · rw [← hb]
          cases r
          simp_all
        · intro t' ht'
          exact Option.some.inj ht'
        · intro hn; cases hn
      | none =>
        rw [hm] at h
        dsimp only at h
        have hV : 0 < r.volume := by
          unfold RoomState.volume
          have := hpos 0; have := hpos 1; have := hpos 2
          positivity
        obtain ⟨t, ht, ht0, hte⟩ := (C138_mixing_time r.volume 1000 343 hV (by norm_num)).1 (by norm_num)
        unfold getMixingTime at h
        rw [ht] at h
        dsimp only at h
        injection h with ha hb
        obtain ⟨f1, f2⟩ := fill t y ha
        refine ⟨_, t, by rw [if_neg (by simp)], f1, f2, hb.symm, ?_, ?_⟩
        · intro t' ht'; cases ht'
        · intro _
          exact ⟨ht0, hte⟩

/-! ### Cases which meet the hypotheses -/

/-- Two impulses in 200 samples, the second one at the mixing time. -/
noncomputable def twoImpulses : List ℝ :=
  (List.range 200).map fun i => if i = 10 ∨ i = 60 then 1 else 0

theorem twoImpulses_getD (i : ℕ) : twoImpulses.getD i 0 = if i = 10 ∨ i = 60 then 1 else 0 := by
  unfold twoImpulses
  by_cases hi : i < 200
  · rw [List.getD_eq_getElem _ _ (by simpa using hi), List.getElem_map, List.getElem_range]
  · rw [List.getD_eq_default _ _ (by simpa using hi), if_neg (by omega)]

theorem twoImpulses_first : FirstNonzero twoImpulses 10 := by
  refine ⟨by rw [twoImpulses_getD]; norm_num, fun i hi => ?_⟩
  rw [twoImpulses_getD, if_neg (by omega)]

theorem twoImpulses_ok (mixing t60 sr : ℝ) (g : ℕ → ℝ) (h : ⌊mixing * sr⌋₊ < 190) :
    ∃ r, addTail twoImpulses mixing t60 sr g = .ok r := by
  cases hc : addTail twoImpulses mixing t60 sr g with
  | ok r => exact ⟨r, rfl⟩
  | error e =>
    exfalso
    rcases (C138_errors _ _ _ _ _ _).mp hc with ⟨-, h1⟩ | ⟨-, -, d, hd, hl⟩
    · have := h1 10 60 (by rw [twoImpulses_getD]; norm_num) (by rw [twoImpulses_getD]; norm_num)
      omega
    · rw [first_unique hd twoImpulses_first] at hl
      have : twoImpulses.length = 200 := by simp [twoImpulses]
      omega

/-- The hypotheses of the theorems on the noise hold for a mixing time of 50 samples. -/
example (t60 : ℝ) : ∃ r, addTail twoImpulses 0.5 t60 100 (fun _ => 1) = .ok r ∧
    FirstNonzero twoImpulses 10 ∧ 60 = 10 + ⌊(0.5 : ℝ) * 100⌋₊ ∧ 60 + 50 < twoImpulses.length ∧
    ∃ j, 60 - 50 ≤ j ∧ j < 60 + 50 ∧ twoImpulses.getD j 0 ≠ 0 := by
  have e : ⌊(0.5 : ℝ) * 100⌋₊ = 50 := by
    rw [show (0.5 : ℝ) * 100 = ((50 : ℕ) : ℝ) by norm_num, Nat.floor_natCast]
  obtain ⟨r, hr⟩ := twoImpulses_ok 0.5 t60 100 (fun _ => 1) (by rw [e]; norm_num)
  refine ⟨r, hr, twoImpulses_first, by rw [e], by simp [twoImpulses], 60, by omega, by omega, ?_⟩
  rw [twoImpulses_getD]
  norm_num

/-- A mixing time of 150 samples leaves 40 samples, which all become nan. -/
example (t60 : ℝ) : ∃ r, addTail twoImpulses 1.5 t60 100 (fun _ => 1) = .ok r ∧
    ∀ i, 160 ≤ i → i < 200 → r.getD i none = none := by
  have e : ⌊(1.5 : ℝ) * 100⌋₊ = 150 := by
    rw [show (1.5 : ℝ) * 100 = ((150 : ℕ) : ℝ) by norm_num, Nat.floor_natCast]
  have hl : twoImpulses.length = 200 := by simp [twoImpulses]
  obtain ⟨r, hr⟩ := twoImpulses_ok 1.5 t60 100 (fun _ => 1) (by rw [e]; norm_num)
  refine ⟨r, hr, fun i h1 h2 => ?_⟩
  exact C138_short_tail_wrong _ _ _ _ _ _ hr 10 twoImpulses_first (by rw [e, hl]; norm_num) (by rw [hl]; norm_num)
    i (by omega) (by omega) (by rw [twoImpulses_getD, if_neg (by omega)])

/-- A mixing time of 110 samples leaves 80 samples with silent surroundings. -/
example (t60 : ℝ) : ∃ r, addTail twoImpulses 1.1 t60 100 (fun _ => 1) = .ok r ∧
    r.getD 150 none = none := by
  have e : ⌊(1.1 : ℝ) * 100⌋₊ = 110 := by
    rw [show (1.1 : ℝ) * 100 = ((110 : ℕ) : ℝ) by norm_num, Nat.floor_natCast]
  have hl : twoImpulses.length = 200 := by simp [twoImpulses]
  obtain ⟨r, hr⟩ := twoImpulses_ok 1.1 t60 100 (fun _ => 1) (by rw [e]; norm_num)
  refine ⟨r, hr, ?_⟩
  exact C138_silent_window_wrong _ _ _ _ _ _ hr 10 twoImpulses_first (by rw [e, hl]; norm_num)
    (fun j h1 h2 => by rw [twoImpulses_getD, if_neg (by omega)])
    150 (by omega) (by omega) (by rw [twoImpulses_getD, if_neg (by omega)])

end Verif.ReverbTail
